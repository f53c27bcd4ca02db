import Verif.DidvShiftLemmas

/-! Properties C115, continued, and C133: the time shift is determined as well, and a fit of noise-free data returns the
parameters of the detector. -/

namespace Verif.Didv
open Verif

/-- **C115.**  Two poles: fits which agree at the first eight odd harmonics of the drive have the same impedance,
and their time shifts differ by a whole number of periods. -/
theorem two_pole_shift_determined {A B t1 t2 dt A' B' t1' t2' dt' f0 : ℝ} (hA : 0 < A) (hA' : 0 ≤ A') (hB : B ≠ 0)
    (h1 : t1 ≠ 0) (hf : f0 ≠ 0)
    (h : ∀ j : ℕ, j < 8 → ∃ y, fitY ((2 * j + 1) * f0) [A, B, t1, t2, dt] = .ok y ∧
      fitY ((2 * j + 1) * f0) [A', B', t1', t2', dt'] = .ok y) :
    A = A' ∧ B = B' ∧ t1 = t1' ∧ t2 = t2' ∧ ∃ m : ℤ, f0 * (dt' - dt) = m := by
  have key : ∀ j : ℕ, j < 8 → twoPoleZ ((2 * j + 1) * f0) A B t1 t2 ≠ 0 ∧
      twoPoleZ ((2 * j + 1) * f0) A' B' t1' t2' =
        phase ((2 * j + 1) * f0) (dt' - dt) * twoPoleZ ((2 * j + 1) * f0) A B t1 t2 := by
    intro j hj
    obtain ⟨y, e, e'⟩ := h j hj
    obtain ⟨x, hx, ex⟩ := fitY_two e
    obtain ⟨x', hx', ex'⟩ := fitY_two e'
    obtain ⟨n, -, hz⟩ := impedance_shift hx hx' ex ex'
    exact ⟨n, hz⟩
  obtain ⟨hs, hc⟩ := shift_sign (f0 := f0) (δ := dt' - dt) (degree2 f0 A' B' t1' t2' t1) (degree2 f0 A B t1 t2 t1') (by
      have k := (key 0 (by omega)).1
      have f := frac2 f0 A B t1 t2 0
      have f' := frac2 f0 A' B' t1' t2' 0
      simp only [Nat.cast_zero] at k f f'
      rw [Polynomial.eval_mul, f.2]
      exact mul_ne_zero (mul_ne_zero k f.1) f'.1) (fun j hj => by
      rw [Polynomial.eval_mul, Polynomial.eval_mul, (frac2 f0 A B t1 t2 j).2, (frac2 f0 A' B' t1' t2' j).2,
        (key j (by omega)).2]
      ring)
  obtain ⟨ε, hε, hp⟩ : ∃ ε : ℝ, (ε = 1 ∨ ε = -1) ∧ phase f0 (dt' - dt) = ε := by
    rcases hs with h | h
    · exact ⟨1, Or.inl rfl, by rw [h]; norm_num⟩
    · exact ⟨-1, Or.inr rfl, by rw [h]; norm_num⟩
  have hε0 : ε ≠ 0 := by rcases hε with rfl | rfl <;> norm_num
  have hZ : ∀ j : ℕ, j < 8 → twoPoleZ ((2 * j + 1) * f0) (ε * A) (ε * B) t1 t2 =
      twoPoleZ ((2 * j + 1) * f0) A' B' t1' t2' := by
    intro j hj
    rw [(key j hj).2, hc, hp]
    unfold twoPoleZ
    push_cast
    ring
  obtain ⟨e1, e2, e3, e4⟩ := twoPole_ident (mul_ne_zero hε0 hA.ne') (mul_ne_zero hε0 hB) h1
    (mul_ne_zero (by norm_num) hf) (mul_ne_zero (by norm_num) hf)
    (by rw [abs_mul, abs_mul]; intro e; have := mul_right_cancel₀ (abs_ne_zero.2 hf) e; norm_num at this)
    (hZ 0 (by omega)) (hZ 1 (by omega))
  rcases hε with rfl | rfl
  · rw [one_mul] at e1 e2
    exact ⟨e1, e2, e3, e4, phase_one (by rw [hp]; norm_num)⟩
  · linarith

/-- **C115.**  Three poles: the first twelve odd harmonics determine the impedance and the time shift. -/
theorem three_pole_shift_determined {A B C t1 t2 t3 dt A' B' C' t1' t2' t3' dt' f0 : ℝ} (hA : 0 < A) (hA' : 0 ≤ A')
    (hB : B ≠ 0) (hC : C ≠ 0) (h1 : t1 ≠ 0) (h3 : t3 ≠ 0) (hf : f0 ≠ 0)
    (h : ∀ j : ℕ, j < 12 → ∃ y, fitY ((2 * j + 1) * f0) [A, B, C, t1, t2, t3, dt] = .ok y ∧
      fitY ((2 * j + 1) * f0) [A', B', C', t1', t2', t3', dt'] = .ok y) :
    A = A' ∧ B = B' ∧ C = C' ∧ t1 = t1' ∧ t2 = t2' ∧ t3 = t3' ∧ ∃ m : ℤ, f0 * (dt' - dt) = m := by
  have key : ∀ j : ℕ, j < 12 → ∃ z z', threePoleZ ((2 * j + 1) * f0) A B C t1 t2 t3 = .ok z ∧ z ≠ 0 ∧
      threePoleZ ((2 * j + 1) * f0) A' B' C' t1' t2' t3' = .ok z' ∧
      z' = phase ((2 * j + 1) * f0) (dt' - dt) * z := by
    intro j hj
    obtain ⟨y, e, e'⟩ := h j hj
    obtain ⟨z, x, hz, hx, ex⟩ := fitY_three e
    obtain ⟨z', x', hz', hx', ex'⟩ := fitY_three e'
    obtain ⟨n, -, e⟩ := impedance_shift hx hx' ex ex'
    exact ⟨z, z', hz, n, hz', e⟩
  obtain ⟨hs, hc⟩ := shift_sign (f0 := f0) (δ := dt' - dt) (degree3 f0 A' B' C' t1' t2' t3' C t1 t3)
    (degree3 f0 A B C t1 t2 t3 C' t1' t3') (by
      obtain ⟨z, z', k, n, k', -⟩ := key 0 (by omega)
      have f := frac3 k
      have f' := frac3 k'
      simp only [Nat.cast_zero] at f f'
      rw [Polynomial.eval_mul, f.2]
      exact mul_ne_zero (mul_ne_zero n f.1) f'.1) (fun j hj => by
      obtain ⟨z, z', k, n, k', e⟩ := key j (by omega)
      rw [Polynomial.eval_mul, Polynomial.eval_mul, (frac3 k).2, (frac3 k').2, e]
      ring)
  obtain ⟨ε, hε, hp⟩ : ∃ ε : ℝ, (ε = 1 ∨ ε = -1) ∧ phase f0 (dt' - dt) = ε := by
    rcases hs with h | h
    · exact ⟨1, Or.inl rfl, by rw [h]; norm_num⟩
    · exact ⟨-1, Or.inr rfl, by rw [h]; norm_num⟩
  have hε0 : ε ≠ 0 := by rcases hε with rfl | rfl <;> norm_num
  have hZ : ∀ j : ℕ, j < 12 → ∃ z, threePoleZ ((2 * j + 1) * f0) (ε * A) (ε * B) C t1 t2 t3 = .ok z ∧
      threePoleZ ((2 * j + 1) * f0) A' B' C' t1' t2' t3' = .ok z := by
    intro j hj
    obtain ⟨z, z', k, n, k', e⟩ := key j (by omega)
    refine ⟨z', ?_, k'⟩
    rw [e, hc, hp]
    unfold threePoleZ at k ⊢
    split_ifs at k ⊢ with d
    cases k
    congr 1
    push_cast
    ring
  have ne : ∀ a b : ℝ, |a| ≠ |b| → |a * f0| ≠ |b * f0| := fun a b hab e => by
    rw [abs_mul, abs_mul] at e
    exact hab (mul_right_cancel₀ (abs_ne_zero.2 hf) e)
  obtain ⟨e1, e2, e3, e4, e5, e6⟩ := threePole_ident (mul_ne_zero hε0 hA.ne') (mul_ne_zero hε0 hB) hC h1 h3
    (mul_ne_zero (by norm_num : 2 * ((0 : ℕ) : ℝ) + 1 ≠ 0) hf) (mul_ne_zero (by norm_num : 2 * ((1 : ℕ) : ℝ) + 1 ≠ 0) hf)
    (mul_ne_zero (by norm_num : 2 * ((2 : ℕ) : ℝ) + 1 ≠ 0) hf) (ne _ _ (by norm_num)) (ne _ _ (by norm_num))
    (ne _ _ (by norm_num)) (by
      rintro u (rfl | rfl | rfl)
      · exact hZ 0 (by omega)
      · exact hZ 1 (by omega)
      · exact hZ 2 (by omega))
  rcases hε with rfl | rfl
  · rw [one_mul] at e1 e2
    exact ⟨e1, e2, e3, e4, e5, e6, phase_one (by rw [hp]; norm_num)⟩
  · linarith

/-- **C133.**  A two-pole fit of noise-free data at the odd harmonics returns the parameters of the detector: with
the branch left open, or chosen rightly, and an optimiser which finds the best point. -/
theorem two_pole_recovered {ls : LS} (hls : Finds ls) {pts : List Pt} {A0 B0 C0 a1 a2 a3 d : ℝ} {sub1 : Option Bool}
    {params : List ℝ} {cov : List (List ℝ)} {cost : ℝ} {A B t1 t2 dt f0 : ℝ}
    (h : fitdidv ls pts 2 A0 B0 C0 a1 a2 a3 d sub1 = .ok (params, cov, cost))
    (hd : ∀ p ∈ pts, fitY p.f [A, B, t1, t2, dt] = .ok p.y) (hf : f0 ≠ 0)
    (hh : ∀ j : ℕ, j < 8 → ∃ p ∈ pts, p.f = (2 * j + 1) * f0) (hA : 0 < A) (h2 : 0 ≤ t2)
    (hb : (B < 0 ∧ t1 < 0 ∧ sub1 ≠ some true) ∨ (0 < B ∧ 0 < t1 ∧ sub1 ≠ some false)) :
    cost = 0 ∧ ∃ dt', params = [A, B, t1, t2, dt'] ∧ ∃ m : ℤ, f0 * (dt' - dt) = m := by
  obtain ⟨h0, hp, hin⟩ := fit_exact hls h hd (by
    rcases hb with ⟨b1, b2, b3⟩ | ⟨b1, b2, b3⟩
    · exact Or.inl ⟨b3, .cons (inB_pos hA.le) (.cons (inB_neg b1.le) (.cons (inB_neg b2.le) (.cons (inB_pos h2)
        (.cons (inB_free _) .nil))))⟩
    · exact Or.inr ⟨b3, .cons (inB_pos hA.le) (.cons (inB_pos b1.le) (.cons (inB_pos b2.le) (.cons (inB_pos h2)
        (.cons (inB_free _) .nil))))⟩)
  refine ⟨h0, ?_⟩
  obtain ⟨A', B', t1', t2', dt', rfl, hA'⟩ : ∃ a b c d e, params = [a, b, c, d, e] ∧ inB a (some 0, none) :=
    hin.elim forall_five forall_five
  obtain ⟨rfl, rfl, rfl, rfl, m⟩ := two_pole_shift_determined hA (hA'.1 0 rfl)
    (hb.elim (fun h => h.1.ne) fun h => h.1.ne') (hb.elim (fun h => h.2.1.ne) fun h => h.2.1.ne') hf
    fun j hj => by
      obtain ⟨p, hpp, e⟩ := hh j hj
      exact ⟨p.y, by rw [← e]; exact hd p hpp, by rw [← e]; exact hp p hpp⟩
  exact ⟨dt', rfl, m⟩

/-- **C133.**  The same for three poles. -/
theorem three_pole_recovered {ls : LS} (hls : Finds ls) {pts : List Pt} {A0 B0 C0 a1 a2 a3 d : ℝ}
    {sub1 : Option Bool} {params : List ℝ} {cov : List (List ℝ)} {cost : ℝ} {A B C t1 t2 t3 dt f0 : ℝ}
    (h : fitdidv ls pts 3 A0 B0 C0 a1 a2 a3 d sub1 = .ok (params, cov, cost))
    (hd : ∀ p ∈ pts, fitY p.f [A, B, C, t1, t2, t3, dt] = .ok p.y) (hf : f0 ≠ 0)
    (hh : ∀ j : ℕ, j < 12 → ∃ p ∈ pts, p.f = (2 * j + 1) * f0) (hA : 0 < A) (h2 : 0 ≤ t2) (h3 : 0 < t3)
    (hb : (B < 0 ∧ C < 0 ∧ t1 < 0 ∧ sub1 ≠ some true) ∨ (0 < B ∧ 0 < C ∧ 0 < t1 ∧ sub1 ≠ some false)) :
    cost = 0 ∧ ∃ dt', params = [A, B, C, t1, t2, t3, dt'] ∧ ∃ m : ℤ, f0 * (dt' - dt) = m := by
  obtain ⟨h0, hp, hin⟩ := fit_exact hls h hd (by
    rcases hb with ⟨b1, b2, b3, b4⟩ | ⟨b1, b2, b3, b4⟩
    · exact Or.inl ⟨b4, .cons (inB_pos hA.le) (.cons (inB_neg b1.le) (.cons (inB_neg b2.le) (.cons (inB_neg b3.le)
        (.cons (inB_pos h2) (.cons (inB_pos h3.le) (.cons (inB_free _) .nil))))))⟩
    · exact Or.inr ⟨b4, .cons (inB_pos hA.le) (.cons (inB_pos b1.le) (.cons (inB_pos b2.le) (.cons (inB_pos b3.le)
        (.cons (inB_pos h2) (.cons (inB_pos h3.le) (.cons (inB_free _) .nil))))))⟩)
  refine ⟨h0, ?_⟩
  obtain ⟨A', B', C', t1', t2', t3', dt', rfl, hA'⟩ :
      ∃ a b c d e f g, params = [a, b, c, d, e, f, g] ∧ inB a (some 0, none) :=
    hin.elim forall_seven forall_seven
  obtain ⟨rfl, rfl, rfl, rfl, rfl, rfl, m⟩ := three_pole_shift_determined hA (hA'.1 0 rfl)
    (hb.elim (fun h => h.1.ne) fun h => h.1.ne') (hb.elim (fun h => h.2.1.ne) fun h => h.2.1.ne')
    (hb.elim (fun h => h.2.2.1.ne) fun h => h.2.2.1.ne') h3.ne' hf
    fun j hj => by
      obtain ⟨p, hpp, e⟩ := hh j hj
      exact ⟨p.y, by rw [← e]; exact hd p hpp, by rw [← e]; exact hp p hpp⟩
  exact ⟨dt', rfl, m⟩

/-- **C133.**  One pole, two odd harmonics: the impedance and the time shift are returned, or, as the branch with
`A < 0` is tried as well, an inverted impedance half a period later. -/
theorem one_pole_recovered {ls : LS} (hls : Finds ls) {pts : List Pt} {A0 B0 C0 a1 a2 a3 d : ℝ} {sub1 : Option Bool}
    {params : List ℝ} {cov : List (List ℝ)} {cost : ℝ} {A t2 dt f0 : ℝ}
    (h : fitdidv ls pts 1 A0 B0 C0 a1 a2 a3 d sub1 = .ok (params, cov, cost))
    (hd : ∀ p ∈ pts, fitY p.f [A, t2, dt] = .ok p.y) (hf : f0 ≠ 0)
    (hh : ∀ j : ℕ, j < 2 → ∃ p ∈ pts, p.f = (2 * j + 1) * f0) (hA : 0 < A) (h2 : 0 ≤ t2) (hs : sub1 ≠ some true) :
    cost = 0 ∧ ∃ dt', (params = [A, t2, dt'] ∧ ∃ m : ℤ, f0 * (dt' - dt) = m) ∨
      (params = [-A, t2, dt'] ∧ ∃ m : ℤ, f0 * (dt' - dt) = m + 1 / 2) := by
  obtain ⟨h0, hp, hin⟩ := fit_exact hls h hd
    (Or.inl ⟨hs, .cons (inB_pos hA.le) (.cons (inB_pos h2) (.cons (inB_free _) .nil))⟩)
  refine ⟨h0, ?_⟩
  obtain ⟨A', t2', dt', rfl, ht'⟩ : ∃ a b c, params = [a, b, c] ∧ inB b (some 0, none) := by
    rcases hin with h | h
    · obtain ⟨a, b, c, e, -, f⟩ := forall_three h
      exact ⟨a, b, c, e, f⟩
    · obtain ⟨a, b, c, e, -, f⟩ := forall_three h
      exact ⟨a, b, c, e, f⟩
  have ht : 0 ≤ t2' := ht'.1 0 rfl
  have hne : |f0| ≠ |3 * f0| := by
    intro e
    rw [abs_mul] at e
    have := abs_pos.2 hf
    norm_num at e
    linarith
  have both : ∀ u, u = f0 ∨ u = 3 * f0 → ∃ j : ℕ, u = (2 * j + 1) * f0 ∧ ∃ y, fitY u [A, t2, dt] = .ok y ∧
      fitY u [A', t2', dt'] = .ok y := by
    rintro u (rfl | rfl)
    · obtain ⟨p, hpp, e⟩ := hh 0 (by omega)
      have e : p.f = u := by rw [e]; norm_num
      exact ⟨0, by norm_num, p.y, by rw [← e]; exact hd p hpp, by rw [← e]; exact hp p hpp⟩
    · obtain ⟨p, hpp, e⟩ := hh 1 (by omega)
      have e : p.f = 3 * f0 := by rw [e]; norm_num
      exact ⟨1, by norm_num, p.y, by rw [← e]; exact hd p hpp, by rw [← e]; exact hp p hpp⟩
  have hA0 : A' ≠ 0 := by
    rintro rfl
    obtain ⟨j, -, y, -, e⟩ := both f0 (Or.inl rfl)
    obtain ⟨x, hx, -⟩ := fitY_one e
    unfold onePoleY recipZ onePoleZ at hx
    rw [if_pos (by simp)] at hx
    cases hx
  rcases lt_or_gt_of_ne hA0 with hn | hpos
  · obtain ⟨e1, rfl, ⟨m, hm⟩, -⟩ := one_pole_determined (dt := dt) (dt' := dt' + 1 / (2 * f0)) hA (neg_pos.2 hn) h2 ht hne
      fun u hu => by
        obtain ⟨j, hj, y, e, e'⟩ := both u hu
        refine ⟨y, e, ?_⟩
        rw [hj, one_pole_inverted hf, ← hj]
        exact e'
    refine ⟨dt', Or.inr ⟨by rw [e1, neg_neg], -m - 1, ?_⟩⟩
    push_cast
    rw [← hm]
    field_simp
    ring
  · obtain ⟨rfl, rfl, ⟨m, hm⟩, -⟩ := one_pole_determined hA hpos h2 ht hne fun u hu => by
      obtain ⟨j, hj, y, e, e'⟩ := both u hu
      exact ⟨y, e, e'⟩
    exact ⟨dt', Or.inl ⟨rfl, -m, by push_cast; rw [← hm]; ring⟩⟩

/-- A detector of loop gain below one: there are noise-free data at the odd harmonics, and a fit of them. -/
example : ∃ ls, Finds ls ∧ ∃ pts : List Pt, (∀ p ∈ pts, fitY p.f [1, 1, 1, 1, 0] = .ok p.y) ∧
    (∀ j : ℕ, j < 12 → ∃ p ∈ pts, p.f = (2 * j + 1) * 1) ∧
    ∃ q, fitdidv ls pts 2 1 (-1) 0 (-1) 1 0 1 (some true) = .ok q := by
  obtain ⟨ls, hls, hcov⟩ := finds_exists
  have hne : ∀ f : ℝ, twoPoleZ f 1 1 1 1 ≠ 0 := by
    intro f h0
    have h1 := one_jw_ne f 1
    unfold twoPoleZ at h0
    rw [jw_ang] at h0 h1
    generalize 2 * Real.pi * f = w at *
    have e : (1 + (w : ℂ) * Complex.I) * (1 + (w : ℂ) * Complex.I) + 1 = 0 := by
      push_cast at h0 h1
      rw [mul_one] at h0 h1
      have := (div_eq_zero_iff.1 (by field_simp at h0 ⊢; exact h0 :
        ((1 + (w : ℂ) * Complex.I) ^ 2 + 1) / (1 + (w : ℂ) * Complex.I) = 0)).resolve_right h1
      linear_combination this
    have hr := congrArg Complex.re e
    have hi := congrArg Complex.im e
    simp at hr hi
    have : w = 0 := by linarith
    rw [this] at hr
    norm_num at hr
  have hY : ∀ f d : ℝ, ∃ y, fitY f [1, 1, 1, 1, d] = .ok y := by
    intro f d
    unfold fitY twoPoleY recipZ
    simp only
    rw [if_neg (hne f)]
    exact ⟨_, rfl⟩
  choose Y hY using hY
  let pts : List Pt := (List.range 12).map fun j : ℕ => ⟨(2 * j + 1) * 1, Y ((2 * j + 1) * 1) 0, 1 + Complex.I⟩
  have hres : ∀ l : List Pt, (∀ p ∈ l, p.err = 1 + Complex.I) → ∃ r, residual l [1, 1, 1, 1, 1] = .ok r := by
    intro l
    induction l with
    | nil => intro _; exact ⟨[], rfl⟩
    | cons q l ih =>
      intro h
      obtain ⟨r, hr⟩ := ih fun p hp => h p (List.mem_cons_of_mem _ hp)
      simp only [residual, hY, hr]
      rw [if_neg (by rw [h q List.mem_cons_self]; simp)]
      exact ⟨_, rfl⟩
  refine ⟨ls, hls, pts, ?_, ?_, ?_⟩
  · intro p hp
    obtain ⟨j, -, rfl⟩ := List.mem_map.1 hp
    exact hY _ _
  · intro j hj
    exact ⟨_, List.mem_map.2 ⟨j, List.mem_range.2 hj, rfl⟩, rfl⟩
  · obtain ⟨r, hr⟩ := hres pts fun p hp => by
      obtain ⟨j, -, rfl⟩ := List.mem_map.1 hp
      rfl
    have h2 : List.Forall₂ inB [(1 : ℝ), 1, 1, 1, 1]
        [(some 0, none), (some 0, none), (some 0, none), (some 0, none), (none, none)] :=
      .cons (inB_pos zero_le_one) (.cons (inB_pos zero_le_one) (.cons (inB_pos zero_le_one)
        (.cons (inB_pos zero_le_one) (.cons (inB_free _) .nil))))
    simp [fitdidv, leastSquares, starts, h2, hr, hcov, show ¬ (1 : ℝ) ≤ 0 by norm_num]

end Verif.Didv
