import Verif.DidvIdentLemmas
import Verif.DidvProps

/-! Property C115: the admittance at a few driven frequencies determines the parameters of a fit. -/

namespace Verif.Didv
open Verif

/-- **C115.**  One pole: two fits with positive resistances which agree at two frequencies have the same impedance,
and their time shifts differ by a whole number of periods of each of the frequencies. -/
theorem one_pole_determined {A t A' t' dt dt' f g : ℝ} (hA : 0 < A) (hA' : 0 < A') (ht : 0 ≤ t) (ht' : 0 ≤ t')
    (hfg : |f| ≠ |g|)
    (h : ∀ u, u = f ∨ u = g → ∃ y, fitY u [A, t, dt] = .ok y ∧ fitY u [A', t', dt'] = .ok y) :
    A = A' ∧ t = t' ∧ (∃ n : ℤ, f * (dt - dt') = n) ∧ ∃ n : ℤ, g * (dt - dt') = n := by
  have nexp : ∀ u d : ℝ, ‖Complex.exp (-2 * Complex.I * Real.pi * u * d)‖ = 1 := by
    intro u d
    rw [show -2 * Complex.I * Real.pi * u * d = ((-2 * Real.pi * u * d : ℝ) : ℂ) * Complex.I by push_cast; ring]
    exact Complex.norm_exp_ofReal_mul_I _
  have hz : ∀ {u a s : ℝ} {x : ℂ}, onePoleY u a s = .ok x → x * onePoleZ u a s = 1 := by
    intro u a s x hx
    unfold onePoleY recipZ at hx
    split_ifs at hx with h0
    cases hx
    field_simp
  have key : ∀ u, u = f ∨ u = g → A ^ 2 + (A * t) ^ 2 * (2 * Real.pi * u) ^ 2 =
      A' ^ 2 + (A' * t') ^ 2 * (2 * Real.pi * u) ^ 2 := by
    intro u hu
    obtain ⟨y, h1, h2⟩ := h u hu
    obtain ⟨x, hx, rfl⟩ := fitY_one h1
    obtain ⟨x', hx', e⟩ := fitY_one h2
    have n := congrArg norm e
    rw [norm_mul, norm_mul, nexp, nexp, mul_one, mul_one] at n
    have m := congrArg norm (hz hx)
    have m' := congrArg norm (hz hx')
    rw [norm_mul, norm_one] at m m'
    have hx0 : ‖x‖ ≠ 0 := fun h0 => by rw [h0, zero_mul] at m; exact zero_ne_one m
    have hZ : ‖onePoleZ u A t‖ = ‖onePoleZ u A' t'‖ := by
      rw [← n] at m'
      exact mul_left_cancel₀ hx0 (m.trans m'.symm)
    have nz : ∀ a s : ℝ, ‖onePoleZ u a s‖ ^ 2 = a ^ 2 + (a * s) ^ 2 * (2 * Real.pi * u) ^ 2 := by
      intro a s
      have : onePoleZ u a s = (a : ℂ) + ((a * s * (2 * Real.pi * u) : ℝ) : ℂ) * Complex.I := by
        unfold onePoleZ
        rw [jw_ang]
        push_cast
        ring
      rw [this, ← Complex.normSq_eq_norm_sq, Complex.normSq_add_mul_I]
      ring
    rw [← nz, ← nz, hZ]
  have kf := key f (Or.inl rfl)
  have kg := key g (Or.inr rfl)
  have hd : (2 * Real.pi * f) ^ 2 - (2 * Real.pi * g) ^ 2 ≠ 0 := sub_ne_zero.2 (ang_sq_ne hfg)
  have e2 : (A * t) ^ 2 = (A' * t') ^ 2 := by
    have : ((A * t) ^ 2 - (A' * t') ^ 2) * ((2 * Real.pi * f) ^ 2 - (2 * Real.pi * g) ^ 2) = 0 := by
      linear_combination kf - kg
    exact sub_eq_zero.1 ((mul_eq_zero.1 this).resolve_right hd)
  have eA : A = A' := by
    have : A ^ 2 = A' ^ 2 := by rw [e2] at kf; linarith
    exact (pow_left_inj₀ hA.le hA'.le two_ne_zero).1 this
  have et : A * t = A' * t' := (pow_left_inj₀ (mul_nonneg hA.le ht) (mul_nonneg hA'.le ht') two_ne_zero).1 e2
  subst eA
  have ett : t = t' := mul_left_cancel₀ hA.ne' et
  subst ett
  have phase : ∀ u, u = f ∨ u = g → ∃ n : ℤ, u * (dt - dt') = n := by
    intro u hu
    obtain ⟨y, h1, h2⟩ := h u hu
    obtain ⟨x, hx, rfl⟩ := fitY_one h1
    obtain ⟨x', hx', e⟩ := fitY_one h2
    rw [hx] at hx'
    cases hx'
    have hx0 : x ≠ 0 := fun h0 => by have := hz hx; rw [h0, zero_mul] at this; exact zero_ne_one this
    have e' := mul_left_cancel₀ hx0 e
    obtain ⟨n, hn⟩ := Complex.exp_eq_exp_iff_exists_int.1 e'
    refine ⟨-n, ?_⟩
    have h2 : (2 * Real.pi * Complex.I : ℂ) ≠ 0 := Complex.two_pi_I_ne_zero
    have : ((u * (dt - dt') : ℝ) : ℂ) = ((-n : ℤ) : ℂ) := by
      apply mul_left_cancel₀ h2
      push_cast
      linear_combination -hn
    exact_mod_cast this
  exact ⟨rfl, rfl, phase f (Or.inl rfl), phase g (Or.inr rfl)⟩

/-- **C115.**  Two poles: fits with the same time shift which agree at two frequencies are the same. -/
theorem two_pole_determined {A B t1 t2 A' B' t1' t2' dt f g : ℝ} (hA : A ≠ 0) (hB : B ≠ 0) (h1 : t1 ≠ 0)
    (hf : f ≠ 0) (hg : g ≠ 0) (hfg : |f| ≠ |g|)
    (h : ∀ u, u = f ∨ u = g → ∃ y, fitY u [A, B, t1, t2, dt] = .ok y ∧ fitY u [A', B', t1', t2', dt] = .ok y) :
    A = A' ∧ B = B' ∧ t1 = t1' ∧ t2 = t2' := by
  have key : ∀ u, u = f ∨ u = g → twoPoleZ u A B t1 t2 = twoPoleZ u A' B' t1' t2' := by
    intro u hu
    obtain ⟨y, e1, e2⟩ := h u hu
    obtain ⟨x, x1, x2⟩ := exp_map_inj (Complex.exp_ne_zero _) e1 e2
    exact recipZ_inj x1 x2
  exact twoPole_ident hA hB h1 hf hg hfg (key f (Or.inl rfl)) (key g (Or.inr rfl))

/-- **C115.**  Three poles: fits with the same time shift which agree at three frequencies are the same. -/
theorem three_pole_determined {A B C t1 t2 t3 A' B' C' t1' t2' t3' dt f g k : ℝ} (hA : A ≠ 0) (hB : B ≠ 0)
    (hC : C ≠ 0) (h1 : t1 ≠ 0) (h3 : t3 ≠ 0)
    (hf : f ≠ 0) (hg : g ≠ 0) (hk : k ≠ 0) (hfg : |f| ≠ |g|) (hfk : |f| ≠ |k|) (hgk : |g| ≠ |k|)
    (h : ∀ u, u = f ∨ u = g ∨ u = k → ∃ y, fitY u [A, B, C, t1, t2, t3, dt] = .ok y ∧
      fitY u [A', B', C', t1', t2', t3', dt] = .ok y) :
    A = A' ∧ B = B' ∧ C = C' ∧ t1 = t1' ∧ t2 = t2' ∧ t3 = t3' := by
  refine threePole_ident hA hB hC h1 h3 hf hg hk hfg hfk hgk fun u hu => ?_
  obtain ⟨y, e1, e2⟩ := h u hu
  obtain ⟨x, x1, x2⟩ := exp_map_inj (Complex.exp_ne_zero _) e1 e2
  unfold threePoleY at x1 x2
  cases hz : threePoleZ u A B C t1 t2 t3 with
  | error e => rw [hz] at x1; cases x1
  | ok z =>
    cases hz' : threePoleZ u A' B' C' t1' t2' t3' with
    | error e => rw [hz'] at x2; cases x2
    | ok z' =>
      rw [hz] at x1
      rw [hz'] at x2
      exact ⟨z, rfl, by rw [recipZ_inj x1 x2]⟩

/-- **C115.**  With the load and the resistance of the detector known, the impedance at two frequencies determines
the two-pole small-signal parameters. -/
theorem tes_determined {rsh rp r0 beta l L tau0 beta' l' L' tau0' f g : ℝ} (hl : l ≠ 1) (hl0 : l ≠ 0) (hl' : l' ≠ 1)
    (hr : r0 ≠ 0) (hb : beta ≠ -2) (hb' : beta' ≠ -2) (hA : rsh + rp + r0 * (1 + beta) ≠ 0) (h1 : rsh + rp ≠ 0)
    (hA' : rsh + rp + r0 * (1 + beta') ≠ 0) (ht : tau0 ≠ 0) (hf : f ≠ 0) (hg : g ≠ 0)
    (hfg : |f| ≠ |g|)
    (h : ∀ u, u = f ∨ u = g → compleximpedance u (sspArgs [rsh, rp, r0, beta, l, L, tau0, 0]) =
      compleximpedance u (sspArgs [rsh, rp, r0, beta', l', L', tau0', 0])) :
    beta = beta' ∧ l = l' ∧ L = L' ∧ tau0 = tau0' := by
  have e : ∀ {b l L t u : ℝ}, l ≠ 1 → rsh + rp + r0 * (1 + b) ≠ 0 →
      compleximpedance u (sspArgs [rsh, rp, r0, b, l, L, t, 0]) =
        .ok (twoPoleZ u (rsh + rp + r0 * (1 + b)) (r0 * l / (1 - l) * (2 + b)) (t / (1 - l))
          (L / (rsh + rp + r0 * (1 + b)))) := by
    intro b l L t u h1 h2
    have h1' : 1 - l ≠ 0 := sub_ne_zero.2 h1.symm
    simp [compleximpedance, sspArgs, poleExtractor, convertFrom, h1', h2]
  have key : ∀ u, u = f ∨ u = g → twoPoleZ u (rsh + rp + r0 * (1 + beta)) (r0 * l / (1 - l) * (2 + beta))
      (tau0 / (1 - l)) (L / (rsh + rp + r0 * (1 + beta))) = twoPoleZ u (rsh + rp + r0 * (1 + beta'))
      (r0 * l' / (1 - l') * (2 + beta')) (tau0' / (1 - l')) (L' / (rsh + rp + r0 * (1 + beta'))) := by
    intro u hu
    have := h u hu
    rw [e hl hA, e hl' hA'] at this
    exact Except.ok.inj this
  have n1 : 1 - l ≠ 0 := sub_ne_zero.2 hl.symm
  have n2 : 1 - l' ≠ 0 := sub_ne_zero.2 hl'.symm
  have n3 : 2 + beta ≠ 0 := fun h => hb (by linarith)
  obtain ⟨e1, e2, e3, e4⟩ := twoPole_ident hA (mul_ne_zero (div_ne_zero (mul_ne_zero hr hl0) n1) n3)
    (div_ne_zero ht n1) hf hg hfg (key f (Or.inl rfl)) (key g (Or.inr rfl))
  obtain ⟨q, c1, -, r1⟩ := (tes_roundtrip (L := L) (tau0 := tau0) (gratio := 0) (tau3 := 0) (dt := 0) hl hr hb hA h1).2.1
  obtain ⟨q', c2, -, r2⟩ := (tes_roundtrip (L := L') (tau0 := tau0') (gratio := 0) (tau3 := 0) (dt := 0) hl' hr hb'
    hA' h1).2.1
  have hq : q = q' := by
    unfold convertFrom at c1 c2
    simp only [n1, n2, hA, hA', or_self, if_false] at c1 c2
    rw [← Except.ok.inj c1, ← Except.ok.inj c2, e4, e1, e2, e3]
  rw [hq, r2] at r1
  simp only [Except.ok.injEq, List.cons.injEq, and_true, true_and] at r1
  exact ⟨r1.1.symm, r1.2.1.symm, r1.2.2.1.symm, r1.2.2.2.symm⟩

/-- **C115.**  The resistance of the detector is not determined by its admittance, which is why it has to be given:
for (almost) any other value there are small-signal parameters with the same impedance at all frequencies. -/
theorem r0_undetermined {rsh rp r0 r0' A B t1 t2 dt : ℝ} (hA : A ≠ 0) (hr : r0 ≠ 0) (hr' : r0' ≠ 0)
    (hD : A + B + r0 - (rsh + rp) ≠ 0) (hN : A + r0 - (rsh + rp) ≠ 0) (hD' : A + B + r0' - (rsh + rp) ≠ 0)
    (hN' : A + r0' - (rsh + rp) ≠ 0) :
    ∃ q q', convertTo [A, B, t1, t2, dt] rsh r0 rp = .ok q ∧ convertTo [A, B, t1, t2, dt] rsh r0' rp = .ok q' ∧
      ∀ f, compleximpedance f (sspArgs q) = .ok (twoPoleZ f A B t1 t2) ∧
        compleximpedance f (sspArgs q') = .ok (twoPoleZ f A B t1 t2) := by
  have key : ∀ {r : ℝ}, r ≠ 0 → A + B + r - (rsh + rp) ≠ 0 → A + r - (rsh + rp) ≠ 0 →
      ∃ q, convertTo [A, B, t1, t2, dt] rsh r rp = .ok q ∧
        ∀ f, compleximpedance f (sspArgs q) = .ok (twoPoleZ f A B t1 t2) := by
    intro r h1 h2 h3
    obtain ⟨q, c, hlen, hb⟩ := (fit_roundtrip (C := 0) (tau1 := t1) (tau2 := t2) (tau3 := 0) (dt := dt) hA h1 h2 h3).2.1
    refine ⟨q, c, fun f => ?_⟩
    match q, hlen with
    | [a, b, c, d, e, g, h, i], _ =>
      have hb0 : convertFrom [a, b, c, d, e, g, h, 0] = .ok [A, B, t1, t2, 0] := by
        unfold convertFrom at hb ⊢
        simp only at hb ⊢
        split_ifs at hb ⊢ with h0
        have := Except.ok.inj hb
        simp only [List.cons.injEq, and_true] at this
        obtain ⟨x1, x2, x3, x4, x5⟩ := this
        rw [x4, x1, x2, x3]
      simp [compleximpedance, sspArgs, poleExtractor, hb0]
  obtain ⟨q, c, h⟩ := key hr hD hN
  obtain ⟨q', c', h'⟩ := key hr' hD' hN'
  exact ⟨q, q', c, c', fun f => ⟨h f, h' f⟩⟩

/-- **C115.**  Nor is the sign: at the odd harmonics, where the drive has power, an inverted detector shifted by
half a period has the same response.  The bounds on `A` decide. -/
theorem sign_undetermined {f0 : ℝ} (hf : f0 ≠ 0) (m : ℤ) (A B t1 t2 dt : ℝ) :
    fitY ((2 * m + 1) * f0) [-A, -B, t1, t2, dt + 1 / (2 * f0)] = fitY ((2 * m + 1) * f0) [A, B, t1, t2, dt] := by
  have hZ : ∀ u : ℝ, twoPoleZ u (-A) (-B) t1 t2 = -twoPoleZ u A B t1 t2 := by
    intro u
    unfold twoPoleZ
    push_cast
    ring
  have hY : ∀ u : ℝ, twoPoleY u (-A) (-B) t1 t2 = (twoPoleY u A B t1 t2).map fun y => -y := by
    intro u
    unfold twoPoleY recipZ
    rw [hZ]
    by_cases h0 : twoPoleZ u A B t1 t2 = 0
    · rw [if_pos h0, if_pos (by rw [h0, neg_zero])]
      rfl
    · rw [if_neg h0, if_neg (neg_ne_zero.2 h0)]
      change Except.ok _ = Except.ok _
      rw [one_div, one_div, inv_neg]
  have hE : Complex.exp (-2 * Complex.I * Real.pi * (((2 * m + 1) * f0 : ℝ) : ℂ) * ((dt + 1 / (2 * f0) : ℝ) : ℂ)) =
      -Complex.exp (-2 * Complex.I * Real.pi * (((2 * m + 1) * f0 : ℝ) : ℂ) * (dt : ℂ)) := by
    have hf' : (f0 : ℂ) ≠ 0 := Complex.ofReal_ne_zero.2 hf
    have : -2 * Complex.I * Real.pi * (((2 * m + 1) * f0 : ℝ) : ℂ) * ((dt + 1 / (2 * f0) : ℝ) : ℂ) =
        -2 * Complex.I * Real.pi * (((2 * m + 1) * f0 : ℝ) : ℂ) * (dt : ℂ) + Real.pi * Complex.I +
          ((-m - 1 : ℤ) : ℂ) * (2 * Real.pi * Complex.I) := by
      push_cast
      field_simp
      ring
    rw [this, Complex.exp_add, Complex.exp_int_mul_two_pi_mul_I, mul_one, Complex.exp_add, Complex.exp_pi_mul_I]
    ring
  unfold fitY
  simp only
  rw [hY, hE]
  cases twoPoleY ((2 * m + 1) * f0) A B t1 t2 with
  | error e => rfl
  | ok y =>
    change Except.ok (-y * -_) = Except.ok (y * _)
    rw [neg_mul_neg]

/-- The hypotheses of the theorems are met by a detector with a loop gain of one half, at 1 and 3 Hz. -/
example : (1 / 2 : ℝ) ≠ 1 ∧ (1 : ℝ) + 0 + 1 * (1 + 0) ≠ 0 ∧ |(1 : ℝ)| ≠ |(3 : ℝ)| ∧
    (∃ y, fitY 1 [1, 1, 0] = .ok y) ∧ ∃ y, fitY 1 [2, 1, 1, 1, 0] = .ok y := by
  have hw : (1 : ℂ) + jw 1 * (1 : ℝ) ≠ 0 := one_jw_ne 1 1
  refine ⟨by norm_num, by norm_num, by norm_num, ?_, ?_⟩
  · unfold fitY onePoleY recipZ onePoleZ
    simp only
    rw [if_neg (mul_ne_zero (by norm_num) hw)]
    exact ⟨_, rfl⟩
  · unfold fitY twoPoleY recipZ
    simp only
    rw [if_neg]
    · exact ⟨_, rfl⟩
    · intro h
      unfold twoPoleZ at h
      have h2 : (2 : ℂ) * (1 + jw 1 * (1 : ℝ)) ^ 2 + 1 = 0 := by
        have := congrArg (fun z => z * (1 + jw 1 * ((1 : ℝ) : ℂ))) h
        simp only [zero_mul] at this
        rw [← this]
        field_simp
        push_cast
        ring
      rw [jw_ang] at h2
      have := congrArg Complex.im h2
      simp [pow_two] at this

end Verif.Didv
