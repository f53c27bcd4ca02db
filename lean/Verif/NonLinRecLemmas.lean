import Verif.NonLinIdentProps
import Verif.NonLinRecSpec
import Verif.DidvShiftLemmas

/-! Lemmas for the recovery of pulses by the non-linear fits: the start time of a sum of exponentials is determined
by its spectrum, and what a successful search returns. -/

namespace Verif.NonLin

open Verif Verif.Dft Polynomial

/-- `1 + i ω τ` at the bin `j + 1`, as a polynomial in `j`. -/
noncomputable def lin (w τ : ℝ) : ℂ[X] := 1 + Polynomial.C ((w * τ : ℝ) * Complex.I) * (X + 1)

/-- Numerator and denominator of a sum of poles. -/
noncomputable def denP (w : ℝ) : List (ℝ × ℝ) → ℂ[X]
  | [] => 1
  | p :: l => lin w p.2 * denP w l

noncomputable def numP (w : ℝ) : List (ℝ × ℝ) → ℂ[X]
  | [] => 0
  | p :: l => Polynomial.C ((p.1 * p.2 : ℝ) : ℂ) * denP w l + lin w p.2 * numP w l

theorem lin_eval (w τ : ℝ) (j : ℕ) : (lin w τ).eval (j : ℂ) = 1 + (((j + 1 : ℕ) * w : ℝ) : ℂ) * τ * Complex.I := by
  simp only [lin, eval_add, eval_one, eval_mul, eval_C, eval_X]
  push_cast
  ring

theorem lin_degree (w τ : ℝ) : (lin w τ).natDegree ≤ 1 := by
  unfold lin
  compute_degree

theorem frac_spec (w : ℝ) (l : List (ℝ × ℝ)) (j : ℕ) : (denP w l).eval (j : ℂ) ≠ 0 ∧
    (numP w l).eval (j : ℂ) = spec l ((j + 1 : ℕ) * w) * (denP w l).eval (j : ℂ) := by
  induction l with
  | nil => simp [denP, numP, spec]
  | cons p l ih =>
    have h := one_add_I_ne' ((j + 1 : ℕ) * w) p.2
    rw [← lin_eval] at h
    refine ⟨by rw [denP, eval_mul]; exact mul_ne_zero h ih.1, ?_⟩
    rw [numP, denP, eval_add, eval_mul, eval_mul, eval_mul, eval_C, ih.2]
    rw [show spec (p :: l) ((j + 1 : ℕ) * w) = (p.1 : ℂ) * pole p.2 ((j + 1 : ℕ) * w) + spec l ((j + 1 : ℕ) * w) from by
      simp [spec], pole, ← lin_eval]
    field_simp
    push_cast
    ring

theorem denP_degree (w : ℝ) (l : List (ℝ × ℝ)) : (denP w l).natDegree ≤ l.length := by
  induction l with
  | nil => simp [denP]
  | cons p l ih =>
    rw [denP, List.length_cons]
    have := natDegree_mul_le (p := lin w p.2) (q := denP w l)
    have := lin_degree w p.2
    omega

theorem numP_degree (w : ℝ) (l : List (ℝ × ℝ)) : (numP w l).natDegree + 1 ≤ l.length ∨ numP w l = 0 := by
  induction l with
  | nil => right; rfl
  | cons p l ih =>
    left
    rw [numP, List.length_cons]
    have h1 : (Polynomial.C ((p.1 * p.2 : ℝ) : ℂ) * denP w l).natDegree ≤ l.length :=
      (natDegree_C_mul_le _ _).trans (denP_degree w l)
    have h2 : (lin w p.2 * numP w l).natDegree ≤ l.length := by
      rcases ih with ih | ih
      · have := natDegree_mul_le (p := lin w p.2) (q := numP w l)
        have := lin_degree w p.2
        omega
      · rw [ih, mul_zero, natDegree_zero]; exact Nat.zero_le _
    have := natDegree_add_le_of_degree_le h1 h2
    omega

theorem cross_degree (w : ℝ) (l m : List (ℝ × ℝ)) : (numP w m * denP w l).degree < (l.length + m.length : ℕ) := by
  rcases numP_degree w m with h | h
  · have h1 := natDegree_mul_le (p := numP w m) (q := denP w l)
    have h2 := denP_degree w l
    exact degree_le_natDegree.trans_lt (by exact_mod_cast (by omega))
  · rw [h, zero_mul, degree_zero]
    exact WithBot.bot_lt_coe _

theorem phase_pow (f0 d : ℝ) (j : ℕ) : Didv.phase ((j + 1 : ℕ) * f0) d = Didv.phase f0 d * Didv.phase f0 d ^ j := by
  unfold Didv.phase
  rw [← Complex.exp_nat_mul, ← Complex.exp_add]
  congr 1
  push_cast
  ring

/-- Sums of poles which agree up to a phase proportional to the frequency. -/
theorem spec_phase {l m : List (ℝ × ℝ)} {f0 d : ℝ} (hf : 0 < f0) (hl : ∀ p ∈ l, p.2 ≠ 0) (h0 : coef l ≠ 0)
    (h : ∀ j : ℕ, j < 2 * (l.length + m.length) → spec l ((j + 1 : ℕ) * (2 * Real.pi * f0)) =
      Didv.phase ((j + 1 : ℕ) * f0) d * spec m ((j + 1 : ℕ) * (2 * Real.pi * f0))) : ∃ i : ℤ, f0 * d = i := by
  by_contra hno
  have hw : Didv.phase f0 d ≠ 1 := fun e => hno (Didv.phase_one e)
  have hc := Didv.phase_ne f0 d
  set w := 2 * Real.pi * f0 with hwdef
  have hw0 : 0 < w := by have := Real.pi_pos; positivity
  set D := l.length + m.length with hD
  have hP := (Didv.exp_poly hw hc (b := D) D (P := numP w l * denP w m)
    (Q := Polynomial.C (-Didv.phase f0 d) * (numP w m * denP w l)) (by
      have := cross_degree w m l
      rwa [add_comm m.length] at this)
    (by rw [degree_C_mul (neg_ne_zero.2 hc)]; exact cross_degree w l m) (fun j hj => by
      rw [eval_mul, eval_mul (p := Polynomial.C _), eval_C, eval_mul, (frac_spec w l j).2, (frac_spec w m j).2,
        h j (by omega), phase_pow]
      ring)).1
  have hnum : ∀ j : ℕ, spec l ((j + 1 : ℕ) * w) = 0 := by
    intro j
    have e := congrArg (eval (j : ℂ)) hP
    rw [eval_zero, eval_mul, (frac_spec w l j).2] at e
    exact ((mul_eq_zero.1 e).resolve_right (frac_spec w m j).1 |> mul_eq_zero.1).resolve_right (frac_spec w l j).1
  apply h0
  have := spec_inj (m := []) hl (by simp) ((Finset.range l.length).image fun j : ℕ => ((j + 1 : ℕ) * w : ℝ)) (by
    rw [Finset.card_image_of_injective]
    · simp
    · intro a b e
      have := mul_right_cancel₀ hw0.ne' e
      have : a + 1 = b + 1 := by exact_mod_cast this
      omega) (by
    intro ω hω
    obtain ⟨j, -, rfl⟩ := Finset.mem_image.1 hω
    rw [hnum j]
    simp [spec])
  rw [this]
  funext τ
  simp [coef]

variable {n : ℕ} [NeZero n]

/-- The start time of a sum of exponentials. -/
theorem spec_shift {o : Obj n} (hfs : 0 < o.fs) {l m : List (ℝ × ℝ)} (hl : ∀ p ∈ l, p.2 ≠ 0)
    (hm : ∀ p ∈ m, p.2 ≠ 0) (hn : 4 * (l.length + m.length) < n) (h0 : coef l ≠ 0) {t t' : ℝ}
    (h : ∀ k, k ≠ 0 → spec l (o.omega k) * Complex.exp (-Complex.I * o.omega k * t) =
      spec m (o.omega k) * Complex.exp (-Complex.I * o.omega k * t')) :
    coef l = coef m ∧ ∃ j : ℤ, t' = t + j * (n / o.fs) := by
  have hn0 : (0 : ℝ) < n := by exact_mod_cast NeZero.pos n
  have hf : 0 < o.fs / n := div_pos hfs hn0
  have hlen : 0 < l.length := by
    rcases l with _ | ⟨p, l⟩
    · exact absurd (by funext τ; simp [coef]) h0
    · simp
  obtain ⟨i, hi⟩ := spec_phase (m := m) (d := t' - t) hf hl h0 fun j hj => by
    have hb := omega_bin (o := o) (j := j + 1) (n := n) (by omega)
    have e := h ((j + 1 : ℕ) : ZMod n) (bin_ne (by omega) (by omega))
    rw [hb] at e
    rw [show (2 * Real.pi * (o.fs / n)) = 2 * Real.pi * o.fs / n by ring]
    have hx := Complex.exp_ne_zero (-Complex.I * (((j + 1 : ℕ) * (2 * Real.pi * o.fs / n) : ℝ) : ℂ) * t)
    refine mul_right_cancel₀ hx (e.trans ?_)
    have hp : Didv.phase ((j + 1 : ℕ) * (o.fs / n)) (t' - t) *
        Complex.exp (-Complex.I * (((j + 1 : ℕ) * (2 * Real.pi * o.fs / n) : ℝ) : ℂ) * t) =
        Complex.exp (-Complex.I * (((j + 1 : ℕ) * (2 * Real.pi * o.fs / n) : ℝ) : ℂ) * t') := by
      rw [Didv.phase, ← Complex.exp_add]
      congr 1
      push_cast
      ring
    rw [← hp]
    ring
  have ht : t' = t + i * (n / o.fs) := by
    have : t' - t = i * (n / o.fs) := by
      rw [← hi]
      field_simp
    linarith
  refine ⟨?_, i, ht⟩
  refine spec_inj_bins hfs hl hm (by omega) (fun k => Complex.exp (-Complex.I * o.omega k * t))
    (fun k => Complex.exp_ne_zero _) fun k hk => ?_
  rw [h k hk]
  congr 1
  rw [Complex.exp_eq_exp_iff_exists_int]
  refine ⟨-(freqIdx k * i), ?_⟩
  have := hfs.ne'
  have : (o.fs : ℂ) ≠ 0 := by exact_mod_cast this
  have : (n : ℂ) ≠ 0 := by exact_mod_cast NeZero.ne n
  rw [ht]
  unfold Obj.omega fftfreq
  push_cast
  field_simp
  ring

/-- Terms with distinct times and no vanishing amplitude are only obtained from distinct times. -/
theorem nodup_of_coef {l m : List (ℝ × ℝ)} (hd : (l.map Prod.snd).Nodup) (h0 : ∀ p ∈ l, p.1 ≠ 0)
    (hlen : m.length ≤ l.length) (h : coef l = coef m) : (m.map Prod.snd).Nodup := by
  classical
  have hsub : l.map Prod.snd ⊆ m.map Prod.snd := by
    intro τ hτ
    obtain ⟨p, hp, rfl⟩ := List.mem_map.1 hτ
    have := ((mem_iff_coef hd h0 p.1 p.2).1 hp).2
    by_contra hno
    rw [h, coef_of_not_mem (fun q hq e => hno (List.mem_map.2 ⟨q, hq, e⟩))] at this
    exact h0 p hp this.symm
  have h1 : (l.map Prod.snd).toFinset.card ≤ (m.map Prod.snd).toFinset.card :=
    Finset.card_le_card fun x hx => List.mem_toFinset.2 (hsub (List.mem_toFinset.1 hx))
  rw [List.toFinset_card_of_nodup hd, List.length_map] at h1
  have h2 := List.toFinset_card_le (m.map Prod.snd)
  rw [List.length_map] at h2
  rw [← Multiset.coe_nodup, ← Multiset.toFinset_card_eq_card_iff_nodup]
  simp only [Multiset.coe_card, List.length_map]
  rw [show (↑(m.map Prod.snd) : Multiset ℝ).toFinset = (m.map Prod.snd).toFinset from rfl]
  omega

theorem coef_ne {l : List (ℝ × ℝ)} (hd : (l.map Prod.snd).Nodup) (h0 : ∀ p ∈ l, p.1 ≠ 0) (hl : l ≠ []) :
    coef l ≠ 0 := by
  obtain ⟨p, hp⟩ := List.exists_mem_of_ne_nil l hl
  intro e
  have := ((mem_iff_coef hd h0 p.1 p.2).1 hp).2
  rw [e] at this
  exact h0 p hp this.symm

/-! ### What a successful search returns -/

theorem sq_sum_nonneg (r : List ℝ) : 0 ≤ (r.map (· ^ 2)).sum := by
  refine List.sum_nonneg fun x hx => ?_
  obtain ⟨y, -, rfl⟩ := List.mem_map.1 hx
  exact sq_nonneg y

theorem error_pos {psd : ZMod n → ℝ} {fs errscale : ℝ} (tmpl : Option (List ℝ)) (pulse : ZMod n → ℝ) (npole : ℤ)
    (tau : Option ℝ) (scale : Bool) (hpsd : ∀ k, k ≠ 0 → 0 < psd k) (herr : 0 < errscale) (k : ZMod n) :
    0 < ((init psd fs tmpl).prepare pulse npole errscale tau scale).error k := by
  refine Real.sqrt_pos.2 (div_pos ?_ herr)
  by_cases hk : k = 0
  · subst hk
    simp [init]
  · simp [init, Function.update_of_ne hk, hpsd k hk]

theorem residuals_ok {o : Obj n} (herr : ∀ k, 0 < o.error k) {x : List ℝ} {m : ZMod n → ℂ} (h : o.model x = .ok m) :
    o.residuals x = .ok (flatten (fun k => o.data k - m k) o.error) := by
  unfold Obj.residuals
  rw [h]
  exact if_neg fun ⟨k, hk⟩ => absurd (herr k) (not_lt.2 hk)

theorem residuals_model {o : Obj n} {x r : List ℝ} (h : o.residuals x = .ok r) :
    ∃ m, o.model x = .ok m ∧ r = flatten (fun k => o.data k - m k) o.error := by
  unfold Obj.residuals at h
  cases hm : o.model x with
  | error e => rw [hm] at h; cases h
  | ok m =>
    rw [hm] at h
    simp only at h
    split_ifs at h
    cases h
    exact ⟨m, rfl, rfl⟩

/-- The residuals vanish only at the data. -/
theorem sq_zero_iff {data m : ZMod n → ℂ} {error : ZMod n → ℝ} (herr : ∀ k, 0 < error k) :
    ((flatten (fun k => data k - m k) error).map (· ^ 2)).sum = 0 ↔ ∀ k, data k = m k := by
  rw [flatten_sq, Finset.sum_eq_zero_iff_of_nonneg fun k _ => by positivity]
  refine ⟨fun h k => ?_, fun h k _ => by rw [h k]; simp⟩
  have := h k (Finset.mem_univ _)
  rw [div_eq_zero_iff] at this
  rcases this with h | h
  · exact sub_eq_zero.1 (norm_eq_zero.1 (pow_eq_zero_iff two_ne_zero |>.1 h))
  · exact absurd (pow_eq_zero_iff two_ne_zero |>.1 h) (herr k).ne'

/-- A search over points one of which reproduces the data returns such a point. -/
theorem best_exact {o : Obj n} (herr : ∀ k, 0 < o.error k) {b : List EReal × List EReal}
    {solve : List ℝ → List EReal × List EReal → Lsq n} (hsolve : Finds o.residuals solve) {x : List ℝ}
    (hx : Within b x) {m : ZMod n → ℂ} (hm : o.model x = .ok m) (hdata : ∀ k, o.data k = m k) (p0 : List ℝ) :
    Within b (solve p0 b).x ∧ ∃ m', o.model (solve p0 b).x = .ok m' ∧ ∀ k, o.data k = m' k := by
  have hz := (sq_zero_iff (m := m) herr).2 hdata
  obtain ⟨hw, r, hr, hmin⟩ := hsolve p0 b ⟨x, hx, _, residuals_ok herr hm, fun x' r' _ _ => by
    rw [hz]; exact sq_sum_nonneg r'⟩
  obtain ⟨m', hm', rfl⟩ := residuals_model hr
  refine ⟨hw, m', hm', (sq_zero_iff herr).1 (le_antisymm ?_ (sq_sum_nonneg _))⟩
  rw [← hz]
  exact hmin x _ hx (residuals_ok herr hm)

/-- A fit of data which one point within the bounds reproduces succeeds and returns such a point. -/
theorem run_exact {o : Obj n} (herr : ∀ k, 0 < o.error k) {pulse : ZMod n → ℝ} {guess : Option (List ℝ)}
    {bounds : Option (List EReal × List EReal)} {tau : Option ℝ}
    {solve : List ℝ → List EReal × List EReal → Lsq n} (hsolve : Finds o.residuals solve)
    (htau : ¬ (o.npole = 1 ∧ tau = none)) (hn : dofOf o.npole < n) {p0 : List ℝ} (hs : o.start pulse guess = .ok p0)
    (hv : LsqValid p0 (bounds.getD (o.defaultBounds p0)) p0) {m0 : ZMod n → ℂ} (hp0 : o.model p0 = .ok m0)
    {x : List ℝ} (hx : Within (bounds.getD (o.defaultBounds p0)) x) {m : ZMod n → ℂ} (hm : o.model x = .ok m)
    (hdata : ∀ k, o.data k = m k) :
    ∃ r, o.run pulse guess bounds tau solve = .ok r ∧ r.chi2 = 0 ∧
      Within (bounds.getD (o.defaultBounds p0)) r.lsq.x ∧ ∃ m', o.model r.lsq.x = .ok m' ∧ ∀ k, o.data k = m' k := by
  obtain ⟨hw, m', hm', hd⟩ := best_exact herr hsolve hx hm hdata p0
  obtain ⟨c, hc, -, hz⟩ := chi2_zero herr hn m'
  rw [hz.2 hd] at hc
  unfold Obj.run
  rw [if_neg htau, hs]
  simp only
  rw [if_neg (not_not.2 hv), residuals_ok herr hp0]
  simp only
  rw [hm']
  simp only
  rw [hc]
  exact ⟨_, rfl, rfl, hw, m', hm', hd⟩

omit [NeZero n] in
/-- Start times which agree up to whole traces and are both near the guess. -/
theorem time_eq {fs s t t' : ℝ} {j : ℤ} (hfs : 0 < fs) (hn : 60 < n) (h : t' = t + j * (n / fs))
    (h1 : s - 30 / fs ≤ t) (h2 : t ≤ s + 30 / fs) (h1' : s - 30 / fs ≤ t') (h2' : t' ≤ s + 30 / fs) : t' = t := by
  have hn' : (60 : ℝ) < n := by exact_mod_cast hn
  have e1 : (j : ℝ) * (n / fs) ≤ 60 / fs := by
    have : (60 : ℝ) / fs = 30 / fs + 30 / fs := by ring
    linarith
  have e2 : -(60 / fs) ≤ (j : ℝ) * (n / fs) := by
    have : (60 : ℝ) / fs = 30 / fs + 30 / fs := by ring
    linarith
  rw [← mul_div_assoc, div_le_div_iff_of_pos_right hfs] at e1
  rw [← mul_div_assoc, ← neg_div, div_le_div_iff_of_pos_right hfs] at e2
  have hj : j = 0 := by
    by_contra hj
    rcases lt_or_gt_of_ne hj with hj | hj
    · have : (j : ℝ) ≤ -1 := by exact_mod_cast Int.le_sub_one_of_lt hj
      nlinarith
    · have : (1 : ℝ) ≤ j := by exact_mod_cast hj
      nlinarith
  rw [h, hj]
  simp

omit [NeZero n] in
open Classical in
/-- There are optimisers which find the best point. -/
theorem exists_finds (res : List ℝ → Except Err (List ℝ)) :
    ∃ solve : List ℝ → List EReal × List EReal → Lsq n, Finds res solve := by
  refine ⟨fun p0 b => if h : ∃ x, IsBest res b x then ⟨h.choose, 0, true⟩ else ⟨p0, 0, true⟩, fun p0 b h => ?_⟩
  simp only
  rw [dif_pos h]
  exact h.choose_spec

theorem omega_neg {o : Obj n} (hodd : Odd n) (k : ZMod n) : o.omega (-k) = -o.omega k := by
  unfold Obj.omega fftfreq
  rw [Didv.freqIdx_neg k (by rcases hodd with ⟨a, ha⟩; omega)]
  push_cast
  ring

theorem pole_conj (τ ω : ℝ) : starRingEnd ℂ (pole τ ω) = pole τ (-ω) := by
  unfold pole
  rw [map_div₀, map_add, map_mul, map_mul, map_one, Complex.conj_I]
  simp only [Complex.conj_ofReal]
  push_cast
  ring_nf

theorem exp_conj (ω t : ℝ) : starRingEnd ℂ (Complex.exp (-Complex.I * ω * t)) =
    Complex.exp (-Complex.I * ((-ω : ℝ) : ℂ) * t) := by
  rw [← Complex.exp_conj]
  simp only [map_mul, map_neg, Complex.conj_I, Complex.conj_ofReal]
  push_cast
  ring_nf

/-- A Hermitian spectrum is the data of a trace. -/
theorem trace_of_herm {fs : ℝ} (hfs : 0 < fs) {m : ZMod n → ℂ} (h : ∀ k, m (-k) = starRingEnd ℂ (m k)) :
    ∃ pulse : ZMod n → ℝ, ∀ k, fftR pulse k / (Real.sqrt (fs * n) : ℂ) = m k := by
  have hn : (0 : ℝ) < n := by exact_mod_cast NeZero.pos n
  have hs : ((Real.sqrt (fs * n) : ℝ) : ℂ) ≠ 0 := by
    exact_mod_cast (Real.sqrt_pos.2 (by positivity)).ne'
  obtain ⟨x, hx⟩ := exists_real (fun k => m k * (Real.sqrt (fs * n) : ℂ)) fun k => by
    rw [map_mul, Complex.conj_ofReal, h]
  exact ⟨x, fun k => by rw [hx, mul_div_cancel_right₀ _ hs]⟩

theorem fourpole_herm {o : Obj n} (hodd : Odd n) (A B C τr τ1 τ2 τ3 t : ℝ) (k : ZMod n) :
    o.fourpole A B C τr τ1 τ2 τ3 t (-k) = starRingEnd ℂ (o.fourpole A B C τr τ1 τ2 τ3 t k) := by
  unfold Obj.fourpole
  rw [omega_neg hodd]
  simp only [map_mul, map_sub, map_add, pole_conj, exp_conj, Complex.conj_ofReal]

theorem threepole_herm {o : Obj n} (hodd : Odd n) (A B τr τ1 τ2 t : ℝ) (k : ZMod n) :
    o.threepole A B τr τ1 τ2 t (-k) = starRingEnd ℂ (o.threepole A B τr τ1 τ2 t k) := by
  unfold Obj.threepole
  rw [omega_neg hodd]
  simp only [map_mul, map_sub, map_add, pole_conj, exp_conj, Complex.conj_ofReal]

theorem muon_herm {o : Muon n} (hodd : Odd n) (A τ : ℝ) (k : ZMod n) :
    o.fcn A τ (-k) = starRingEnd ℂ (o.fcn A τ k) := by
  have hw : 2 * Real.pi * fftfreq o.fs (-k) = -(2 * Real.pi * fftfreq o.fs k) := by
    unfold fftfreq
    rw [Didv.freqIdx_neg k (by rcases hodd with ⟨a, ha⟩; omega)]
    push_cast
    ring
  have e : ∀ ω : ℝ, (A : ℂ) * τ / (1 + (ω : ℂ) * τ * Complex.I) = A * pole τ ω := fun ω => by
    unfold pole
    ring
  unfold Muon.fcn
  rw [hw, e, e]
  simp only [map_mul, pole_conj, Complex.conj_ofReal]

/-- Points within four, six, eight bounds. -/
theorem within_four {l1 l2 l3 l4 u1 u2 u3 u4 : ℝ} {x : List ℝ}
    (h : Within ([(l1 : EReal), l2, l3, l4], [(u1 : EReal), u2, u3, u4]) x) :
    ∃ a b c d, x = [a, b, c, d] ∧ (l1 ≤ a ∧ a ≤ u1) ∧ (l2 ≤ b ∧ b ≤ u2) ∧ (l3 ≤ c ∧ c ≤ u3) ∧ l4 ≤ d ∧ d ≤ u4 := by
  have hl := h.1.length_eq
  match x, h, hl with
  | [a, b, c, d], h, _ =>
    simp only [Within, List.forall₂_cons, List.forall₂_nil_left_iff, EReal.coe_le_coe_iff, and_true] at h
    exact ⟨a, b, c, d, rfl, by tauto⟩

theorem within_three {l1 l2 l3 u1 u2 u3 : ℝ} {x : List ℝ}
    (h : Within ([(l1 : EReal), l2, l3], [(u1 : EReal), u2, u3]) x) :
    ∃ a b c, x = [a, b, c] ∧ (l1 ≤ a ∧ a ≤ u1) ∧ (l2 ≤ b ∧ b ≤ u2) ∧ l3 ≤ c ∧ c ≤ u3 := by
  have hl := h.1.length_eq
  match x, h, hl with
  | [a, b, c], h, _ =>
    simp only [Within, List.forall₂_cons, List.forall₂_nil_left_iff, EReal.coe_le_coe_iff, and_true] at h
    exact ⟨a, b, c, rfl, by tauto⟩

theorem within_six {l1 l2 l3 l4 l5 l6 u1 u2 u3 u4 u5 u6 : ℝ} {x : List ℝ}
    (h : Within ([(l1 : EReal), l2, l3, l4, l5, l6], [(u1 : EReal), u2, u3, u4, u5, u6]) x) :
    ∃ a b c d e f, x = [a, b, c, d, e, f] ∧ (l1 ≤ a ∧ a ≤ u1) ∧ (l2 ≤ b ∧ b ≤ u2) ∧ (l3 ≤ c ∧ c ≤ u3) ∧
      (l4 ≤ d ∧ d ≤ u4) ∧ (l5 ≤ e ∧ e ≤ u5) ∧ l6 ≤ f ∧ f ≤ u6 := by
  have hl := h.1.length_eq
  match x, h, hl with
  | [a, b, c, d, e, f], h, _ =>
    simp only [Within, List.forall₂_cons, List.forall₂_nil_left_iff, EReal.coe_le_coe_iff, and_true] at h
    exact ⟨a, b, c, d, e, f, rfl, by tauto⟩

theorem within_eight {l1 l2 l3 l4 l5 l6 l7 l8 u1 u2 u3 u4 u5 u6 u7 u8 : ℝ} {x : List ℝ}
    (h : Within ([(l1 : EReal), l2, l3, l4, l5, l6, l7, l8], [(u1 : EReal), u2, u3, u4, u5, u6, u7, u8]) x) :
    ∃ a b c d e f g i, x = [a, b, c, d, e, f, g, i] ∧ (l1 ≤ a ∧ a ≤ u1) ∧ (l2 ≤ b ∧ b ≤ u2) ∧ (l3 ≤ c ∧ c ≤ u3) ∧
      (l4 ≤ d ∧ d ≤ u4) ∧ (l5 ≤ e ∧ e ≤ u5) ∧ (l6 ≤ f ∧ f ≤ u6) ∧ (l7 ≤ g ∧ g ≤ u7) ∧ l8 ≤ i ∧ i ≤ u8 := by
  have hl := h.1.length_eq
  match x, h, hl with
  | [a, b, c, d, e, f, g, i], h, _ =>
    simp only [Within, List.forall₂_cons, List.forall₂_nil_left_iff, EReal.coe_le_coe_iff, and_true] at h
    exact ⟨a, b, c, d, e, f, g, i, rfl, by tauto⟩

omit [NeZero n] in
theorem twopole_defined {o : Obj n} {A τr τf t : ℝ} (hr : 0 < τr) (hf : 0 < τf) (hne : τr ≠ τf) :
    ∃ m, o.twopole A τr τf t = .ok m := by
  unfold Obj.twopole
  obtain ⟨amp, ha⟩ := scaledAmp_defined A hr hf hne
  rw [ha]
  split_ifs <;> exact ⟨_, rfl⟩

/-- At the highest frequency of an even number of samples the data are real. -/
theorem nyquist_real {a : ℕ} (ha : n = 2 * a) (x : ZMod n → ℝ) : (fftR x ((a : ℕ) : ZMod n)).im = 0 := by
  have h := fftR_neg x ((a : ℕ) : ZMod n)
  have e : -((a : ℕ) : ZMod n) = ((a : ℕ) : ZMod n) := by
    rw [neg_eq_iff_add_eq_zero, ← Nat.cast_add, ← two_mul, ← ha, ZMod.natCast_self]
  rw [e] at h
  exact Complex.conj_eq_iff_im.1 h.symm

theorem muonTau_pos {fs : ℝ} (hfs : 0 < fs) {signal : ZMod n → ℝ} {j : ZMod n}
    (hj : |signal j - ampscale signal / Real.exp 1| < |signal 0 - ampscale signal / Real.exp 1|) :
    ∃ τ, muonTau fs signal = .ok τ ∧ 1 / fs ≤ τ := by
  obtain ⟨i, hi⟩ := argmax_defined (l := (toL signal).map fun y =>
    -|y - ampscale signal / Real.exp 1|) (by
      intro h
      have := congrArg List.length h
      rw [List.length_map, toL_length] at this
      exact NeZero.ne n this)
  have hg : ∀ j < n, ((toL signal).map fun y => -|y - ampscale signal / Real.exp 1|).getD j 0 =
      -|signal (j : ZMod n) - ampscale signal / Real.exp 1| := by
    intro j hj
    simp [toL, hj]
  obtain ⟨i0, i1, i2, -⟩ := argmax_ok hi
  rw [List.length_map, toL_length] at i1 i2
  have hi' : 1 ≤ i := by
    by_contra h
    have := i2 j.val (ZMod.val_lt j)
    rw [hg _ (ZMod.val_lt j), hg _ (by omega), show i = 0 by omega, ZMod.natCast_zmod_val] at this
    simp at this
    exact absurd hj (not_lt.2 this)
  refine ⟨i / fs, by unfold muonTau; rw [hi], ?_⟩
  rw [div_le_div_iff_of_pos_right hfs]
  exact_mod_cast hi'

/-- A muon tail sampled three times: samples 1, 1, 0. -/
noncomputable def exMuon : ZMod 3 → ℝ := fun k => if k = 2 then 0 else 1

theorem exMuon_amp : ampscale exMuon = 1 := by
  have h1 : Finset.univ.sup' Finset.univ_nonempty exMuon = 1 := by
    refine le_antisymm (Finset.sup'_le _ _ fun k _ => by unfold exMuon; split_ifs <;> norm_num) ?_
    exact Finset.le_sup' exMuon (Finset.mem_univ 0)
  have h2 : Finset.univ.inf' Finset.univ_nonempty exMuon = 0 := by
    refine le_antisymm ?_ (Finset.le_inf' _ _ fun k _ => by unfold exMuon; split_ifs <;> norm_num)
    exact Finset.inf'_le exMuon (Finset.mem_univ 2)
  unfold ampscale
  rw [h1, h2]
  norm_num

theorem exMuon_fft : fftR exMuon 0 = 2 ∧ fftR exMuon 1 = 1 / 2 - Real.sqrt 3 / 2 * Complex.I := by
  have hs : ∀ k : ZMod 3, fftR exMuon k = 1 + e (-k) := by
    intro k
    rw [fftR_apply, show (Finset.univ : Finset (ZMod 3)) = {0, 1, 2} from rfl, Finset.sum_insert (by decide),
      Finset.sum_insert (by decide), Finset.sum_singleton]
    have h0 : exMuon 0 = 1 := rfl
    have h1 : exMuon 1 = 1 := rfl
    have h2 : exMuon 2 = 0 := by simp [exMuon]
    rw [h0, h1, h2, zero_mul, one_mul, neg_zero, e_zero]
    simp
  refine ⟨by rw [hs, neg_zero, e_zero]; norm_num, ?_⟩
  have he : e (1 : ZMod 3) = -1 / 2 + Real.sqrt 3 / 2 * Complex.I := by
    have := ZMod.stdAddChar_coe (N := 3) 1
    rw [Int.cast_one] at this
    rw [e, this, show (2 * Real.pi * Complex.I * (1 : ℤ) / (3 : ℕ) : ℂ) = ((2 * Real.pi / 3 : ℝ) : ℂ) * Complex.I by
      push_cast; ring, Complex.exp_mul_I, ← Complex.ofReal_cos, ← Complex.ofReal_sin,
      show 2 * Real.pi / 3 = Real.pi - Real.pi / 3 by ring, Real.cos_pi_sub, Real.sin_pi_sub, Real.cos_pi_div_three,
      Real.sin_pi_div_three]
    push_cast
    ring
  rw [hs, ← conj_e, he]
  simp only [map_add, map_mul, map_div₀, Complex.conj_ofReal, Complex.conj_I, map_neg, map_one, map_ofNat]
  ring

/-- It is exactly the model with decay time `√3` at the sampling rate `3/(2π)`. -/
theorem exMuon_exact (psd : ZMod 3 → ℝ) (k : ZMod 3) :
    fftR exMuon k / (Real.sqrt (3 / (2 * Real.pi) * (3 : ℕ)) : ℂ) =
      (Muon.prepare psd (3 / (2 * Real.pi)) exMuon 1).fcn (4 * Real.pi / (3 * Real.sqrt 3)) (Real.sqrt 3) k := by
  have hpi := Real.pi_pos
  have h3 : (0 : ℝ) < Real.sqrt 3 := Real.sqrt_pos.2 (by norm_num)
  have hfs : (0 : ℝ) < 3 / (2 * Real.pi) := by positivity
  have hs1 : Real.sqrt (3 / (2 * Real.pi) * (3 : ℕ)) = 3 * Real.sqrt (3 / (2 * Real.pi) / (3 : ℕ)) := by
    rw [show (3 / (2 * Real.pi) * (3 : ℕ) : ℝ) = 3 ^ 2 * (3 / (2 * Real.pi) / (3 : ℕ)) by push_cast; ring,
      Real.sqrt_mul (by positivity), Real.sqrt_sq (by norm_num)]
  have hs2 : Real.sqrt (3 / (2 * Real.pi) / (3 : ℕ)) ^ 2 = 1 / (2 * Real.pi) := by
    rw [Real.sq_sqrt (by positivity)]
    push_cast
    field_simp
  have hs0 : Real.sqrt (3 / (2 * Real.pi) / (3 : ℕ)) ≠ 0 := (Real.sqrt_pos.2 (by positivity)).ne'
  have key : ∀ z : ℂ, ∀ w : ℝ, z * (1 + w * Real.sqrt 3 * Complex.I) = 2 → z / (Real.sqrt (3 / (2 * Real.pi) * (3 : ℕ)) : ℂ) =
      ((4 * Real.pi / (3 * Real.sqrt 3) : ℝ) : ℂ) * Real.sqrt 3 / (1 + w * Real.sqrt 3 * Complex.I) *
        Real.sqrt (3 / (2 * Real.pi) / (3 : ℕ)) := by
    intro z w hz
    rw [hs1]
    generalize Real.sqrt (3 / (2 * Real.pi) / (3 : ℕ)) = s at hs2 hs0
    have hd := one_add_I_ne' w (Real.sqrt 3)
    have hs' : (s : ℂ) ≠ 0 := by exact_mod_cast hs0
    have h3' : ((Real.sqrt 3 : ℝ) : ℂ) ≠ 0 := by exact_mod_cast h3.ne'
    have hp' : (Real.pi : ℂ) ≠ 0 := by exact_mod_cast hpi.ne'
    have hs2' : (s : ℂ) ^ 2 * (2 * Real.pi) = 1 := by
      have : s ^ 2 * (2 * Real.pi) = 1 := by rw [hs2]; field_simp
      exact_mod_cast this
    rw [div_eq_iff (by push_cast; exact mul_ne_zero (by norm_num) hs')]
    have : z = 2 / (1 + w * Real.sqrt 3 * Complex.I) := by rw [eq_div_iff hd, hz]
    rw [this]
    push_cast
    generalize (1 + (w : ℂ) * (Real.sqrt 3 : ℂ) * Complex.I) = D at hd
    field_simp
    linear_combination -2 * hs2'
  have hfq : fftfreq (3 / (2 * Real.pi)) (1 : ZMod 3) = 1 / (2 * Real.pi) := by
    unfold fftfreq
    rw [show freqIdx (1 : ZMod 3) = 1 by decide]
    push_cast
    field_simp
  have k0 : fftR exMuon 0 / (Real.sqrt (3 / (2 * Real.pi) * (3 : ℕ)) : ℂ) =
      (Muon.prepare psd (3 / (2 * Real.pi)) exMuon 1).fcn (4 * Real.pi / (3 * Real.sqrt 3)) (Real.sqrt 3) 0 := by
    rw [key _ (2 * Real.pi * fftfreq (3 / (2 * Real.pi)) (0 : ZMod 3)) (by
      rw [exMuon_fft.1]; simp [fftfreq, freqIdx])]
    rfl
  have k1 : fftR exMuon 1 / (Real.sqrt (3 / (2 * Real.pi) * (3 : ℕ)) : ℂ) =
      (Muon.prepare psd (3 / (2 * Real.pi)) exMuon 1).fcn (4 * Real.pi / (3 * Real.sqrt 3)) (Real.sqrt 3) 1 := by
    rw [key _ (2 * Real.pi * fftfreq (3 / (2 * Real.pi)) (1 : ZMod 3)) (by
      rw [exMuon_fft.2, hfq]
      have hq : (Real.sqrt 3 : ℂ) ^ 2 = 3 := by
        have : Real.sqrt 3 ^ 2 = 3 := Real.sq_sqrt (by norm_num)
        exact_mod_cast this
      have : ((2 * Real.pi * (1 / (2 * Real.pi)) : ℝ) : ℂ) = 1 := by
        rw [mul_one_div_cancel (by positivity)]; norm_num
      rw [this]
      linear_combination (1 / 2 : ℂ) * hq - (Real.sqrt 3 : ℂ) ^ 2 / 2 * Complex.I_sq)]
    rfl
  have hc : ∀ k : ZMod 3, k = 0 ∨ k = 1 ∨ k = -1 := by decide
  rcases hc k with rfl | rfl | rfl
  · exact k0
  · exact k1
  · rw [fftR_neg, muon_herm (by decide), ← k1, map_div₀, Complex.conj_ofReal]

end Verif.NonLin
