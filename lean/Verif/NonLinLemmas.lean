import Verif.NonLin
import Verif.NonLinSpec
import Verif.UtilsProps
import Verif.NoiseLemmas
import Verif.PinvLemmas
import Mathlib.Analysis.MeanInequalities

/-! Lemmas about the non-linear fits. -/

namespace Verif.NonLin

open Verif Verif.Dft Verif.NonLin.Spec MeasureTheory

variable {n : ℕ} [NeZero n]

/-! ### The transform of exponentials -/

theorem one_add_I_ne (x : ℝ) : (1 + x * Complex.I : ℂ) ≠ 0 := by
  intro h
  have := congrArg Complex.re h
  simp at this

theorem one_add_I_ne' (x y : ℝ) : (1 + x * y * Complex.I : ℂ) ≠ 0 := by
  have := one_add_I_ne (x * y)
  push_cast at this
  exact this

theorem transform_exp {τ : ℝ} (hτ : 0 < τ) (t0 ω : ℝ) :
    IntegrableOn (fun t : ℝ => ((Real.exp (-(t - t0) / τ) : ℝ) : ℂ) * Complex.exp (-Complex.I * ω * t))
      (Set.Ioi t0) ∧
    transform (fun t => Real.exp (-t / τ)) t0 ω = pole τ ω * Complex.exp (-Complex.I * ω * t0) := by
  have hre : (-(1 / τ : ℝ) - Complex.I * ω : ℂ).re < 0 := by
    simp
    exact hτ
  have hτ' : (τ : ℂ) ≠ 0 := by exact_mod_cast hτ.ne'
  have he : ∀ t : ℝ, ((Real.exp (-(t - t0) / τ) : ℝ) : ℂ) * Complex.exp (-Complex.I * ω * t) =
      Complex.exp (t0 / τ) * Complex.exp ((-(1 / τ : ℝ) - Complex.I * ω : ℂ) * t) := by
    intro t
    rw [Complex.ofReal_exp, ← Complex.exp_add, ← Complex.exp_add]
    congr 1
    push_cast
    field_simp
    ring
  constructor
  · simp only [he]
    exact (integrableOn_exp_mul_complex_Ioi hre t0).const_mul _
  · unfold transform
    simp only [he]
    rw [MeasureTheory.integral_const_mul, integral_exp_mul_complex_Ioi hre, pole]
    have h1 : (-(1 / τ : ℝ) - Complex.I * ω : ℂ) ≠ 0 := by
      intro h; rw [h] at hre; simp at hre
    have h2 := one_add_I_ne' ω τ
    have e1 : Complex.exp (t0 / τ) * (-Complex.exp ((-(1 / τ : ℝ) - Complex.I * ω : ℂ) * t0)) =
        -Complex.exp (-Complex.I * ω * t0) := by
      rw [mul_neg, ← Complex.exp_add]
      congr 2
      push_cast
      field_simp
      ring
    have e2 : (-(1 / τ : ℝ) - Complex.I * ω : ℂ) = -(1 + ω * τ * Complex.I) / τ := by
      push_cast
      field_simp
      ring
    rw [mul_div_assoc', e1, e2]
    field_simp

/-- The transform of a combination of decaying exponentials. -/
theorem transform_sum {m : ℕ} (c τ : Fin m → ℝ) (hτ : ∀ i, 0 < τ i) (t0 ω : ℝ) :
    transform (fun t => ∑ i, c i * Real.exp (-t / τ i)) t0 ω =
      (∑ i, c i * pole (τ i) ω) * Complex.exp (-Complex.I * ω * t0) := by
  have h : ∀ t : ℝ, ((∑ i, c i * Real.exp (-(t - t0) / τ i) : ℝ) : ℂ) *
      Complex.exp (-Complex.I * ω * t) = ∑ i, (c i : ℂ) *
        (((Real.exp (-(t - t0) / τ i) : ℝ) : ℂ) * Complex.exp (-Complex.I * ω * t)) := by
    intro t
    rw [Complex.ofReal_sum, Finset.sum_mul]
    refine Finset.sum_congr rfl fun i _ => ?_
    push_cast
    ring
  unfold transform
  simp only [h]
  rw [MeasureTheory.integral_finsetSum _ fun i _ => (transform_exp (hτ i) t0 ω).1.const_mul _,
    Finset.sum_mul]
  refine Finset.sum_congr rfl fun i _ => ?_
  rw [MeasureTheory.integral_const_mul]
  have := (transform_exp (hτ i) t0 ω).2
  unfold transform at this
  rw [this]
  ring

/-! ### Time-domain models -/

omit [NeZero n] in
theorem time_length (o : Obj n) (f : ℝ → ℝ) : (o.time.map f).length = n := by
  simp [Obj.time]

omit [NeZero n] in
/-- Sample `i` of a shifted pulse that vanishes at its start. -/
theorem shifted_sample (o : Obj n) (f : ℝ → ℝ) (h0 : f 0 = 0) (k : ℤ) (hk : 0 ≤ k) (i : ℕ)
    (hi : i < n) : (Utils.shift (o.time.map f) (k : ℤ) 0)[i]? =
      some (if (i : ℤ) ≤ k then 0 else f (((i - k : ℤ) : ℝ) / o.fs)) := by
  have hl := time_length o f
  have hget : ∀ j < n, (o.time.map f)[j]? = some (f ((j : ℝ) / o.fs)) := by
    intro j hj
    simp [Obj.time, hj]
  by_cases hik : k ≤ i
  · obtain ⟨j, hj⟩ := Int.eq_ofNat_of_zero_le (sub_nonneg.2 hik)
    have hjn : j < n := by omega
    rw [Utils.shift_int_moves _ k 0 i j (by rwa [hl]) (by rwa [hl]) (by omega), hget j hjn, hj]
    split_ifs with h
    · have : j = 0 := by omega
      rw [this]
      simp [h0]
    · simp
  · rw [if_pos (by omega), Utils.shift_int_fills _ k 0 i (by rwa [hl])]
    rintro ⟨j, -, hj⟩
    omega

/-! ### Pulse height -/

/-- `u^p (1-u)` is largest at `u = p/(p+1)`. -/
theorem rpow_max {p u : ℝ} (hp : 0 < p) (hu : 0 < u) (hu1 : u ≤ 1) :
    u ^ p * (1 - u) ≤ (p / (p + 1)) ^ p * (1 - p / (p + 1)) := by
  set w := p / (p + 1) with hw
  have hw0 : 0 < w := by positivity
  have hw1 : 1 - w = 1 / (p + 1) := by rw [hw]; field_simp; ring
  have hw1' : 0 < 1 - w := by rw [hw1]; positivity
  have hle := Real.geom_mean_le_arith_mean2_weighted hw0.le hw1'.le (p₁ := u / w)
    (p₂ := (1 - u) / (1 - w)) (by positivity) (div_nonneg (by linarith) hw1'.le) (by ring)
  have e : w * (u / w) + (1 - w) * ((1 - u) / (1 - w)) = 1 := by
    field_simp
    ring
  rw [e] at hle
  have h0 : 0 ≤ (u / w) ^ w * ((1 - u) / (1 - w)) ^ (1 - w) :=
    mul_nonneg (Real.rpow_nonneg (by positivity) _)
      (Real.rpow_nonneg (div_nonneg (by linarith) hw1'.le) _)
  have h2 := Real.rpow_le_rpow h0 hle (by positivity : 0 ≤ p + 1)
  rw [Real.one_rpow, Real.mul_rpow (Real.rpow_nonneg (by positivity) _)
    (Real.rpow_nonneg (div_nonneg (by linarith) hw1'.le) _), ← Real.rpow_mul (by positivity),
    ← Real.rpow_mul (div_nonneg (by linarith) hw1'.le), hw1,
    show w * (p + 1) = p by rw [hw]; field_simp,
    show 1 / (p + 1) * (p + 1) = 1 by field_simp, Real.rpow_one, ← hw1,
    Real.div_rpow hu.le hw0.le] at h2
  have hwp : 0 < w ^ p := Real.rpow_pos_of_pos hw0 p
  have h3 : u ^ p / w ^ p * ((1 - u) / (1 - w)) = u ^ p * (1 - u) / (w ^ p * (1 - w)) := by
    field_simp
  rw [h3, div_le_one (by positivity)] at h2
  exact h2

/-- The difference of two exponentials with rise time `a < b`. -/
theorem diff_exp {a b : ℝ} (ha : 0 < a) (hab : a < b) (t : ℝ) :
    Real.exp (-t / b) - Real.exp (-t / a) =
      (Real.exp (-t * (1 / a - 1 / b))) ^ (a / (b - a)) * (1 - Real.exp (-t * (1 / a - 1 / b))) := by
  have hb : 0 < b := ha.trans hab
  have hd : b - a ≠ 0 := by linarith
  rw [← Real.exp_mul, mul_sub, mul_one, ← Real.exp_add]
  congr 2
  · field_simp
  · field_simp
    ring

/-- Its largest value. -/
theorem diff_exp_height {a b : ℝ} (ha : 0 < a) (hab : a < b) :
    IsHeight (fun t => Real.exp (-t / b) - Real.exp (-t / a))
      ((a / b) ^ (a / (b - a)) - (a / b) ^ (b / (b - a))) := by
  have hb : 0 < b := ha.trans hab
  have hd : 0 < b - a := by linarith
  have hp : 0 < a / (b - a) := by positivity
  have hw : a / (b - a) / (a / (b - a) + 1) = a / b := by field_simp; ring
  have hv : (a / b) ^ (a / (b - a)) - (a / b) ^ (b / (b - a)) =
      (a / b) ^ (a / (b - a)) * (1 - a / b) := by
    have : b / (b - a) = a / (b - a) + 1 := by field_simp; ring
    rw [this, Real.rpow_add (by positivity), Real.rpow_one]
    ring
  have hc : 0 < 1 / a - 1 / b := by
    rw [sub_pos]
    exact one_div_lt_one_div_of_lt ha hab
  have hab1 : a / b < 1 := by rw [div_lt_one hb]; exact hab
  refine ⟨⟨-Real.log (a / b) / (1 / a - 1 / b), ?_, ?_⟩, fun t ht => ?_⟩
  · exact div_pos (neg_pos.2 (Real.log_neg (by positivity) hab1)) hc
  · simp only
    rw [diff_exp ha hab, hv]
    have e : -(-Real.log (a / b) / (1 / a - 1 / b)) * (1 / a - 1 / b) = Real.log (a / b) := by
      rw [neg_div, neg_neg, div_mul_cancel₀ _ hc.ne']
    rw [e, Real.exp_log (by positivity)]
  · simp only
    rw [diff_exp ha hab, hv, ← hw]
    refine rpow_max hp (Real.exp_pos _) ?_
    rw [Real.exp_le_one_iff]
    nlinarith

/-- The scaled amplitude in both orders of the times. -/
theorem scaledAmp_ok {A τr τf amp : ℝ} (hr : 0 < τr) (hf : 0 < τf)
    (h : scaledAmp A τr τf = .ok amp) : τr ≠ τf ∧
    ((τr < τf ∧ amp = A / ((τr / τf) ^ (τr / (τf - τr)) - (τr / τf) ^ (τf / (τf - τr)))) ∨
     (τf < τr ∧ amp = -(A / ((τf / τr) ^ (τf / (τr - τf)) - (τf / τr) ^ (τr / (τr - τf)))))) := by
  unfold scaledAmp at h
  simp only at h
  split_ifs at h with hc
  cases h
  push Not at hc
  obtain ⟨-, hd, -⟩ := hc
  have hne : τr ≠ τf := fun e => hd (by rw [e, sub_self])
  refine ⟨hne, ?_⟩
  rcases lt_or_gt_of_ne hne with hlt | hgt
  · left
    refine ⟨hlt, ?_⟩
    rw [show -τr / (τr - τf) = τr / (τf - τr) by rw [← neg_sub τf τr, neg_div_neg_eq],
      show -τf / (τr - τf) = τf / (τf - τr) by rw [← neg_sub τf τr, neg_div_neg_eq]]
  · right
    refine ⟨hgt, ?_⟩
    rw [← div_neg, neg_sub, show τr / τf = (τf / τr)⁻¹ by rw [inv_div],
      Real.inv_rpow (by positivity), Real.inv_rpow (by positivity), ← Real.rpow_neg (by positivity),
      ← Real.rpow_neg (by positivity), neg_div, neg_neg, neg_div, neg_neg]

theorem scaledAmp_defined (A : ℝ) {τr τf : ℝ} (hr : 0 < τr) (hf : 0 < τf) (hne : τr ≠ τf) :
    ∃ amp, scaledAmp A τr τf = .ok amp := by
  unfold scaledAmp
  simp only
  rw [if_neg]
  · exact ⟨_, rfl⟩
  · rintro (h | h | h)
    · exact hf.ne' h
    · exact hne (sub_eq_zero.1 h)
    · exact absurd h (not_lt.2 (by positivity))

theorem diff_exp_pos {a b : ℝ} (ha : 0 < a) (hab : a < b) :
    0 < (a / b) ^ (a / (b - a)) - (a / b) ^ (b / (b - a)) := by
  have hb : 0 < b := ha.trans hab
  have hd : 0 < b - a := by linarith
  have hab1 : a / b < 1 := by rw [div_lt_one hb]; exact hab
  rw [sub_pos]
  exact Real.rpow_lt_rpow_of_exponent_gt (by positivity) hab1 (by gcongr)

omit [NeZero n] in
theorem trunc_sample (o : Obj n) (f : ℝ → ℝ) (h0 : f 0 = 0) {t0 : ℝ} (ht0 : 0 ≤ t0)
    (hfs : 0 < o.fs) {i : ℕ} (hi : i < n) :
    (Utils.shift (o.time.map f) (OF.trunc (t0 * o.fs) : ℤ) 0)[i]? =
      some (if i ≤ ⌊t0 * o.fs⌋₊ then 0 else f (((i : ℝ) - ⌊t0 * o.fs⌋₊) / o.fs)) := by
  have hp : 0 ≤ t0 * o.fs := by positivity
  have e : OF.trunc (t0 * o.fs) = (⌊t0 * o.fs⌋₊ : ℤ) := by
    unfold OF.trunc
    rw [if_neg (not_lt.2 hp), Int.natCast_floor_eq_floor hp]
  rw [e, shifted_sample o f h0 _ (by omega) i hi]
  congr 1
  push_cast
  simp only [Nat.cast_le]

omit [NeZero n] in
theorem twopoletime_scaled {o : Obj n} (hs : o.scale = true) {A amp τr τf t0 : ℝ}
    (ha : scaledAmp A τr τf = .ok amp) : o.twopoletime A τr τf t0 =
      .ok (Utils.shift (o.time.map (pulse2 amp τr τf)) (OF.trunc (t0 * o.fs) : ℤ) 0) := by
  unfold Obj.twopoletime
  rw [hs, if_pos rfl, ha]
  rfl

omit [NeZero n] in
theorem flatten_length (d : ZMod n → ℂ) (e : ZMod n → ℝ) : (flatten d e).length = 2 * n := by
  unfold flatten
  rw [List.length_flatMap]
  simp
  ring

theorem flatten_sq (d : ZMod n → ℂ) (e : ZMod n → ℝ) :
    ((flatten d e).map (· ^ 2)).sum = ∑ k, ‖d k‖ ^ 2 / e k ^ 2 := by
  unfold flatten
  have h : ∀ l : List ℕ, ((l.flatMap fun (k : ℕ) => [(d (k : ZMod n)).re / e (k : ZMod n),
      (d (k : ZMod n)).im / e (k : ZMod n)]).map (· ^ 2)).sum =
      (l.map fun (k : ℕ) => ‖d (k : ZMod n)‖ ^ 2 / e (k : ZMod n) ^ 2).sum := by
    intro l
    induction l with
    | nil => rfl
    | cons a l ih =>
      rw [List.flatMap_cons, List.map_append, List.sum_append, ih]
      simp only [List.map_cons, List.map_nil, List.sum_cons, List.sum_nil]
      rw [← Complex.normSq_eq_norm_sq, Complex.normSq_apply]
      ring
  rw [h, Verif.Noise.sum_zmod]
  rfl

/-- The transform of a two-pole pulse. -/
theorem transform_pulse2 (A : ℝ) {τr τf : ℝ} (t0 ω : ℝ) (hr : 0 < τr) (hf : 0 < τf) :
    transform (pulse2 A τr τf) t0 ω =
      (A * pole τf ω - A * pole τr ω) * Complex.exp (-Complex.I * ω * t0) := by
  have e : pulse2 A τr τf = fun t => ∑ i, ![A, -A] i * Real.exp (-t / ![τf, τr] i) := by
    funext t
    rw [pulse2, Fin.sum_univ_two]
    simp only [Matrix.cons_val]
    ring
  rw [e, transform_sum _ _ (by intro i; fin_cases i <;> simpa), Fin.sum_univ_two]
  simp only [Matrix.cons_val]
  push_cast
  ring

/-- Partial fractions. -/
theorem pole_sub (τr τf ω : ℝ) : pole τf ω - pole τr ω =
    ((τf - τr : ℝ) : ℂ) / (1 + ω * τf * Complex.I) / (1 + ω * τr * Complex.I) := by
  unfold pole
  rw [div_sub_div _ _ (one_add_I_ne' ω τf) (one_add_I_ne' ω τr), div_div]
  congr 1
  push_cast
  ring

omit [NeZero n] in
theorem twopole_scaled {o : Obj n} (hs : o.scale = true) {A amp τr τf : ℝ} (t0 : ℝ)
    (hr : 0 < τr) (hf : 0 < τf) (ha : scaledAmp A τr τf = .ok amp) :
    ∃ m, o.twopole A τr τf t0 = .ok m ∧ ∀ k, m k =
      (if τr < τf then 1 else -1) * (Real.sqrt (o.fs / n) *
        transform (pulse2 amp τr τf) t0 (2 * Real.pi * fftfreq o.fs k)) := by
  obtain ⟨hne, -⟩ := scaledAmp_ok hr hf ha
  unfold Obj.twopole
  rw [hs, if_pos rfl, ha]
  refine ⟨_, rfl, fun k => ?_⟩
  rw [transform_pulse2 _ _ _ hr hf, ← mul_sub, pole_sub]
  unfold Obj.omega Obj.df
  rw [show -((2 * Real.pi * fftfreq o.fs k : ℝ) : ℂ) * t0 * Complex.I =
    -Complex.I * ((2 * Real.pi * fftfreq o.fs k : ℝ) : ℂ) * t0 by ring]
  rcases lt_or_gt_of_ne hne with h | h
  · rw [if_pos h, abs_of_neg (by linarith), neg_sub]
    ring
  · rw [if_neg (not_lt.2 h.le), abs_of_pos (by linarith)]
    push_cast
    ring

end Verif.NonLin
