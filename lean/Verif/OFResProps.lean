import Verif.OFResLemmas

/-! C168: how the resolutions depend on the noise. -/

namespace Verif.OF
open Verif Verif.Dft

variable {n : ℕ} [NeZero n]

/-- More noise at any frequency never improves the energy resolution, and neither does AC coupling. -/
theorem energyResolution_mono (x x' T : ZMod n → ℝ) {psd psd' : ZMod n → WithTop ℝ} {fs : ℝ} {ac ac' : Bool}
    (hfs : 0 < fs) (hpsd : ∀ k, 0 < psd k) (h : ∀ k, psd k ≤ psd' k) (hac : ac = true → ac' = true)
    (hN : 0 < traceChi2 fs (weight psd' ac') T) :
    energyResolution (init x T psd fs ac false) ≤ energyResolution (init x' T psd' fs ac' false) := by
  rw [traceChi2_sum] at hN
  rw [energyResolution_sum, energyResolution_sum]
  exact one_div_le_one_div_of_le (Real.sqrt_pos.2 hN) (Real.sqrt_le_sqrt (sum_anti hpsd h hac fun k => by positivity))

/-- Nor the time resolution, which is the same for both couplings. -/
theorem timeResolution_mono (x x' T : ZMod n → ℝ) {psd psd' : ZMod n → WithTop ℝ} {fs : ℝ} (ac ac' : Bool)
    (hfs : 0 < fs) (hpsd : ∀ k, 0 < psd k) (h : ∀ k, psd k ≤ psd' k) {a : ℝ} (ha : a ≠ 0) {k : ZMod n} (hk : k ≠ 0)
    (hT : fftR T k ≠ 0) (hw : psd' k ≠ ⊤) :
    (timeResolution (init x T psd fs ac false) a).1 ≤ (timeResolution (init x' T psd' fs ac' false) a).1 ∧
    (timeResolution (init x T psd fs true false) a).1 = (timeResolution (init x' T psd fs false false) a).1 := by
  have same : ∀ ac, (∑ k, (a ^ 2 * (2 * Real.pi * fftfreq fs k) ^ 2 * ‖fftR T k / (fs : ℂ)‖ ^ 2 * (fs / n)) * weight psd ac k) =
      ∑ k, (a ^ 2 * (2 * Real.pi * fftfreq fs k) ^ 2 * ‖fftR T k / (fs : ℂ)‖ ^ 2 * (fs / n)) * weight psd false k := by
    intro ac
    refine Finset.sum_congr rfl fun k _ => ?_
    by_cases h0 : k = 0
    · subst h0
      simp [fftfreq, freqIdx]
    · simp [weight, h0]
  constructor
  · rw [timeResolution_sum, timeResolution_sum, same ac]
    exact one_div_le_one_div_of_le (Real.sqrt_pos.2 (timeSum_pos hfs (fun k => (hpsd k).trans_le (h k)) ha hk hT hw))
      (Real.sqrt_le_sqrt (sum_anti hpsd h (by simp) fun k => by positivity))
  · rw [timeResolution_sum, timeResolution_sum, same true]

/-- The squares of the resolutions due to two independent sources of noise add up to no more than the square of the
resolution with both: two sources together are at least as bad as their quadratic sum. -/
theorem resolution_sources (x x1 x2 T : ZMod n → ℝ) {psd1 psd2 : ZMod n → WithTop ℝ} {fs : ℝ} (ac : Bool)
    (hfs : 0 < fs) (h1 : ∀ k, 0 < psd1 k) (h2 : ∀ k, 0 < psd2 k) :
    (0 < traceChi2 fs (weight (fun k => psd1 k + psd2 k) ac) T →
      energyResolution (init x1 T psd1 fs ac false) ^ 2 + energyResolution (init x2 T psd2 fs ac false) ^ 2 ≤
        energyResolution (init x T (fun k => psd1 k + psd2 k) fs ac false) ^ 2) ∧
    ∀ a : ℝ, a ≠ 0 → ∀ k : ZMod n, k ≠ 0 → fftR T k ≠ 0 → psd1 k ≠ ⊤ → psd2 k ≠ ⊤ →
      (timeResolution (init x1 T psd1 fs ac false) a).1 ^ 2 + (timeResolution (init x2 T psd2 fs ac false) a).1 ^ 2 ≤
        (timeResolution (init x T (fun k => psd1 k + psd2 k) fs ac false) a).1 ^ 2 := by
  have w1 : ∀ k, 0 ≤ weight psd1 ac k := weight_nonneg psd1 ac h1
  have w2 : ∀ k, 0 ≤ weight psd2 ac k := weight_nonneg psd2 ac h2
  constructor
  · intro hN
    rw [traceChi2_sum] at hN
    rw [energyResolution_sum, energyResolution_sum, energyResolution_sum, div_pow, div_pow, div_pow, one_pow,
      Real.sq_sqrt hN.le, Real.sq_sqrt (Finset.sum_nonneg fun k _ => mul_nonneg (by positivity) (w1 k)),
      Real.sq_sqrt (Finset.sum_nonneg fun k _ => mul_nonneg (by positivity) (w2 k))]
    exact sum_sources h1 h2 (fun k => by positivity) hN
  · intro a ha k hk hT ht1 ht2
    have hN := timeSum_pos (psd := fun k => psd1 k + psd2 k) (ac := ac) hfs
      (fun k => (h1 k).trans_le (le_add_of_nonneg_right (h2 k).le)) ha hk hT (by simp [ht1, ht2])
    rw [timeResolution_sum, timeResolution_sum, timeResolution_sum, div_pow, div_pow, div_pow, one_pow,
      Real.sq_sqrt hN.le, Real.sq_sqrt (Finset.sum_nonneg fun k _ => mul_nonneg (by positivity) (w1 k)),
      Real.sq_sqrt (Finset.sum_nonneg fun k _ => mul_nonneg (by positivity) (w2 k))]
    exact sum_sources h1 h2 (fun k => by positivity) hN

/-- Sources with spectra of the same shape add up exactly in quadrature. -/
theorem resolution_same_shape (x x1 x2 T : ZMod n → ℝ) (psd : ZMod n → WithTop ℝ) (fs : ℝ) (ac : Bool)
    (hfs : 0 < fs) (hpsd : ∀ k, 0 < psd k) {c : ℝ} (hc : 0 < c) :
    (0 < traceChi2 fs (weight psd ac) T →
      energyResolution (init x1 T psd fs ac false) ^ 2 + energyResolution (init x2 T (scalePsd c psd) fs ac false) ^ 2 =
        energyResolution (init x T (fun k => psd k + scalePsd c psd k) fs ac false) ^ 2) ∧
    ∀ a : ℝ, a ≠ 0 → ∀ k : ZMod n, k ≠ 0 → fftR T k ≠ 0 → psd k ≠ ⊤ →
      (timeResolution (init x1 T psd fs ac false) a).1 ^ 2 + (timeResolution (init x2 T (scalePsd c psd) fs ac false) a).1 ^ 2 =
        (timeResolution (init x T (fun k => psd k + scalePsd c psd k) fs ac false) a).1 ^ 2 := by
  have e : (fun k => psd k + scalePsd c psd k) = scalePsd (1 + c) psd := by
    funext k
    unfold scalePsd
    cases psd k with
    | top => rfl
    | coe p =>
      show ((p : WithTop ℝ) + ((c * p : ℝ) : WithTop ℝ)) = (((1 + c) * p : ℝ) : WithTop ℝ)
      rw [← WithTop.coe_add, one_add_mul]
  have key : ∀ C : ZMod n → ℝ, 0 < ∑ k, C k * weight psd ac k → ∀ d : ℝ, 0 < d →
      (1 / Real.sqrt (∑ k, C k * weight (scalePsd d psd) ac k)) ^ 2 = d / ∑ k, C k * weight psd ac k := by
    intro C hC d hd
    have : ∑ k, C k * weight (scalePsd d psd) ac k = (∑ k, C k * weight psd ac k) / d := by
      rw [Finset.sum_div]
      exact Finset.sum_congr rfl fun k _ => by rw [weight_scale, mul_div_assoc]
    rw [this, div_pow, one_pow, Real.sq_sqrt (by positivity), one_div_div]
  have key1 : ∀ C : ZMod n → ℝ, 0 < ∑ k, C k * weight psd ac k →
      (1 / Real.sqrt (∑ k, C k * weight psd ac k)) ^ 2 = 1 / ∑ k, C k * weight psd ac k := by
    intro C hC
    rw [div_pow, one_pow, Real.sq_sqrt hC.le]
  constructor
  · intro hN
    rw [traceChi2_sum] at hN
    rw [e, energyResolution_sum, energyResolution_sum, energyResolution_sum, key _ hN c hc, key _ hN (1 + c) (by linarith),
      key1 _ hN, add_div]
  · intro a ha k hk hT ht
    have hN := timeSum_pos (ac := ac) hfs hpsd ha hk hT ht
    rw [e, timeResolution_sum, timeResolution_sum, timeResolution_sum, key _ hN c hc, key _ hN (1 + c) (by linarith),
      key1 _ hN, add_div]

/-- Two bins, a one-bin template and two sources of noise, each strong where the other is weak: squares of 3/2 and 3/2,
but 4 together. -/
example (x : ZMod 2 → ℝ) :
    let psd1 : ZMod 2 → WithTop ℝ := fun k => if k = 0 then ((1 : ℝ) : WithTop ℝ) else ((3 : ℝ) : WithTop ℝ)
    let psd2 : ZMod 2 → WithTop ℝ := fun k => if k = 0 then ((3 : ℝ) : WithTop ℝ) else ((1 : ℝ) : WithTop ℝ)
    (∀ k, 0 < psd1 k) ∧ (∀ k, 0 < psd2 k) ∧
    0 < traceChi2 1 (weight (fun k => psd1 k + psd2 k) false) (delta : ZMod 2 → ℝ) ∧
    energyResolution (init x delta psd1 1 false false) ^ 2 = 3 / 2 ∧
    energyResolution (init x delta psd2 1 false false) ^ 2 = 3 / 2 ∧
    energyResolution (init x delta (fun k => psd1 k + psd2 k) 1 false false) ^ 2 = 4 := by
  intro psd1 psd2
  have w1 : ∀ k : ZMod 2, weight psd1 false k = if k = 0 then 1 else 1 / 3 := by
    intro k
    simp only [weight, psd1, Bool.false_eq_true, false_and, if_false]
    split_ifs <;> simp [recip]
  have w2 : ∀ k : ZMod 2, weight psd2 false k = if k = 0 then 1 / 3 else 1 := by
    intro k
    simp only [weight, psd2, Bool.false_eq_true, false_and, if_false]
    split_ifs <;> simp [recip]
  have w3 : ∀ k : ZMod 2, weight (fun k => psd1 k + psd2 k) false k = 1 / 4 := by
    intro k
    simp only [weight, psd1, psd2, Bool.false_eq_true, false_and, if_false]
    split_ifs
    · rw [← WithTop.coe_add]
      show 1 / ((1 : ℝ) + 3) = 1 / 4
      norm_num
    · rw [← WithTop.coe_add]
      show 1 / ((3 : ℝ) + 1) = 1 / 4
      norm_num
  have two : ∀ f : ZMod 2 → ℝ, ∑ k, f k = f 0 + f 1 := fun f => Fin.sum_univ_two f
  have h10 : (1 : ZMod 2) ≠ 0 := by decide
  refine ⟨fun k => ?_, fun k => ?_, ?_, ?_, ?_, ?_⟩
  · simp only [psd1]
    split_ifs <;> exact_mod_cast (by norm_num)
  · simp only [psd2]
    split_ifs <;> exact_mod_cast (by norm_num)
  · rw [traceChi2_sum, two, w3, w3, fftR_delta, fftR_delta]
    norm_num
  · rw [energyResolution_sum, div_pow, one_pow, two, w1, w1, fftR_delta, fftR_delta, Real.sq_sqrt (by norm_num [h10])]
    norm_num [h10]
  · rw [energyResolution_sum, div_pow, one_pow, two, w2, w2, fftR_delta, fftR_delta, Real.sq_sqrt (by norm_num [h10])]
    norm_num [h10]
  · rw [energyResolution_sum, div_pow, one_pow, two, w3, w3, fftR_delta, fftR_delta, Real.sq_sqrt (by norm_num)]
    norm_num

/-- The hypotheses on the time resolution: a one-bin template has power at all frequencies. -/
example (k : ZMod 5) : fftR (delta : ZMod 5 → ℝ) k ≠ 0 := by
  rw [fftR_delta]
  exact one_ne_zero

end Verif.OF
