import Verif.OFMiscProps

/-! Lemmas for C168: weights and sums over frequencies for different noise spectra. -/

namespace Verif.OF
open Verif Verif.Dft

variable {n : ℕ} [NeZero n]

theorem recip_anti {p q : WithTop ℝ} (hp : 0 < p) (h : p ≤ q) : recip q ≤ recip p := by
  cases q with
  | top => exact recip_nonneg hp
  | coe q =>
    cases p with
    | top => exact absurd h (by simp)
    | coe p =>
      have hp' : 0 < p := by exact_mod_cast hp
      have h' : p ≤ q := by exact_mod_cast h
      exact one_div_le_one_div_of_le hp' h'

theorem recip_add_le {p q : WithTop ℝ} (hp : 0 < p) (hq : 0 < q) (t : ℝ) :
    recip (p + q) ≤ t ^ 2 * recip p + (1 - t) ^ 2 * recip q := by
  have h1 := recip_nonneg hp
  have h2 := recip_nonneg hq
  cases p with
  | top => rw [top_add]; exact add_nonneg (mul_nonneg (sq_nonneg _) h1) (mul_nonneg (sq_nonneg _) h2)
  | coe p =>
    cases q with
    | top => rw [add_top]; exact add_nonneg (mul_nonneg (sq_nonneg _) h1) (mul_nonneg (sq_nonneg _) h2)
    | coe q =>
      have hp' : 0 < p := by exact_mod_cast hp
      have hq' : 0 < q := by exact_mod_cast hq
      rw [← WithTop.coe_add]
      show 1 / (p + q) ≤ t ^ 2 * (1 / p) + (1 - t) ^ 2 * (1 / q)
      rw [div_le_iff₀ (by positivity)]
      have : (t ^ 2 * (1 / p) + (1 - t) ^ 2 * (1 / q)) * (p + q) = 1 + (t * q - (1 - t) * p) ^ 2 / (p * q) := by
        field_simp
        ring
      rw [this]
      have : 0 ≤ (t * q - (1 - t) * p) ^ 2 / (p * q) := by positivity
      linarith

omit [NeZero n] in
theorem weight_anti {psd psd' : ZMod n → WithTop ℝ} {ac ac' : Bool} (hpsd : ∀ k, 0 < psd k)
    (h : ∀ k, psd k ≤ psd' k) (hac : ac = true → ac' = true) (k : ZMod n) : weight psd' ac' k ≤ weight psd ac k := by
  unfold weight
  by_cases h' : ac' = true ∧ k = 0
  · rw [if_pos h']
    split_ifs
    · exact le_rfl
    · exact recip_nonneg (hpsd k)
  · rw [if_neg h', if_neg fun h2 => h' ⟨hac h2.1, h2.2⟩]
    exact recip_anti (hpsd k) (h k)

omit [NeZero n] in
theorem weight_add_le {psd psd' : ZMod n → WithTop ℝ} {ac : Bool} (hpsd : ∀ k, 0 < psd k) (hpsd' : ∀ k, 0 < psd' k)
    (t : ℝ) (k : ZMod n) : weight (fun k => psd k + psd' k) ac k ≤ t ^ 2 * weight psd ac k + (1 - t) ^ 2 * weight psd' ac k := by
  unfold weight
  split_ifs
  · simp
  · exact recip_add_le (hpsd k) (hpsd' k) t

/-- Sums with non-negative coefficients of the weights. -/
theorem sum_anti {psd psd' : ZMod n → WithTop ℝ} {ac ac' : Bool} (hpsd : ∀ k, 0 < psd k) (h : ∀ k, psd k ≤ psd' k)
    (hac : ac = true → ac' = true) {c : ZMod n → ℝ} (hc : ∀ k, 0 ≤ c k) :
    ∑ k, c k * weight psd' ac' k ≤ ∑ k, c k * weight psd ac k :=
  Finset.sum_le_sum fun k _ => mul_le_mul_of_nonneg_left (weight_anti hpsd h hac k) (hc k)

theorem sum_sources {psd psd' : ZMod n → WithTop ℝ} {ac : Bool} (hpsd : ∀ k, 0 < psd k) (hpsd' : ∀ k, 0 < psd' k)
    {c : ZMod n → ℝ} (hc : ∀ k, 0 ≤ c k) (hpos : 0 < ∑ k, c k * weight (fun k => psd k + psd' k) ac k) :
    1 / (∑ k, c k * weight psd ac k) + 1 / (∑ k, c k * weight psd' ac k) ≤
      1 / ∑ k, c k * weight (fun k => psd k + psd' k) ac k := by
  set A := ∑ k, c k * weight psd ac k
  set B := ∑ k, c k * weight psd' ac k
  set C := ∑ k, c k * weight (fun k => psd k + psd' k) ac k
  have key : ∀ t : ℝ, C ≤ t ^ 2 * A + (1 - t) ^ 2 * B := by
    intro t
    rw [Finset.mul_sum, Finset.mul_sum, ← Finset.sum_add_distrib]
    refine Finset.sum_le_sum fun k _ => ?_
    have := mul_le_mul_of_nonneg_left (weight_add_le (ac := ac) hpsd hpsd' t k) (hc k)
    linarith
  have hA : 0 < A := by have := key 1; norm_num at this; linarith
  have hB : 0 < B := by have := key 0; norm_num at this; linarith
  have h := key (B / (A + B))
  have e : (B / (A + B)) ^ 2 * A + (1 - B / (A + B)) ^ 2 * B = A * B / (A + B) := by
    field_simp
    ring
  rw [e] at h
  have e2 : 1 / A + 1 / B = 1 / (A * B / (A + B)) := by
    field_simp
    ring
  rw [e2]
  exact one_div_le_one_div_of_le hpos h

theorem traceChi2_sum (fs : ℝ) (wt r : ZMod n → ℝ) :
    traceChi2 fs wt r = ∑ k, (‖fftR r k / (fs : ℂ)‖ ^ 2 * (fs / n)) * wt k :=
  Finset.sum_congr rfl fun k _ => by ring

theorem energyResolution_sum (x T : ZMod n → ℝ) (psd : ZMod n → WithTop ℝ) (fs : ℝ) (ac : Bool) :
    energyResolution (init x T psd fs ac false) =
      1 / Real.sqrt (∑ k, (‖fftR T k / (fs : ℂ)‖ ^ 2 * (fs / n)) * weight psd ac k) := by
  unfold energyResolution
  rw [init_norm, traceChi2_sum]

theorem timeResolution_sum (x T : ZMod n → ℝ) (psd : ZMod n → WithTop ℝ) (fs : ℝ) (ac : Bool) (a : ℝ) :
    (timeResolution (init x T psd fs ac false) a).1 =
      1 / Real.sqrt (∑ k, (a ^ 2 * (2 * Real.pi * fftfreq fs k) ^ 2 * ‖fftR T k / (fs : ℂ)‖ ^ 2 * (fs / n)) * weight psd ac k) := by
  simp only [timeResolution, init_freqs, init_df, init_w, init_s]
  congr 2
  rw [Finset.mul_sum, Finset.sum_mul]
  exact Finset.sum_congr rfl fun k _ => by ring

/-- A template with power at a frequency that is not excluded has a finite time resolution. -/
theorem timeSum_pos {T : ZMod n → ℝ} {psd : ZMod n → WithTop ℝ} {fs a : ℝ} {ac : Bool} (hfs : 0 < fs)
    (hpsd : ∀ k, 0 < psd k) (ha : a ≠ 0) {k : ZMod n} (hk : k ≠ 0) (hT : fftR T k ≠ 0) (hw : psd k ≠ ⊤) :
    0 < ∑ k, (a ^ 2 * (2 * Real.pi * fftfreq fs k) ^ 2 * ‖fftR T k / (fs : ℂ)‖ ^ 2 * (fs / n)) * weight psd ac k := by
  have h := timeResolution_pos T T psd fs ac false hfs hpsd a ha k hk
    (by rw [init_s]; exact div_ne_zero hT (by exact_mod_cast hfs.ne')) hw
  rw [timeResolution_sum] at h
  exact Real.sqrt_pos.1 (one_div_pos.1 h)

end Verif.OF
