import Verif.NoiseObjProps

/-!
C167: what `gen_noise` makes of a spectrum which is not symmetric (a one-sided one, for example, which has one entry
per frequency and is accepted like any other array).
-/

namespace Verif.Noise
open Verif Verif.Dft
variable {n m : ℕ} [NeZero n]

/-- The entries of opposite frequencies are replaced by the square of the mean of their roots. -/
theorem genNoise_any (psd : ZMod n → ℝ) (hp : ∀ k, 0 ≤ psd k) (fs : ℝ) (vals : ZMod n → ℝ) :
    genNoise psd fs vals = genNoise (fun k => ((Real.sqrt (psd k) + Real.sqrt (psd (-k))) / 2) ^ 2) fs vals := by
  funext j
  have hq : ∀ k, Real.sqrt (((Real.sqrt (psd k) + Real.sqrt (psd (-k))) / 2) ^ 2 * fs) =
      (Real.sqrt (psd k * fs) + Real.sqrt (psd (-k) * fs)) / 2 := by
    intro k
    rw [Real.sqrt_mul (sq_nonneg _), Real.sqrt_sq (by positivity), Real.sqrt_mul (hp k), Real.sqrt_mul (hp (-k))]
    ring
  unfold genNoise
  simp only [hq]
  set F : ZMod n → ℂ := fun k => fftR vals k * (Real.sqrt (psd k * fs) : ℂ) with hF
  have hconj : starRingEnd ℂ (ifft F j) = ifft (fun k => fftR vals k * (Real.sqrt (psd (-k) * fs) : ℂ)) j := by
    rw [ifft_apply, ifft_apply, map_mul, map_sum]
    congr 1
    · simp
    · refine Fintype.sum_equiv (Equiv.neg _) _ _ fun k => ?_
      simp only [Equiv.neg_apply, hF, map_mul, conj_e, Complex.conj_ofReal, neg_neg]
      rw [← fftR_neg, neg_mul]
  have hsum : ifft (fun k => fftR vals k * (((Real.sqrt (psd k * fs) + Real.sqrt (psd (-k) * fs)) / 2 : ℝ) : ℂ)) j =
      (ifft F j + starRingEnd ℂ (ifft F j)) / 2 := by
    rw [hconj, ifft_apply, ifft_apply, ifft_apply, ← mul_add, ← Finset.sum_add_distrib, mul_div_assoc,
      Finset.sum_div]
    congr 1
    refine Finset.sum_congr rfl fun k _ => ?_
    simp only [hF]
    push_cast
    ring
  rw [hsum, Complex.add_conj]
  norm_num

open MeasureTheory in
/-- The mean PSD of the generated traces, whatever the PSD asked for. -/
theorem genNoise_any_mean {Ω : Type*} [MeasurableSpace Ω] (μ : Measure Ω) (hm : 0 < m)
    (psd : ZMod n → ℝ) (fs : ℝ) (vals : Ω → Fin m → ZMod n → ℝ) (hp : ∀ k, 0 ≤ psd k) (hfs : 0 < fs)
    (hint : ∀ t i j, Integrable (fun ω => vals ω t i * vals ω t j) μ)
    (hcov : ∀ t i j, ∫ ω, vals ω t i * vals ω t j ∂μ = if i = j then 1 else 0) (k : ZMod n) :
    ∫ ω, calcPsdTwoSided (fun t => genNoise psd fs (vals ω t)) fs k ∂μ =
      ((Real.sqrt (psd k) + Real.sqrt (psd (-k))) / 2) ^ 2 := by
  simp only [genNoise_any psd hp fs]
  exact genNoise_mean μ hm _ fs vals (fun k => by rw [neg_neg, add_comm]) (fun k => sq_nonneg _) hfs hint hcov k

open MeasureTheory in
/-- The PSD asked for is obtained only if it is symmetric, and the total power is never more than was asked for; it is
as much only for a symmetric PSD. -/
theorem genNoise_symmetric_only {Ω : Type*} [MeasurableSpace Ω] (μ : Measure Ω) (hm : 0 < m)
    (psd : ZMod n → ℝ) (fs : ℝ) (vals : Ω → Fin m → ZMod n → ℝ) (hp : ∀ k, 0 ≤ psd k) (hfs : 0 < fs)
    (hint : ∀ t i j, Integrable (fun ω => vals ω t i * vals ω t j) μ)
    (hcov : ∀ t i j, ∫ ω, vals ω t i * vals ω t j ∂μ = if i = j then 1 else 0) :
    let got := fun k => ∫ ω, calcPsdTwoSided (fun t => genNoise psd fs (vals ω t)) fs k ∂μ
    ((∀ k, got k = psd k) ↔ ∀ k, psd (-k) = psd k) ∧ ∑ k, got k ≤ ∑ k, psd k ∧
      (∑ k, got k = ∑ k, psd k ↔ ∀ k, psd (-k) = psd k) := by
  intro got
  have hgot : ∀ k, got k = ((Real.sqrt (psd k) + Real.sqrt (psd (-k))) / 2) ^ 2 :=
    genNoise_any_mean μ hm psd fs vals hp hfs hint hcov
  have hdef : ∑ k, psd k - ∑ k, got k = ∑ k, ((Real.sqrt (psd k) - Real.sqrt (psd (-k))) / 2) ^ 2 := by
    have hneg : ∑ k, psd (-k) = ∑ k, psd k := Fintype.sum_equiv (Equiv.neg _) _ _ fun k => rfl
    have h2 : ∑ k, psd k = ∑ k, (psd k + psd (-k)) / 2 := by
      rw [← Finset.sum_div, Finset.sum_add_distrib, hneg]
      ring
    rw [h2, ← Finset.sum_sub_distrib]
    refine Finset.sum_congr rfl fun k _ => ?_
    have a := Real.sq_sqrt (hp k)
    have b := Real.sq_sqrt (hp (-k))
    rw [hgot]
    nlinarith
  have hiff : ∑ k, got k = ∑ k, psd k ↔ ∀ k, psd (-k) = psd k := by
    rw [eq_comm, ← sub_eq_zero, hdef, Finset.sum_eq_zero_iff_of_nonneg fun k _ => sq_nonneg _]
    refine ⟨fun h k => ?_, fun h k _ => by rw [h, sub_self, zero_div, zero_pow two_ne_zero]⟩
    have h1 := pow_eq_zero_iff two_ne_zero |>.1 (h k (Finset.mem_univ _))
    have h3 : Real.sqrt (psd k) = Real.sqrt (psd (-k)) := by linarith
    exact ((Real.sqrt_inj (hp k) (hp (-k))).1 h3).symm
  refine ⟨⟨fun h => hiff.1 (Finset.sum_congr rfl fun k _ => h k), fun h k => ?_⟩, ?_, hiff⟩
  · rw [hgot, h, add_self_div_two, Real.sq_sqrt (hp k)]
  · have : (0 : ℝ) ≤ ∑ k, ((Real.sqrt (psd k) - Real.sqrt (psd (-k))) / 2) ^ 2 := Finset.sum_nonneg fun k _ => sq_nonneg _
    linarith

open MeasureTheory in
/-- A spectrum of four at one frequency and none at its opposite gives one at both: half of the power is lost. -/
example {Ω : Type*} [MeasurableSpace Ω] (μ : Measure Ω) (vals : Ω → Fin 1 → ZMod 3 → ℝ)
    (hint : ∀ t i j, Integrable (fun ω => vals ω t i * vals ω t j) μ)
    (hcov : ∀ t i j, ∫ ω, vals ω t i * vals ω t j ∂μ = if i = j then 1 else 0) (k : ZMod 3) (hk : k ≠ 0) :
    ∫ ω, calcPsdTwoSided (fun t => genNoise (fun k : ZMod 3 => if k = 1 then 4 else 0) 1 (vals ω t)) 1 k ∂μ = 1 := by
  rw [genNoise_any_mean μ one_pos _ 1 vals (fun k => by split_ifs <;> norm_num) one_pos hint hcov]
  have h4 : Real.sqrt 4 = 2 := by
    rw [show (4 : ℝ) = 2 ^ 2 by norm_num, Real.sqrt_sq (by norm_num)]
  have hc : (k = 1 ∧ -k ≠ 1) ∨ (k ≠ 1 ∧ -k = 1) := by
    revert hk k
    decide
  rcases hc with ⟨h1, h2⟩ | ⟨h1, h2⟩
  · rw [if_pos h1, if_neg h2, h4]
    norm_num
  · rw [if_neg h1, if_pos h2, h4]
    norm_num

end Verif.Noise
