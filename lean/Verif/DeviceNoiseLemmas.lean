import Verif.DeviceNoiseSpec
import Verif.DeviceLemmas

/-! Auxiliary lemma of property C140. -/

namespace Verif.Device
open Verif Verif.Didv

/-- The triangle inequality for sums of two squares. -/
theorem minkowski {ι : Type*} (s : Finset ι) (a b a' b' : ι → ℝ) :
    Real.sqrt (∑ k ∈ s, ((a k + a' k) ^ 2 + (b k + b' k) ^ 2)) ≤
      Real.sqrt (∑ k ∈ s, (a k ^ 2 + b k ^ 2)) + Real.sqrt (∑ k ∈ s, (a' k ^ 2 + b' k ^ 2)) := by
  set A := ∑ k ∈ s, (a k ^ 2 + b k ^ 2)
  set B := ∑ k ∈ s, (a' k ^ 2 + b' k ^ 2)
  have hA : 0 ≤ A := Finset.sum_nonneg fun _ _ => by positivity
  have hB : 0 ≤ B := Finset.sum_nonneg fun _ _ => by positivity
  have cs : ∑ k ∈ s, (a k * a' k + b k * b' k) ≤ Real.sqrt A * Real.sqrt B := by
    rw [← Real.sqrt_mul hA]
    refine Real.le_sqrt_of_sq_le ?_
    refine (Finset.sum_sq_le_sum_mul_sum_of_sq_le_mul s (fun _ _ => by positivity) (fun _ _ => by positivity)
      fun k _ => ?_)
    nlinarith [sq_nonneg (a k * b' k - b k * a' k)]
  refine Real.sqrt_le_iff.2 ⟨by positivity, ?_⟩
  have e : ∑ k ∈ s, ((a k + a' k) ^ 2 + (b k + b' k) ^ 2) = A + 2 * ∑ k ∈ s, (a k * a' k + b k * b' k) + B := by
    simp only [A, B]
    rw [Finset.mul_sum, ← Finset.sum_add_distrib, ← Finset.sum_add_distrib]
    exact Finset.sum_congr rfl fun _ _ => by ring
  rw [e, add_sq, Real.sq_sqrt hA, Real.sq_sqrt hB]
  linarith

end Verif.Device
