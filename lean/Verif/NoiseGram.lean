import Mathlib.LinearAlgebra.Matrix.NonsingularInverse
import Mathlib.Analysis.Complex.Basic
import Mathlib.Algebra.Order.Chebyshev
import Mathlib.Algebra.Order.BigOperators.Ring.Finset

/-! Linear algebra for cross spectral density matrices. -/

namespace Verif.Noise

/-- For an invertible Gram matrix, the inverse of a diagonal entry of the inverse is at most the
diagonal entry. -/
theorem gram_inv {m c : ℕ} (S : Fin m → Fin c → ℂ) (s : ℝ) (hs : 0 ≤ s)
    (M : Matrix (Fin c) (Fin c) ℂ)
    (hM : ∀ i j, M i j = ∑ t, starRingEnd ℂ (S t i) * S t j * (s : ℂ)) (hdet : M.det ≠ 0) (j : Fin c) :
    0 < ‖M⁻¹ j j‖ ∧ 1 / ‖M⁻¹ j j‖ ≤ (M j j).re ∧ 0 < (M j j).re := by
  set x : Fin c → ℂ := fun i => M⁻¹ i j with hx
  set y : Fin m → ℂ := fun t => ∑ i, S t i * x i with hy
  have hMx : ∀ i, ∑ k, M i k * x k = if i = j then 1 else 0 := by
    intro i
    have := congrFun (congrFun (Matrix.mul_nonsing_inv M (isUnit_iff_ne_zero.2 hdet)) i) j
    rw [Matrix.mul_apply, Matrix.one_apply] at this
    exact this
  have hrow : ∀ i, ∑ k, M i k * x k = ∑ t, starRingEnd ℂ (S t i) * y t * (s : ℂ) := by
    intro i
    simp only [hM, hy, Finset.sum_mul, Finset.mul_sum]
    rw [Finset.sum_comm]
    refine Finset.sum_congr rfl fun t _ => Finset.sum_congr rfl fun k _ => by ring
  -- the quadratic form
  have hq : starRingEnd ℂ (x j) = ((∑ t, ‖y t‖ ^ 2 * s : ℝ) : ℂ) := by
    have h1 : ∑ i, starRingEnd ℂ (x i) * (∑ k, M i k * x k) = starRingEnd ℂ (x j) := by
      simp [hMx]
    rw [← h1]
    simp only [hrow, Finset.mul_sum]
    rw [Finset.sum_comm]
    push_cast
    refine Finset.sum_congr rfl fun t _ => ?_
    have h2 : ∑ i, starRingEnd ℂ (x i) * (starRingEnd ℂ (S t i) * y t * (s : ℂ)) =
        starRingEnd ℂ (y t) * y t * (s : ℂ) := by
      simp only [hy, map_sum, map_mul, Finset.sum_mul]
      refine Finset.sum_congr rfl fun i _ => by ring
    rw [h2, mul_comm (starRingEnd ℂ _), Complex.mul_conj, Complex.normSq_eq_norm_sq]
    push_cast; ring
  have hnn : 0 ≤ ∑ t, ‖y t‖ ^ 2 * s := Finset.sum_nonneg fun t _ => by positivity
  have hnorm : ‖M⁻¹ j j‖ = ∑ t, ‖y t‖ ^ 2 * s := by
    have : ‖starRingEnd ℂ (x j)‖ = ∑ t, ‖y t‖ ^ 2 * s := by
      rw [hq, Complex.norm_real, Real.norm_of_nonneg hnn]
    rwa [RCLike.norm_conj] at this
  have hMjj : (M j j).re = ∑ t, ‖S t j‖ ^ 2 * s := by
    rw [hM, Complex.re_sum]
    refine Finset.sum_congr rfl fun t _ => ?_
    rw [mul_comm (starRingEnd ℂ _), Complex.mul_conj, Complex.normSq_eq_norm_sq, Complex.re_mul_ofReal,
      Complex.ofReal_re]
  -- Cauchy-Schwarz on `(M x) j = 1`
  have hone : (1 : ℝ) ≤ (M j j).re * ‖M⁻¹ j j‖ := by
    have h1 : ∑ t, starRingEnd ℂ (S t j) * y t * (s : ℂ) = 1 := by
      rw [← hrow, hMx, if_pos rfl]
    have h2 : (1 : ℝ) ≤ ∑ t, ‖S t j‖ * ‖y t‖ * s := by
      calc (1 : ℝ) = ‖∑ t, starRingEnd ℂ (S t j) * y t * (s : ℂ)‖ := by rw [h1]; simp
        _ ≤ ∑ t, ‖starRingEnd ℂ (S t j) * y t * (s : ℂ)‖ := norm_sum_le _ _
        _ = ∑ t, ‖S t j‖ * ‖y t‖ * s := by
          refine Finset.sum_congr rfl fun t _ => ?_
          rw [norm_mul, norm_mul, RCLike.norm_conj, Complex.norm_real, Real.norm_of_nonneg hs]
    have h3 := Finset.sum_mul_sq_le_sq_mul_sq Finset.univ (fun t => ‖S t j‖) (fun t => ‖y t‖)
    rw [hMjj, hnorm, ← Finset.sum_mul, ← Finset.sum_mul]
    rw [← Finset.sum_mul] at h2
    have h4 : 1 ≤ ((∑ t, ‖S t j‖ * ‖y t‖) * s) ^ 2 := by nlinarith
    calc (1 : ℝ) ≤ ((∑ t, ‖S t j‖ * ‖y t‖) * s) ^ 2 := h4
      _ = (∑ t, ‖S t j‖ * ‖y t‖) ^ 2 * s ^ 2 := by ring
      _ ≤ ((∑ t, ‖S t j‖ ^ 2) * ∑ t, ‖y t‖ ^ 2) * s ^ 2 :=
          mul_le_mul_of_nonneg_right h3 (by positivity)
      _ = _ := by ring
  have hMnn : 0 ≤ (M j j).re := by
    rw [hMjj]; exact Finset.sum_nonneg fun t _ => by positivity
  have hpos : 0 < ‖M⁻¹ j j‖ := by
    rcases (norm_nonneg (M⁻¹ j j)).lt_or_eq with h | h
    · exact h
    · rw [← h, mul_zero] at hone; linarith
  refine ⟨hpos, ?_, ?_⟩
  · rw [div_le_iff₀ hpos]; exact hone
  · rcases hMnn.lt_or_eq with h | h
    · exact h
    · rw [← h, zero_mul] at hone; linarith

end Verif.Noise
