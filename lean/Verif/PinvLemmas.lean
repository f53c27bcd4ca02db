import Verif.Pinv
import Mathlib.Analysis.Matrix.Spectrum

/-! Existence, uniqueness and the least-squares property of the pseudo-inverse. -/

namespace Verif

open Matrix

variable {ι : Type*} [Fintype ι]

theorem IsPinv.unique {A X Y : Matrix ι ι ℝ} (hX : IsPinv A X) (hY : IsPinv A Y) : X = Y := by
  have h1 : A * X = A * Y := by
    calc A * X = A * Y * A * X := by rw [hY.axa]
      _ = (A * Y) * (A * X) := by rw [Matrix.mul_assoc]
      _ = (A * Y)ᵀ * (A * X)ᵀ := by rw [hX.ax, hY.ax]
      _ = (A * X * (A * Y))ᵀ := by rw [Matrix.transpose_mul (A * X) (A * Y)]
      _ = (A * X * A * Y)ᵀ := by rw [Matrix.mul_assoc (A * X) A Y]
      _ = A * Y := by rw [hX.axa, hY.ax]
  have h2 : X * A = Y * A := by
    calc X * A = X * (A * Y * A) := by rw [hY.axa]
      _ = (X * A) * (Y * A) := by simp only [Matrix.mul_assoc]
      _ = (X * A)ᵀ * (Y * A)ᵀ := by rw [hX.xa, hY.xa]
      _ = (Y * A * (X * A))ᵀ := by rw [Matrix.transpose_mul (Y * A) (X * A)]
      _ = (Y * (A * X * A))ᵀ := by simp only [Matrix.mul_assoc]
      _ = Y * A := by rw [hX.axa, hY.xa]
  calc X = X * A * X := hX.xax.symm
    _ = Y * A * Y := by rw [h2, Matrix.mul_assoc, h1, ← Matrix.mul_assoc]
    _ = Y := hY.xax

theorem exists_isPinv [DecidableEq ι] {A : Matrix ι ι ℝ} (hA : Aᵀ = A) : ∃ X, IsPinv A X := by
  have hH : A.IsHermitian := by
    rw [Matrix.IsHermitian, Matrix.conjTranspose_eq_transpose_of_trivial, hA]
  set φ := Unitary.conjStarAlgAut ℝ (Matrix ι ι ℝ) hH.eigenvectorUnitary with hφ
  set d : ι → ℝ := hH.eigenvalues with hd
  have hs : A = φ (diagonal d) := hH.spectral_theorem
  have ht : ∀ M : Matrix ι ι ℝ, Mᵀ = star M := fun M => by
    rw [Matrix.star_eq_conjTranspose, Matrix.conjTranspose_eq_transpose_of_trivial]
  have hdd : star (diagonal d * diagonal d⁻¹) = diagonal d * diagonal d⁻¹ := by
    rw [← ht]; simp [Matrix.diagonal_mul_diagonal]
  have hdd' : star (diagonal d⁻¹ * diagonal d) = diagonal d⁻¹ * diagonal d := by
    rw [← ht]; simp [Matrix.diagonal_mul_diagonal]
  refine ⟨φ (diagonal d⁻¹), ?_, ?_, ?_, ?_⟩
  · rw [hs, ← map_mul, ← map_mul]
    congr 1
    rw [Matrix.diagonal_mul_diagonal, Matrix.diagonal_mul_diagonal]
    congr 1; funext i
    by_cases h : d i = 0
    · simp [h]
    · simp [h]
  · rw [hs, ← map_mul, ← map_mul]
    congr 1
    rw [Matrix.diagonal_mul_diagonal, Matrix.diagonal_mul_diagonal]
    congr 1; funext i
    by_cases h : d i = 0
    · simp [h]
    · simp [h]
  · rw [ht, hs, ← map_mul, ← map_star, hdd]
  · rw [ht, hs, ← map_mul, ← map_star, hdd']

theorem isPinv_pinv {A : Matrix ι ι ℝ} (hA : Aᵀ = A) : IsPinv A (pinv A) := by
  classical
  have h := exists_isPinv hA
  rw [pinv, dif_pos h]
  exact h.choose_spec

/-- For an invertible matrix the pseudo-inverse is the inverse. -/
theorem pinv_of_inv [DecidableEq ι] {A X : Matrix ι ι ℝ} (h1 : A * X = 1) (h2 : X * A = 1) :
    pinv A = X := by
  have hX : IsPinv A X := ⟨by rw [h1, one_mul], by rw [h2, one_mul], by rw [h1]; simp,
    by rw [h2]; simp⟩
  have h : ∃ X, IsPinv A X := ⟨X, hX⟩
  rw [pinv, dif_pos h]
  exact h.choose_spec.unique hX

/-- If `A` has a trivial kernel, `pinv A` solves `A a = q`. -/
theorem pinv_mulVec_of_ker {A : Matrix ι ι ℝ} (hA : Aᵀ = A) (a : ι → ℝ)
    (hker : ∀ x, A *ᵥ x = 0 → x = 0) : pinv A *ᵥ (A *ᵥ a) = a := by
  have h := isPinv_pinv hA
  have : A *ᵥ (pinv A *ᵥ (A *ᵥ a) - a) = 0 := by
    rw [Matrix.mulVec_sub, Matrix.mulVec_mulVec, Matrix.mulVec_mulVec, h.axa,
      sub_self]
  exact sub_eq_zero.1 (hker _ this)

/-- The pseudo-inverse does not depend on the names of the indices. -/
theorem pinv_submatrix {κ : Type*} [Fintype κ] {A : Matrix ι ι ℝ} (hA : Aᵀ = A) (e : κ ≃ ι) :
    pinv (A.submatrix e e) = (pinv A).submatrix e e := by
  have h := isPinv_pinv hA
  have h' : IsPinv (A.submatrix e e) ((pinv A).submatrix e e) := by
    refine ⟨?_, ?_, ?_, ?_⟩
    · rw [Matrix.submatrix_mul_equiv, Matrix.submatrix_mul_equiv, h.axa]
    · rw [Matrix.submatrix_mul_equiv, Matrix.submatrix_mul_equiv, h.xax]
    · rw [Matrix.submatrix_mul_equiv, Matrix.transpose_submatrix, h.ax]
    · rw [Matrix.submatrix_mul_equiv, Matrix.transpose_submatrix, h.xa]
  have hA' : (A.submatrix e e)ᵀ = A.submatrix e e := by rw [Matrix.transpose_submatrix, hA]
  exact (isPinv_pinv hA').unique h'

/-- Collapsing with a mask that keeps everything changes nothing. -/
theorem pinv_submatrix_full {A : Matrix ι ι ℝ} (hA : Aᵀ = A) (m : ι → Bool)
    (hm : ∀ i, m i = true) (q : ι → ℝ) :
    (fun i => (pinv (A.submatrix (fun i : {i // m i = true} => i.1) (fun i => i.1)) *ᵥ
      fun i => q i.1) ⟨i, hm i⟩) = pinv A *ᵥ q := by
  let e : {i // m i = true} ≃ ι := ⟨fun i => i.1, fun i => ⟨i, hm i⟩, fun _ => rfl, fun _ => rfl⟩
  have h := pinv_submatrix hA e
  have h2 : A.submatrix (fun i : {i // m i = true} => i.1) (fun i => i.1) = A.submatrix e e := rfl
  funext i
  rw [h2, h]
  simp only [Matrix.mulVec, dotProduct, Matrix.submatrix_apply]
  exact Fintype.sum_equiv e _ _ fun _ => rfl

theorem dot_symm {A : Matrix ι ι ℝ} (hA : Aᵀ = A) (x y : ι → ℝ) :
    x ⬝ᵥ (A *ᵥ y) = y ⬝ᵥ (A *ᵥ x) := by
  rw [Matrix.dotProduct_mulVec, ← Matrix.mulVec_transpose, hA, dotProduct_comm]

/-- A quadratic that is non-negative on a line has non-negative leading coefficient, and no linear
term if the leading coefficient vanishes. -/
theorem quad_nonneg {c l g : ℝ} (h : ∀ s : ℝ, 0 ≤ c - 2 * (s * l) + s ^ 2 * g) :
    0 ≤ g ∧ (g = 0 → l = 0) := by
  have hz : g = 0 → l = 0 := by
    rintro rfl
    by_contra hl
    have := h ((c + 1) / (2 * l))
    have e : c - 2 * ((c + 1) / (2 * l) * l) + ((c + 1) / (2 * l)) ^ 2 * 0 = -1 := by
      field_simp; ring
    rw [e] at this; linarith
  refine ⟨?_, hz⟩
  by_contra hg
  push Not at hg
  have h1 := h 1
  have h2 := h (-1)
  have h0 := h 0
  have hc : 0 ≤ c := by simpa using h0
  -- large |s|, sign chosen so that the linear term helps
  have h3 := h ((c + 1) / (-g) + 1)
  have h4 := h (-((c + 1) / (-g) + 1))
  set s := (c + 1) / (-g) + 1 with hs
  have hs1 : 1 ≤ s := by
    have : 0 ≤ (c + 1) / (-g) := div_nonneg (by linarith) (by linarith)
    linarith
  have h5 : 0 ≤ c + s ^ 2 * g := by nlinarith
  have h6 : s * (-g) = c + 1 - g := by
    have hg' : -g ≠ 0 := by linarith
    rw [hs, add_mul, div_mul_cancel₀ _ hg']; ring
  nlinarith

/-- **Least squares with the pseudo-inverse.**  If the quadratic `c - 2 a·q + a·G a` is
non-negative, then `a = pinv G q` solves `G a = q`, minimises it, and the minimum is
`c - a·q`. -/
theorem pinv_lsq {G : Matrix ι ι ℝ} (hG : Gᵀ = G) (q : ι → ℝ) (c : ℝ)
    (hQ : ∀ a : ι → ℝ, 0 ≤ c - 2 * (a ⬝ᵥ q) + a ⬝ᵥ (G *ᵥ a)) :
    G *ᵥ (pinv G *ᵥ q) = q ∧
    (∀ a : ι → ℝ, c - (pinv G *ᵥ q) ⬝ᵥ q ≤ c - 2 * (a ⬝ᵥ q) + a ⬝ᵥ (G *ᵥ a)) ∧
    c - (pinv G *ᵥ q) ⬝ᵥ q =
      c - 2 * ((pinv G *ᵥ q) ⬝ᵥ q) + (pinv G *ᵥ q) ⬝ᵥ (G *ᵥ (pinv G *ᵥ q)) := by
  have hp := isPinv_pinv hG
  have hline : ∀ x : ι → ℝ, 0 ≤ x ⬝ᵥ (G *ᵥ x) ∧ (x ⬝ᵥ (G *ᵥ x) = 0 → x ⬝ᵥ q = 0) := by
    intro x
    refine quad_nonneg (c := c) fun s => ?_
    have := hQ (s • x)
    rw [Matrix.mulVec_smul, smul_dotProduct, smul_dotProduct, dotProduct_smul, smul_eq_mul,
      smul_eq_mul, smul_eq_mul] at this
    calc (0 : ℝ) ≤ _ := this
      _ = _ := by ring
  have hGG : G * (G * pinv G) = G := by
    have h1 : (G * pinv G * G)ᵀ = Gᵀ := by rw [hp.axa]
    rw [Matrix.transpose_mul, hp.ax, hG] at h1
    exact h1
  set z : ι → ℝ := q - G *ᵥ (pinv G *ᵥ q) with hz
  have hGz : G *ᵥ z = 0 := by
    rw [hz, Matrix.mulVec_sub, Matrix.mulVec_mulVec, Matrix.mulVec_mulVec, Matrix.mul_assoc, hGG,
      sub_self]
  have hzq : z ⬝ᵥ q = 0 := (hline z).2 (by rw [hGz, dotProduct_zero])
  have hzz : z ⬝ᵥ z = 0 := by
    conv_lhs => rw [hz]
    rw [sub_dotProduct, dotProduct_comm q z, hzq, dotProduct_comm (G *ᵥ _) z, dot_symm hG, hGz,
      dotProduct_zero, sub_zero]
  have hz0 : z = 0 := dotProduct_self_eq_zero.1 hzz
  have hsol : G *ᵥ (pinv G *ᵥ q) = q := (sub_eq_zero.1 hz0).symm
  refine ⟨hsol, fun a => ?_, by rw [hsol]; ring⟩
  set b := pinv G *ᵥ q with hb
  have h1 := (hline (a - b)).1
  have e : (a - b) ⬝ᵥ (G *ᵥ (a - b)) = a ⬝ᵥ (G *ᵥ a) - 2 * (a ⬝ᵥ q) + b ⬝ᵥ q := by
    rw [Matrix.mulVec_sub, sub_dotProduct, dotProduct_sub, dotProduct_sub, hsol, dot_symm hG b a,
      hsol]
    ring
  rw [e] at h1
  linarith

end Verif
