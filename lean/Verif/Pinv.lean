import Mathlib.Data.Matrix.Mul
import Mathlib.Data.Real.Basic

/-!
`np.linalg.pinv` for square real matrices (DESIGN.md section 3): the Moore-Penrose
pseudo-inverse, characterised by the four Penrose equations.  The numerical cut-off `rcond`
for small singular values is not modelled (exact arithmetic).
-/

namespace Verif

open Matrix

variable {ι : Type*} [Fintype ι]

/-- The four Penrose equations: `X` is the pseudo-inverse of `A`. -/
structure IsPinv (A X : Matrix ι ι ℝ) : Prop where
  axa : A * X * A = A
  xax : X * A * X = X
  ax : (A * X)ᵀ = A * X
  xa : (X * A)ᵀ = X * A

open Classical in
/-- `np.linalg.pinv(A)`.  `isPinv_pinv` (PinvLemmas.lean) shows that the second branch is never
taken for a symmetric matrix, the only ones that occur. -/
noncomputable def pinv (A : Matrix ι ι ℝ) : Matrix ι ι ℝ :=
  if h : ∃ X, IsPinv A X then h.choose else 0

end Verif
