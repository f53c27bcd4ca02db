import Verif.CutSpec
import Mathlib.Data.Matrix.Mul
import Mathlib.Analysis.SpecialFunctions.Pow.Real

/-! Specification for C104: the ellipsoid and the box an event has to lie in. -/

namespace Verif.Cut

variable {d : ℕ}

/-- `x` is at a squared distance below `r2` of `m`, measured with the covariance `c`: the distance
is `δ · v` where `c v = δ`. -/
def InEllipsoid (m : Fin d → ℝ) (c : Matrix (Fin d) (Fin d) ℝ) (r2 : ℝ) (x : Fin d → ℝ) : Prop :=
  ∃ v : Fin d → ℝ, (∀ i, ∑ j, c i j * v j = x i - m i) ∧ ∑ i, (x i - m i) * v i < r2

/-- Every coordinate of `x` is less than `t` standard deviations above and below that of `m`. -/
def InBox (m : Fin d → ℝ) (c : Matrix (Fin d) (Fin d) ℝ) (t : ℝ) (x : Fin d → ℝ) : Prop :=
  ∀ i, m i - t * Real.sqrt (c i i) < x i ∧ x i < m i + t * Real.sqrt (c i i)

/-- The number of standard deviations an event may be away: `3`, or `p` if this is larger. -/
noncomputable def allowed (threshold : Option ℝ) (p : ℝ) : ℝ :=
  match threshold with
  | some t => t
  | none => if 3 ≤ p then p else 3

/-- The matrix of a change of units: row `i` is `s * x i + b i`. -/
def affineRow {d : ℕ} (s : ℝ) (b : Fin d → ℝ) (r : List ℝ) : List ℝ :=
  List.ofFn fun i : Fin d => s * r.getD i 0 + b i

end Verif.Cut
