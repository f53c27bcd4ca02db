import Verif.LineFit

/-! Specification vocabulary for straight-line fits. -/

namespace Verif.LineFit

/-- The weighted sum of squared deviations of the data from the line `m x + b`. -/
noncomputable def Chi2 (pts : List Pt) (b m : ℝ) : ℝ :=
  (pts.map fun p => ((p.y - (m * p.x + b)) / p.σ) ^ 2).sum

/-- `m x + b` fits strictly better than every other line. -/
def IsBestLine (pts : List Pt) (b m : ℝ) : Prop :=
  ∀ b' m', (b', m') ≠ (b, m) → Chi2 pts b m < Chi2 pts b' m'

/-- The data lie exactly on the line. -/
def OnLine (pts : List Pt) (b m : ℝ) : Prop := ∀ p ∈ pts, p.y = m * p.x + b

/-- The same abscissae and error bars with other ordinates. -/
def withY (pts : List Pt) (ys : List ℝ) : List Pt :=
  List.zipWith (fun p y => ⟨p.x, y, p.σ⟩) pts ys

/-- `v` is the variance which independent errors `σᵢ` of the ordinates induce on the estimator `est`:
`est` is linear in the ordinates, `est = Σ cᵢ yᵢ`, and `v = Σ cᵢ² σᵢ²`. -/
def IsVariance (pts : List Pt) (est : List Pt → ℝ) (v : ℝ) : Prop :=
  ∃ c : Pt → ℝ,
    (∀ ys : List ℝ, ys.length = pts.length →
      est (withY pts ys) = (List.zipWith (fun p y => c p * y) pts ys).sum) ∧
    v = (pts.map fun p => (c p * p.σ) ^ 2).sum

end Verif.LineFit
