import Mathlib.Probability.Distributions.Gaussian.Real
import Mathlib.MeasureTheory.Constructions.Pi

/-! Specification of property C144: the chi-square distribution. -/

namespace Verif.OF
open MeasureTheory ProbabilityTheory

/-- The chi-square distribution with `d` degrees of freedom: the law of the sum of the squares of `d` independent standard
normal variables. -/
noncomputable def chiSquared (d : ℕ) : Measure ℝ :=
  (Measure.pi fun _ : Fin d => gaussianReal 0 1).map fun x => ∑ i, x i ^ 2

end Verif.OF
