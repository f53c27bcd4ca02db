import Mathlib.MeasureTheory.Integral.IntervalIntegral.Basic
import Mathlib.Analysis.SpecialFunctions.Exp
import Mathlib.Analysis.SpecialFunctions.Log.Basic
import Mathlib.Analysis.Real.Pi.Bounds

/-! The likelihood of data drawn from a normal distribution cut off at two bounds. -/

namespace Verif.Trunc

/-- The normal density. -/
noncomputable def density (μ σ v : ℝ) : ℝ :=
  Real.exp (-(v - μ) ^ 2 / (2 * σ ^ 2)) / (σ * Real.sqrt (2 * Real.pi))

/-- The log likelihood of `x` under the normal distribution restricted to `[a, b]`. -/
noncomputable def logLik (x : List ℝ) (a b μ σ : ℝ) : ℝ :=
  (x.map fun v => Real.log (density μ σ v / ∫ u in a..b, density μ σ u)).sum

end Verif.Trunc
