import Verif.OFRateSpec
import Verif.Noise
import Mathlib.Probability.IdentDistrib

/-! Vocabulary of property C142: a run of noise traces. -/

namespace Verif.OF
open Verif Verif.Dft MeasureTheory ProbabilityTheory

variable {n : ℕ} [NeZero n]

/-- Independent noise traces with one distribution and autocovariance `R`. -/
structure Run {Ω : Type*} [MeasurableSpace Ω] (μ : Measure Ω) (noise : ℕ → Ω → ZMod n → ℝ) (R : ZMod n → ℝ) : Prop where
  stationary : Stationary μ (noise 0) R
  independent : Pairwise fun i j => IndepFun (noise i) (noise j) μ
  alike : ∀ i, IdentDistrib (noise i) (noise 0) μ μ

/-- The two-sided `calc_psd` of the first `m` traces of a run. -/
noncomputable def measured (noise : ℕ → ZMod n → ℝ) (fs : ℝ) (m : ℕ) : ZMod n → ℝ :=
  Noise.calcPsdTwoSided (fun i : Fin m => noise i) fs

end Verif.OF
