import Mathlib.MeasureTheory.Function.L2Space
import Mathlib.MeasureTheory.Integral.Bochner.Basic

/-! Definitions for property C162. -/

namespace Verif.SlopeStat
open MeasureTheory

variable {ι : Type*} [DecidableEq ι] {Ω : Type*} [MeasurableSpace Ω]

/-- White noise: mean zero, variance `v` at every sample, no correlation between samples. -/
structure White (μ : Measure Ω) (noise : Ω → ι → ℝ) (v : ℝ) : Prop where
  sq_int : ∀ i, MemLp (fun ω => noise ω i) 2 μ
  mean : ∀ i, ∫ ω, noise ω i ∂μ = 0
  cov : ∀ i j, ∫ ω, noise ω i * noise ω j ∂μ = if i = j then v else 0

/-- Points scattered around a straight line. -/
def scattered (x : ι → ℝ) (a b : ℝ) (y : ι → ℝ) : ι → ℝ := fun i => a * x i + b + y i

end Verif.SlopeStat
