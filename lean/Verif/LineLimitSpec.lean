import Verif.Iv
import Verif.LineFitSpec
import Mathlib.MeasureTheory.Integral.Bochner.Basic
import Mathlib.MeasureTheory.Function.LpSpace.Basic
import Mathlib.Probability.IdentDistrib
import Mathlib.Probability.Independence.Basic

/-! Vocabulary of property C148: scattered readings and sequences of measurements. -/

namespace Verif.LineFit
open Verif MeasureTheory ProbabilityTheory Filter Topology

/-- The bias point meant by an index: negative ones count from the end. -/
def place (n : ℕ) (i : ℤ) : ℕ := (if i < 0 then i + n else i).toNat

/-- Random errors of `n` readings: uncorrelated, with mean zero and standard deviations `σ`. -/
structure Scatter {Ω : Type*} [MeasurableSpace Ω] (μ : Measure Ω) (w : Ω → ℕ → ℝ) (σ : ℕ → ℝ) (n : ℕ) : Prop where
  sq_int : ∀ i < n, MemLp (fun ω => w ω i) 2 μ
  mean : ∀ i < n, ∫ ω, w ω i ∂μ = 0
  cov : ∀ i < n, ∀ j < n, ∫ ω, w ω i * w ω j ∂μ = if i = j then σ i ^ 2 else 0

/-- Numbers which are defined from some point on and approach a value, if there is one. -/
def Gets {ι : Type*} (L : Filter ι) (u : ι → Option ℝ) (v : Option ℝ) : Prop :=
  ∀ x, v = some x → ∃ s, (∀ᶠ i in L, u i = some (s i)) ∧ Tendsto s L (𝓝 x)

/-- Repeated errors of one reading: independent, with one distribution of mean zero. -/
structure Repeats {Ω : Type*} [MeasurableSpace Ω] (μ : Measure Ω) (w : ℕ → Ω → ℝ) : Prop where
  int : Integrable (w 0) μ
  mean : ∫ ω, w 0 ω ∂μ = 0
  independent : Pairwise fun i j => IndepFun (w i) (w j) μ
  alike : ∀ i, IdentDistrib (w i) (w 0) μ μ

end Verif.LineFit
