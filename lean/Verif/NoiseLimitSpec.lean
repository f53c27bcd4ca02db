import Verif.Noise
import Mathlib.Probability.IdentDistrib
import Mathlib.Probability.Moments.Covariance

/-! Vocabulary of property C150: noise of several channels, recorded again and again. -/

namespace Verif.Noise
open Verif Verif.Dft MeasureTheory ProbabilityTheory

variable {n c : ℕ} [NeZero n] {Ω : Type*} [MeasurableSpace Ω]

/-- Independent recordings of `c` channels with one distribution and finite power. -/
structure Series (μ : Measure Ω) (noise : ℕ → Ω → Fin c → ZMod n → ℝ) : Prop where
  sq_int : ∀ i s, MemLp (fun ω => noise 0 ω i s) 2 μ
  independent : Pairwise fun a b => IndepFun (noise a) (noise b) μ
  alike : ∀ a, IdentDistrib (noise a) (noise 0) μ μ

/-- The object made from the first `m` recordings. -/
def taken (noise : ℕ → Fin c → ZMod n → ℝ) (fs : ℝ) (time : ZMod n → ℝ) (m : ℕ) : Obj m c n where
  traces := fun t => noise t
  fs := fs
  time := time
  psd := none
  realPsd := none
  imagPsd := none
  csd := none
  corrcoeff := none
  uncorr := none
  corr := none

/-- The cross spectral density of two channels of the population. -/
noncomputable def popCsd (μ : Measure Ω) (x : Ω → Fin c → ZMod n → ℝ) (fs : ℝ) (i j : Fin c) (k : Half n) : ℂ :=
  ∫ ω, csd1 (x ω i) (x ω j) fs k ∂μ

/-- The spectral density of a combination of channels of the population, with weights which may depend on the frequency. -/
noncomputable def popMix (μ : Measure Ω) (x : Ω → Fin c → ZMod n → ℝ) (fs : ℝ) (k : Half n) (w : Fin c → ℂ) : ℝ :=
  csdScale n fs k * ∫ ω, ‖∑ i, w i * segFft (x ω i) k‖ ^ 2 ∂μ

/-- The channels are jointly stationary with the covariances `R i j`. -/
def Joint (μ : Measure Ω) (x : Ω → Fin c → ZMod n → ℝ) (R : Fin c → Fin c → ZMod n → ℝ) : Prop :=
  ∀ i j s s', ∫ ω, x ω i s * x ω j s' ∂μ = R i j (s' - s)

/-- A spectrum without its constant part. -/
def noDc (S : ZMod n → ℂ) (k : ZMod n) : ℂ := if k = 0 then 0 else S k

end Verif.Noise
