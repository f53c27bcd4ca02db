import Verif.OFSpec
import Mathlib.MeasureTheory.Function.L2Space
import Mathlib.Probability.Distributions.Gaussian.Real

/-!
Specification of the noise model behind optimum filtering: a stationary random trace, given by its
autocovariance, whose power spectral density is the Fourier transform of the autocovariance
(Wiener-Khinchin).  No distribution is assumed beyond first and second moments.
-/

namespace Verif.OF
open Verif Verif.Dft MeasureTheory

variable {n : ℕ} [NeZero n]

/-- `noise` is a stationary random trace of mean zero with autocovariance `R`. -/
structure Stationary {Ω : Type*} [MeasurableSpace Ω] (μ : Measure Ω) (noise : Ω → ZMod n → ℝ)
    (R : ZMod n → ℝ) : Prop where
  sq_int : ∀ j, MemLp (fun ω => noise ω j) 2 μ
  mean : ∀ j, ∫ ω, noise ω j ∂μ = 0
  cov : ∀ i j, ∫ ω, noise ω i * noise ω j ∂μ = R (i - j)

/-- `psd` is the two-sided power spectral density of the autocovariance `R` at sampling rate `fs`, in
every bin where it is finite (an infinite bin is one the user excludes from the fit). -/
def HasPsd (R : ZMod n → ℝ) (fs : ℝ) (psd : ZMod n → WithTop ℝ) : Prop :=
  ∀ k p, psd k = ((p : ℝ) : WithTop ℝ) → fftR R k = ((fs * p : ℝ) : ℂ)

/-- The bins used in the fit: finite noise power, and not the zero bin of an AC-coupled trace. -/
def Used (psd : ZMod n → WithTop ℝ) (ac : Bool) (k : ZMod n) : Prop :=
  psd k ≠ ⊤ ∧ ¬ (ac = true ∧ k = 0)

/-- A linear estimator `x ↦ ∑ g j x j` of the amplitude of the pulse `p` which looks only at the bins used
in the fit and is right on noise-free pulses. -/
structure Estimator (psd : ZMod n → WithTop ℝ) (ac : Bool) (p g : ZMod n → ℝ) : Prop where
  used : ∀ k, ¬ Used psd ac k → fftR g k = 0
  unit : ∑ j, g j * p j = 1

/-- A pulse of height `a` at bin offset `wc`, with noise. -/
def pulse (T : ZMod n → ℝ) (a : ℝ) (wc : ℤ) (noise : ZMod n → ℝ) : ZMod n → ℝ :=
  fun j => a * roll T (wc : ZMod n) j + noise j

open Classical in
/-- Bins used in the fit. -/
noncomputable def nUsed (psd : ZMod n → WithTop ℝ) (ac : Bool) : ℕ :=
  (Finset.univ.filter fun k => Used psd ac k).card

open ProbabilityTheory in
/-- Independent standard normal draws, one per bin, as `gen_noise` makes them. -/
noncomputable def normalDraws (n : ℕ) [NeZero n] : Measure (ZMod n → ℝ) :=
  Measure.pi fun _ => gaussianReal 0 1

open ProbabilityTheory in
instance : IsProbabilityMeasure (normalDraws n) := by unfold normalDraws; infer_instance

end Verif.OF
