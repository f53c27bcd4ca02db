import Mathlib.Analysis.SpecialFunctions.ImproperIntegrals
import Mathlib.Analysis.SpecialFunctions.Pow.Real

/-!
Specification for the pulse models, independent of the model: pulses in continuous time and their
Fourier transform.
-/

namespace Verif.NonLin.Spec

/-- A pulse with one rise time and three fall times, at time `t` after its start. -/
noncomputable def pulse4 (A B C τr τ1 τ2 τ3 t : ℝ) : ℝ :=
  A * Real.exp (-t / τ1) + B * Real.exp (-t / τ2) + C * Real.exp (-t / τ3) -
    (A + B + C) * Real.exp (-t / τr)

/-- One rise time and two fall times. -/
noncomputable def pulse3 (A B τr τ1 τ2 t : ℝ) : ℝ :=
  A * Real.exp (-t / τ1) + B * Real.exp (-t / τ2) - (A + B) * Real.exp (-t / τr)

/-- One rise time and one fall time. -/
noncomputable def pulse2 (A τr τf t : ℝ) : ℝ := A * (Real.exp (-t / τf) - Real.exp (-t / τr))

/-- Fourier transform of a pulse starting at `t0` (zero before), at angular frequency `ω`. -/
noncomputable def transform (f : ℝ → ℝ) (t0 ω : ℝ) : ℂ :=
  ∫ t in Set.Ioi t0, (f (t - t0) : ℂ) * Complex.exp (-Complex.I * ω * t)

/-- `a` is the height of the pulse `f`: attained at a positive time and never exceeded. -/
def IsHeight (f : ℝ → ℝ) (a : ℝ) : Prop := (∃ t, 0 < t ∧ f t = a) ∧ ∀ t, 0 ≤ t → f t ≤ a

end Verif.NonLin.Spec
