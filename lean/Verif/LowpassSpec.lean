import Mathlib.Analysis.SpecialFunctions.Trigonometric.Basic

/-! Specification of the low-pass filter, independent of its coefficients. -/

namespace Verif.Lowpass.Spec

/-- Every sample lies between `m` and `M`. -/
def Between (m M : ℝ) (x : List ℝ) : Prop := ∀ v ∈ x, m ≤ v ∧ v ≤ M

/-- `N` samples at rate `fs` of a cosine with amplitude `A`, frequency `f` and phase `φ`. -/
noncomputable def cosine (A f φ fs : ℝ) (N : ℕ) : List ℝ :=
  (List.range N).map fun (k : ℕ) => A * Real.cos (2 * Real.pi * f / fs * k + φ)

/-- The power which a first-order low-pass filter with 3 dB frequency `cut` lets through at the
frequency `f`, on the frequency scale of the bilinear transform. -/
noncomputable def gain (f cut fs : ℝ) : ℝ :=
  1 / (1 + (Real.tan (Real.pi * f / fs) / Real.tan (Real.pi * cut / fs)) ^ 2)

end Verif.Lowpass.Spec
