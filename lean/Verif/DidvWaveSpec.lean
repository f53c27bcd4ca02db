import Verif.DidvWave
import Verif.DidvSpec
import Mathlib.Analysis.SpecialFunctions.Integrals.Basic

/-! Specification vocabulary for the square-wave response. -/

namespace Verif.Didv
open Verif Dft

/-- Fourier coefficient of harmonic `h` of the square wave which, over one period, is zero for the phases
`0 .. duty` and `amp` for the phases `duty .. 1`. -/
noncomputable def squareCoeff (amp duty : ℝ) (h : ℤ) : ℂ :=
  ∫ t in duty..1, (amp : ℂ) * Complex.exp (-2 * Complex.I * Real.pi * h * t)

/-- The trace of `n` samples with spacing `dx` holds exactly `P` periods of the signal generator (at most
`10⁸`, the resolution of the frequency comparison in the code). -/
def HoldsPeriods (n : ℕ) (dx sgfreq : ℝ) (P : ℕ) : Prop :=
  0 < dx ∧ 0 < sgfreq ∧ 0 < P ∧ P ≤ 10 ^ 8 ∧ n * dx * sgfreq = P

end Verif.Didv
