import Verif.NsmbStatSpec

/-! Definitions for property C159. -/

namespace Verif.OF
open Verif Verif.Dft

variable {n : ℕ} [NeZero n]

/-- How alike two delayed copies of the template are, between -1 and 1, as the noise weighting sees them. -/
noncomputable def likeness (fs : ℝ) (wt T : ZMod n → ℝ) (i j : ℤ) : ℝ :=
  overlap fs wt (roll T (i : ZMod n)) (roll T (j : ZMod n)) / traceChi2 fs wt T

/-- Two pulses and noise. -/
def pair (T : ZMod n → ℝ) (A1 : ℝ) (k1 : ℤ) (A2 : ℝ) (k2 : ℤ) (noise : ZMod n → ℝ) : ZMod n → ℝ :=
  fun j => A1 * roll T (k1 : ZMod n) j + A2 * roll T (k2 : ZMod n) j + noise j

/-- What is left of the first pulse when the one given to the fit is taken away. -/
def leftover (T : ZMod n → ℝ) (A1 : ℝ) (k1 : ℤ) (a1 : ℝ) (m1 : ℤ) : ZMod n → ℝ :=
  fun j => A1 * roll T (k1 : ZMod n) j - a1 * roll T (m1 : ZMod n) j

end Verif.OF
