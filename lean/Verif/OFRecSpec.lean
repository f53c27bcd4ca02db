import Verif.OFSpec

/-! Specification for C118: linear independence of the shifted templates, as the noise weighting sees it. -/

namespace Verif.OF
open Verif Verif.Dft

variable {n : ℕ} [NeZero n]

/-- A sum of shifted templates, with amplitude `c d` at delay `d`, on a constant baseline `b`. -/
def pulses (T : ZMod n → ℝ) (c : ZMod n → ℝ) (b : ℝ) : ZMod n → ℝ := fun j => ∑ d, c d * roll T d j + b

/-- No sum of at most `r` shifted templates is invisible. -/
def Distinguishable (fs : ℝ) (wt T : ZMod n → ℝ) (r : ℕ) : Prop :=
  ∀ c : ZMod n → ℝ, {d | c d ≠ 0}.ncard ≤ r → traceChi2 fs wt (pulses T c 0) = 0 → c = 0

/-- The same with an additional constant baseline. -/
def DistinguishableB (fs : ℝ) (wt T : ZMod n → ℝ) (r : ℕ) : Prop :=
  ∀ (c : ZMod n → ℝ) (b : ℝ), {d | c d ≠ 0}.ncard ≤ r → traceChi2 fs wt (pulses T c b) = 0 → c = 0 ∧ b = 0

end Verif.OF
