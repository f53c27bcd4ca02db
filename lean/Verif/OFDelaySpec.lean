import Verif.OFRateSpec

/-! Vocabulary of property C156: how different a pulse is from the same pulse at another delay. -/

namespace Verif.OF
open Verif Verif.Dft

variable {n : ℕ} [NeZero n]

/-- The chi-square between a pulse of height `a` at delay `m` and a pulse of the same size at delay `d`, of the same
sign (`s = 1`) or the opposite one (`s = -1`). -/
noncomputable def gap (fs : ℝ) (psd : ZMod n → WithTop ℝ) (ac : Bool) (T : ZMod n → ℝ) (a : ℝ) (m d : ℤ) (s : ℝ) : ℝ :=
  traceChi2 fs (weight psd ac) fun j => a * roll T (m : ZMod n) j - s * a * roll T (d : ZMod n) j

/-- Other delays among those allowed. -/
noncomputable def others (n : ℕ) (nc : Option ℤ) (o : Bool) (wc m : ℤ) : Set ℤ := {d ∈ Delays n nc o wc | d ≠ m}

end Verif.OF
