import Verif.OF

/-! Specification of call histories of an `OptimumFilter` object. -/

namespace Verif.OF

variable {n : ℕ} [NeZero n]

omit [NeZero n] in
/-- The signal last given to the object. -/
def lastSignal (x : ZMod n → ℝ) : List (Op n) → (ZMod n → ℝ)
  | [] => x
  | .updateSignal y :: ops => lastSignal y ops
  | _ :: ops => lastSignal x ops

end Verif.OF
