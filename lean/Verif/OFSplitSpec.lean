import Verif.OF

/-! Specification for C135: the fits that search over delays with a window and a pulse direction. -/

namespace Verif.OF
open Verif Verif.Dft

variable {n : ℕ} [NeZero n]

/-- `ofamp_withdelay`, `ofamp_pileup_iterative` after a given first pulse, `ofamp_baseline`. -/
inductive Searching
  | withdelay
  | pileup (a1 t1 : ℝ)
  | baseline

/-- What the call returns. -/
noncomputable def Searching.run (s : Searching) (st : State n) (nc : Option ℤ) (o : Bool) (dir wc : ℤ) (interp : Bool) :
    Except Err (ℝ × ℝ × ℝ) :=
  match s with
  | .withdelay => (OF.withdelay st nc o dir wc interp).1
  | .pileup a1 t1 => (OF.pileupIterative st a1 t1 nc o dir wc interp).1
  | .baseline => OF.baseline st nc o dir wc interp

end Verif.OF
