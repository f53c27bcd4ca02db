import Verif.OFStatSpec

/-! Vocabulary of property C157: a filter made with a spectrum which is not exactly that of the noise. -/

namespace Verif.OF
open Verif Verif.Dft

variable {n : ℕ}

/-- In the bins used by the filter the noise power `J` is between `c` and `C` times the power `psd` given to the
filter. -/
def Within (psd : ZMod n → WithTop ℝ) (ac : Bool) (J : ZMod n → ℝ) (c C : ℝ) : Prop :=
  ∀ k p, Used psd ac k → psd k = ((p : ℝ) : WithTop ℝ) → c * p ≤ J k ∧ J k ≤ C * p

end Verif.OF
