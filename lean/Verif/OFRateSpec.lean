import Verif.OFStatSpec
import Verif.ArgminSpec

/-! Vocabulary of property C141: the delays among which a fit searches. -/

namespace Verif.OF
open Verif

/-- The delays, in bins, which the user allows. -/
def Delays (n : ℕ) (nc : Option ℤ) (outside : Bool) (wc : ℤ) : Set ℤ :=
  {d | Admissible n nc outside none wc (d + (n : ℤ) / 2)}

end Verif.OF
