import Verif.Noise

/-! Specification for C170. -/

namespace Verif.Noise

variable {n : ℕ}

/-- The array of a spectrum. -/
def asList (x : ZMod n → ℝ) : List ℝ := (List.range n).map fun (k : ℕ) => x (k : ZMod n)

/-- `smooth_psd(psd)` returns the array `s`, with a number in every bin. -/
def Smoothed (psd s : ZMod n → ℝ) : Prop := smoothPsd (asList psd) = (asList s).map some

end Verif.Noise
