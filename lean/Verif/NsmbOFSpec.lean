import Verif.NsmbSpec
import Mathlib.Algebra.Order.WithTop.Untop0

/-!
Specification for comparing the multi-template fit with `OptimumFilter`.
-/

namespace Verif.Nsmb.Spec

variable {n : ℕ} [NeZero n] {nb : ℕ}

/-- The PSD with the DC bin replaced by the first bin, as the multi-template fit uses it, in the form
`OptimumFilter` takes. -/
def dcPsd (psd : ZMod n → ℝ) (k : ZMod n) : WithTop ℝ := ((if k = 0 then psd 1 else psd k : ℝ) : WithTop ℝ)

/-- All backgrounds are multiples of one shape. -/
def BackgroundsAre (T : Fin (nb + 1) → ZMod n → ℝ) (c : Fin nb → ℝ) (s : ZMod n → ℝ) : Prop :=
  ∀ i j, T i.succ j = c i * s j

/-- The window holds every delay. -/
def FullWindow (n : ℕ) [NeZero n] (window : List ℤ) : Prop := ∀ m : ZMod n, ∃ d ∈ window, (d : ZMod n) = m

end Verif.Nsmb.Spec
