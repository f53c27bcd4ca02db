import Verif.NsmbSpec
import Verif.OFStatSpec

/-! Specification for C119: events made of several templates and stationary noise. -/

namespace Verif.Nsmb.Spec

open Verif.Dft

variable {n : ℕ} [NeZero n] {nb : ℕ}

/-- The templates with heights `A`, the signal template delayed by `k` bins, plus noise. -/
def event (T : Fin (nb + 1) → ZMod n → ℝ) (k : ZMod n) (A : Fin (nb + 1) → ℝ) (noise : ZMod n → ℝ) :
    ZMod n → ℝ := fun j => ∑ i, A i * delayed T k i j + noise j

end Verif.Nsmb.Spec

namespace Verif.OF

open Verif.Dft

variable {n : ℕ} [NeZero n]

/-- Two pulses, one at time zero and one `k` bins later, plus noise. -/
def twoPulses (T : ZMod n → ℝ) (A1 A2 : ℝ) (k : ℤ) (noise : ZMod n → ℝ) : ZMod n → ℝ :=
  fun j => A1 * T j + A2 * roll T (k : ZMod n) j + noise j

/-- How much two shapes have in common, as the noise weighting sees them. -/
noncomputable def overlap (fs : ℝ) (wt x y : ZMod n → ℝ) : ℝ :=
  (traceChi2 fs wt (fun j => x j + y j) - traceChi2 fs wt x - traceChi2 fs wt y) / 2

end Verif.OF
