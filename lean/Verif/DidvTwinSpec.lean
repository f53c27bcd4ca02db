import Verif.DidvErrSpec
import Verif.DevicePriorsSpec
import Verif.DidvPriorsSpec

/-! Vocabulary of property C154: bins of opposite frequencies, and the cost which counts every measurement once. -/

namespace Verif.Device
open Verif Verif.Dft Verif.Didv

variable {n : ℕ} [NeZero n]

/-- Both a bin and the bin of the opposite frequency have drive, and no trace exceeds it by what makes the code throw bins away. -/
def Paired (o : Obj) (k : ZMod n) : Prop :=
  drive o k ≠ 0 ∧ drive o (-k) ≠ 0 ∧ ∀ t ∈ o.raw, ‖fftR (fun j : ZMod n => t j.val / o.gain) k‖ ≤ 10 ^ 16 * ‖drive o k‖

/-- The first of two such bins, if they are below the cut-off. -/
def Twin (o : Obj) (c : Option ℝ) (k : ZMod n) : Prop := Paired o k ∧ Below o.fs c k ∧ k.val < (-k).val

/-- The squared distance of a bin to the model values `Y`, in units of its error bars. -/
noncomputable def deviation (o : Obj) (q : Proc) (Y : ZMod n → ℂ) (k : ZMod n) : ℝ :=
  ((q.didvmean k.val * o.rsh - Y k).re / (q.didvstd k.val * o.rsh).re) ^ 2 +
    ((q.didvmean k.val * o.rsh - Y k).im / (q.didvstd k.val * o.rsh).im) ^ 2

/-- The squared distance of the parameters to the priors. -/
noncomputable def distancePriors (priors : List ℝ) (inv : Cov) (params : List ℝ) : ℝ :=
  ∑ i : Fin inv.d, ∑ j : Fin inv.d, (priors.getD i 0 - params.getD i 0) * inv.m i j * (priors.getD j 0 - params.getD j 0)

open Classical in
/-- The negative logarithm of the posterior probability, up to a constant: half the squared distances of the parameters to the priors
and of the data to the model.  Of two bins with one measurement only the first counts. -/
noncomputable def logPosterior (o : Obj) (q : Proc) (c : Option ℝ) (priors : List ℝ) (inv : Cov) (params : List ℝ)
    (Y : ZMod n → ℂ) : ℝ :=
  distancePriors priors inv params / 2 + (∑ k : ZMod n with Below o.fs c k ∧ ¬Twin o c (-k), deviation o q Y k) / 2

end Verif.Device
