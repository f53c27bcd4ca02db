import Verif.Sim
import Verif.DidvPriors

/-! Model of `loadfromdidv` (`/repo/qetpy/sim/_sim.py`) for the results of a fit with priors. -/

namespace Verif.Sim
open Verif

/-- `fitresult[key]` for the key `params`: the results of a fit with priors have no `smallsignalparams`.
An empty dictionary raises KeyError.  Lines 101-106, 132-137. -/
def paramsOf : Option Didv.PResult → Except Err (List ℝ)
  | none => .error .keyError
  | some r => .ok r.params

/-- `loadfromdidv` of a `DIDVPriors` object.  Lines 100-166. -/
noncomputable def loadfrompriors (o : Didv.PObj) (a : LoadArgs) (rnormal : Option ℝ)
    (noisetype : PyStr) : Except Err TES :=
  loadWith (fun k => paramsOf (Didv.fitresultP o k)) a rnormal noisetype

end Verif.Sim
