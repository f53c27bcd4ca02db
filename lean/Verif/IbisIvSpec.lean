import Verif.Ibis

/-! Comparing the two IV analyses. -/

namespace Verif.Ibis
open Verif LineFit
open Verif.Iv (A1 A2 A3 Nd ValErr)

/-- The IV object for the same measurement, once the bias offset and the parasitic resistance are known from
an IBIS analysis: bias voltages across the shunt, load resistance `rsh + rp`. -/
noncomputable def toIv (o : Obj) (res : Result) (vbErr rloadErr : ℝ) : Iv.Obj where
  data := ⟨o.data.n0, o.data.n1, o.data.n2, fun t c i => (o.data.get t c i).map fun r =>
    ⟨(r.ibias - (res.ibiasOff t c).val) * o.rsh, vbErr, r.dites, r.ditesErr⟩⟩
  rload := some ⟨o.data.n0, o.data.n1, o.data.n2, fun t c _ => ⟨o.rsh + (res.rp t c).val, rloadErr⟩⟩
  normalinds := some o.normalinds

end Verif.Ibis
