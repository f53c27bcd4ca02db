import Verif.LineLimitSpec
import Verif.IbisSpec

/-! Vocabulary of property C149. -/

namespace Verif.Ibis
open Verif LineFit Filter Topology
open Verif.Iv (A3 Nd ValErr)

/-- The measurement with errors of the measured currents. -/
def Obj.noisy (o : Obj) (w : ℕ → ℕ → ℕ → ℝ) : Obj :=
  { o with data := { o.data with
      get := fun t c i => (o.data.get t c i).map fun r => { r with dites := r.dites + w t c i } } }

variable {ι : Type*}

/-- Readings which approach a reading; missing readings stay missing. -/
def Toward (L : Filter ι) (u : ι → Option Reading) (v : Option Reading) : Prop :=
  match v with
  | none => ∀ i, u i = none
  | some r => ∃ s : ι → Reading, (∀ i, u i = some (s i)) ∧ Tendsto (fun i => (s i).ibias) L (𝓝 r.ibias) ∧
      Tendsto (fun i => (s i).ibiasErr) L (𝓝 r.ibiasErr) ∧ Tendsto (fun i => (s i).dites) L (𝓝 r.dites) ∧
      Tendsto (fun i => (s i).ditesErr) L (𝓝 r.ditesErr)

/-- A value and an error which approach a value and an error. -/
def TowardV (L : Filter ι) (u : ι → ValErr) (v : ValErr) : Prop :=
  Tendsto (fun i => (u i).val) L (𝓝 v.val) ∧ Tendsto (fun i => (u i).err) L (𝓝 v.err)

/-- Values and errors which are defined from some point on and approach a value and an error, if there are any. -/
def GetsV (L : Filter ι) (u : ι → Option ValErr) (v : Option ValErr) : Prop :=
  ∀ x, v = some x → ∃ s, (∀ᶠ i in L, u i = some (s i)) ∧ TowardV L s x

/-- Measurements of one shape, with the same choices, which approach a measurement. -/
structure Approach (L : Filter ι) (O : ι → Obj) (o : Obj) : Prop where
  shape : ∀ i, (O i).data.n0 = o.data.n0 ∧ (O i).data.n1 = o.data.n1 ∧ (O i).data.n2 = o.data.n2
  choices : ∀ i, (O i).normalinds = o.normalinds ∧ (O i).fitsc = o.fitsc ∧ (O i).scinds = o.scinds
  data : ∀ t c k, Toward L (fun i => (O i).data.get t c k) (o.data.get t c k)
  rsh : Tendsto (fun i => (O i).rsh) L (𝓝 o.rsh)
  rshErr : Tendsto (fun i => (O i).rshErr) L (𝓝 o.rshErr)
  rp : ∀ a, o.rp = some (.d3 a) → ∃ A : ι → A3 ValErr, (∀ i, (O i).rp = some (.d3 (A i))) ∧
    ∀ t c k, TowardV L (fun i => (A i).get t c k) (a.get t c k)

/-- Everything `analyze` stores approaches the stored results. -/
structure Settles (L : Filter ι) (o : Obj) (R : ι → Result) (res : Result) : Prop where
  fit : ∀ t < o.data.n0, ∀ c < o.data.n1,
    Tendsto (fun i => (R i).slopeN t c) L (𝓝 (res.slopeN t c)) ∧ Tendsto (fun i => (R i).intN t c) L (𝓝 (res.intN t c)) ∧
    Tendsto (fun i => (R i).slopeSc t c) L (𝓝 (res.slopeSc t c)) ∧ Tendsto (fun i => (R i).intSc t c) L (𝓝 (res.intSc t c)) ∧
    TowardV L (fun i => (R i).ioff t c) (res.ioff t c) ∧ TowardV L (fun i => (R i).ibiasOff t c) (res.ibiasOff t c) ∧
    TowardV L (fun i => (R i).rfit t c) (res.rfit t c) ∧ TowardV L (fun i => (R i).rp t c) (res.rp t c) ∧
    TowardV L (fun i => (R i).rnorm t c) (res.rnorm t c)
  points : ∀ t < o.data.n0, ∀ c < o.data.n1, ∀ k < o.data.n2,
    GetsV L (fun i => (R i).ites t c k) (res.ites t c k) ∧ GetsV L (fun i => (R i).ibiasTrue t c k) (res.ibiasTrue t c k) ∧
    GetsV L (fun i => (R i).vb t c k) (res.vb t c k) ∧ GetsV L (fun i => (R i).r0 t c k) (res.r0 t c k) ∧
    GetsV L (fun i => (R i).ptes t c k) (res.ptes t c k)

/-- The errors stated for the currents of a temperature and channel. -/
def Obj.errs (o : Obj) (t c k : ℕ) : ℝ := (o.data.get t c k).elim 0 Reading.ditesErr

/-- The readings chosen by `inds` lie on the line with this slope and intercept. -/
def OnLine (o : Obj) (t c : ℕ) (inds : List ℤ) (slope icept : ℝ) : Prop :=
  ∀ i ∈ inds, ∀ r, o.data.get t c (place o.data.n2 i) = some r → r.dites = slope * r.ibias + icept

end Verif.Ibis
