import Verif.IbisSpec

/-! Specification vocabulary for C130: units and zeros of an IBIS measurement. -/

namespace Verif.Ibis
open Verif
open Verif.Iv (A3 Nd ValErr)

/-- A change of units: both currents are multiplied by `a` (negative: both polarities reversed),
resistances by `s`; the zero of the measured current moves by `d`, that of the bias current by `e`. -/
structure Units where
  a : ℝ
  s : ℝ
  d : ℝ
  e : ℝ
  ha : a ≠ 0
  hs : 0 < s

/-- A bias point in the other units. -/
noncomputable def Units.reading (u : Units) (r : Reading) : Reading :=
  ⟨u.a * r.ibias + u.e, |u.a| * r.ibiasErr, u.a * r.dites + u.d, |u.a| * r.ditesErr⟩

/-- A quantity and its error multiplied by a factor. -/
noncomputable def scale (k : ℝ) (x : ValErr) : ValErr := ⟨k * x.val, |k| * x.err⟩

/-- A function applied to the entries of an array. -/
def ndMap {α β : Type} (f : α → β) : Nd α → Nd β
  | .d1 x => .d1 ⟨x.n0, fun i => f (x.get i)⟩
  | .d2 x => .d2 ⟨x.n0, x.n1, fun i j => f (x.get i j)⟩
  | .d3 x => .d3 ⟨x.n0, x.n1, x.n2, fun i j k => f (x.get i j k)⟩
  | .other => .other

/-- The whole measurement in the other units. -/
noncomputable def Units.obj (u : Units) (o : Obj) : Obj where
  data := ⟨o.data.n0, o.data.n1, o.data.n2, fun t c i => (o.data.get t c i).map u.reading⟩
  rsh := u.s * o.rsh
  rshErr := u.s * o.rshErr
  normalinds := o.normalinds
  fitsc := o.fitsc
  scinds := o.scinds
  rp := o.rp.map (ndMap (scale u.s))

/-- The values of an optional quantity. -/
def vals (x : Option ValErr) : Option ℝ := x.map (·.val)

/-- The errors of an optional quantity. -/
def errs (x : Option ValErr) : Option ℝ := x.map (·.err)

/-- The fitted resistances with their errors, and the values of all other results, are the same physical
quantities in the other units. -/
structure SameValues (u : Units) (o : Obj) (res res' : Result) : Prop where
  ioff : ∀ t < o.data.n0, ∀ c < o.data.n1, (res'.ioff t c).val = u.a * (res.ioff t c).val + u.d
  ibiasOff : ∀ t < o.data.n0, ∀ c < o.data.n1,
    (res'.ibiasOff t c).val = u.a * (res.ibiasOff t c).val + u.e
  slopeN : ∀ t < o.data.n0, ∀ c < o.data.n1, res'.slopeN t c = res.slopeN t c
  slopeSc : ∀ t < o.data.n0, ∀ c < o.data.n1, res'.slopeSc t c = res.slopeSc t c
  rfit : ∀ t < o.data.n0, ∀ c < o.data.n1, res'.rfit t c = scale u.s (res.rfit t c)
  rp : ∀ t < o.data.n0, ∀ c < o.data.n1, res'.rp t c = scale u.s (res.rp t c)
  rnorm : ∀ t < o.data.n0, ∀ c < o.data.n1, res'.rnorm t c = scale u.s (res.rnorm t c)
  ites : ∀ t < o.data.n0, ∀ c < o.data.n1, ∀ i,
    vals (res'.ites t c i) = (vals (res.ites t c i)).map (u.a * ·)
  ibiasTrue : ∀ t < o.data.n0, ∀ c < o.data.n1, ∀ i,
    vals (res'.ibiasTrue t c i) = (vals (res.ibiasTrue t c i)).map (u.a * ·)
  vb : ∀ t < o.data.n0, ∀ c < o.data.n1, ∀ i,
    vals (res'.vb t c i) = (vals (res.vb t c i)).map (u.a * u.s * ·)
  r0 : ∀ t < o.data.n0, ∀ c < o.data.n1, ∀ i,
    vals (res'.r0 t c i) = (vals (res.r0 t c i)).map (u.s * ·)
  ptes : ∀ t < o.data.n0, ∀ c < o.data.n1, ∀ i,
    vals (res'.ptes t c i) = (vals (res.ptes t c i)).map (u.a ^ 2 * u.s * ·)

/-- The errors of the offsets and of all quantities depending on them are the same in the other units. -/
structure SameErrors (u : Units) (o : Obj) (res res' : Result) : Prop where
  ioff : ∀ t < o.data.n0, ∀ c < o.data.n1, (res'.ioff t c).err = |u.a| * (res.ioff t c).err
  ibiasOff : ∀ t < o.data.n0, ∀ c < o.data.n1, (res'.ibiasOff t c).err = |u.a| * (res.ibiasOff t c).err
  ites : ∀ t < o.data.n0, ∀ c < o.data.n1, ∀ i,
    errs (res'.ites t c i) = (errs (res.ites t c i)).map (|u.a| * ·)
  ibiasTrue : ∀ t < o.data.n0, ∀ c < o.data.n1, ∀ i,
    errs (res'.ibiasTrue t c i) = (errs (res.ibiasTrue t c i)).map (|u.a| * ·)
  vb : ∀ t < o.data.n0, ∀ c < o.data.n1, ∀ i,
    errs (res'.vb t c i) = (errs (res.vb t c i)).map (|u.a| * u.s * ·)
  r0 : ∀ t < o.data.n0, ∀ c < o.data.n1, ∀ i,
    errs (res'.r0 t c i) = (errs (res.r0 t c i)).map (u.s * ·)
  ptes : ∀ t < o.data.n0, ∀ c < o.data.n1, ∀ i,
    errs (res'.ptes t c i) = (errs (res.ptes t c i)).map (u.a ^ 2 * u.s * ·)

/-- The two measurements have the same shunt, the same fit regions and the same number of bias points. -/
def SameSettings (o o' : Obj) : Prop :=
  o'.normalinds = o.normalinds ∧ o'.fitsc = o.fitsc ∧ o'.scinds = o.scinds ∧ o'.rsh = o.rsh ∧
  o'.rshErr = o.rshErr ∧ o'.data.n2 = o.data.n2

/-- Row `(t', c')` of `o'` is the same data as row `(t, c)` of `o`, with the same parasitic resistance if
that is given and not fitted. -/
def SameRow (o o' : Obj) (t c t' c' : ℕ) : Prop :=
  (∀ i < o.data.n2, o'.data.get t' c' i = o.data.get t c i) ∧
  (o.fitsc = false → ∃ b b', o.rp = some (.d3 b) ∧ o'.rp = some (.d3 b') ∧ b'.get t' c' 0 = b.get t c 0)

/-- All results of two rows agree. -/
def SameRowResult (n2 : ℕ) (res res' : Result) (t c t' c' : ℕ) : Prop :=
  res'.slopeN t' c' = res.slopeN t c ∧ res'.intN t' c' = res.intN t c ∧
  res'.slopeSc t' c' = res.slopeSc t c ∧ res'.intSc t' c' = res.intSc t c ∧
  res'.ioff t' c' = res.ioff t c ∧ res'.ibiasOff t' c' = res.ibiasOff t c ∧
  res'.rfit t' c' = res.rfit t c ∧ res'.rp t' c' = res.rp t c ∧ res'.rnorm t' c' = res.rnorm t c ∧
  ∀ i < n2, res'.ites t' c' i = res.ites t c i ∧ res'.ibiasTrue t' c' i = res.ibiasTrue t c i ∧
    res'.vb t' c' i = res.vb t c i ∧ res'.r0 t' c' i = res.r0 t c i ∧ res'.ptes t' c' i = res.ptes t c i

end Verif.Ibis
