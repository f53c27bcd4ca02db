import Verif.IvSpec

/-! Specification vocabulary for C129: units, readout offset and rows of an IV measurement. -/

namespace Verif.Iv
open Verif

/-- A change of units: voltages are multiplied by `v`, currents by `a`, so resistances by `v / a`; the
zero of the measured current moves by `d`.  Both factors may be negative together (both polarities
reversed). -/
structure Units where
  v : ℝ
  a : ℝ
  d : ℝ
  pos : 0 < v / a

/-- A bias point in the other units. -/
noncomputable def Units.reading (u : Units) (r : Reading) : Reading :=
  ⟨u.v * r.vb, |u.v| * r.vbErr, u.a * r.dites + u.d, |u.a| * r.ditesErr⟩

/-- A resistance with its error in the other units. -/
noncomputable def Units.res (u : Units) (x : ValErr) : ValErr := ⟨u.v / u.a * x.val, u.v / u.a * x.err⟩

/-- The whole measurement in the other units. -/
noncomputable def Units.obj (u : Units) (o : Obj) : Obj where
  data := ⟨o.data.n0, o.data.n1, o.data.n2, fun t c i => (o.data.get t c i).map u.reading⟩
  rload := o.rload.map fun rl => ⟨rl.n0, rl.n1, rl.n2, fun t c i => u.res (rl.get t c i)⟩
  normalinds := o.normalinds

/-- The results are the same physical quantities, in the other units. -/
structure SameIv (u : Units) (o : Obj) (res res' : Result) : Prop where
  ioff : ∀ t < o.data.n0, ∀ c < o.data.n1, res'.ioff t c = u.a * res.ioff t c + u.d
  ioffErr : ∀ t < o.data.n0, ∀ c < o.data.n1, res'.ioffErr t c = |u.a| * res.ioffErr t c
  rfit : ∀ t < o.data.n0, ∀ c < o.data.n1, res'.rfit t c = u.v / u.a * res.rfit t c
  rfitErr : ∀ t < o.data.n0, ∀ c < o.data.n1, res'.rfitErr t c = u.v / u.a * res.rfitErr t c
  rnorm : ∀ t < o.data.n0, ∀ c < o.data.n1, res'.rnorm t c = u.v / u.a * res.rnorm t c
  rnormErr : ∀ t < o.data.n0, ∀ c < o.data.n1, res'.rnormErr t c = u.v / u.a * res.rnormErr t c
  ites : ∀ t < o.data.n0, ∀ c < o.data.n1, ∀ i, res'.ites t c i = (res.ites t c i).map (u.a * ·)
  itesErr : ∀ t < o.data.n0, ∀ c < o.data.n1, ∀ i,
    res'.itesErr t c i = (res.itesErr t c i).map (|u.a| * ·)
  r0 : ∀ t < o.data.n0, ∀ c < o.data.n1, ∀ i, res'.r0 t c i = (res.r0 t c i).map (u.v / u.a * ·)
  r0Err : ∀ t < o.data.n0, ∀ c < o.data.n1, ∀ i,
    res'.r0Err t c i = (res.r0Err t c i).map (u.v / u.a * ·)
  ptes : ∀ t < o.data.n0, ∀ c < o.data.n1, ∀ i, res'.ptes t c i = (res.ptes t c i).map (u.a * u.v * ·)
  ptesErr : ∀ t < o.data.n0, ∀ c < o.data.n1, ∀ i,
    res'.ptesErr t c i = (res.ptesErr t c i).map (u.a * u.v * ·)

/-- Row `(t', c')` of `o'` is the same data as row `(t, c)` of `o`. -/
def SameRow (o o' : Obj) (t c t' c' : ℕ) : Prop :=
  (∀ i < o.data.n2, o'.data.get t' c' i = o.data.get t c i) ∧
  ∀ rl ∈ o.rload, ∀ rl' ∈ o'.rload, ∀ i < o.data.n2, rl'.get t' c' i = rl.get t c i

/-- All results of two rows agree. -/
def SameRowResult (n2 : ℕ) (res res' : Result) (t c t' c' : ℕ) : Prop :=
  res'.ioff t' c' = res.ioff t c ∧ res'.ioffErr t' c' = res.ioffErr t c ∧
  res'.rfit t' c' = res.rfit t c ∧ res'.rfitErr t' c' = res.rfitErr t c ∧
  res'.rnorm t' c' = res.rnorm t c ∧ res'.rnormErr t' c' = res.rnormErr t c ∧
  ∀ i < n2, res'.ites t' c' i = res.ites t c i ∧ res'.itesErr t' c' i = res.itesErr t c i ∧
    res'.r0 t' c' i = res.r0 t c i ∧ res'.r0Err t' c' i = res.r0Err t c i ∧
    res'.ptes t' c' i = res.ptes t c i ∧ res'.ptesErr t' c' i = res.ptesErr t c i

end Verif.Iv
