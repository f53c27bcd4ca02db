import Verif.LineFit

/-! Model of the IV curve class (`/repo/qetpy/core/_iv.py`). -/

namespace Verif.Iv
open Verif LineFit

/-! ### numpy arrays with 1, 2 or 3 dimensions -/

/-- A 1-d array. -/
structure A1 (α : Type) where
  n0 : ℕ
  get : ℕ → α

/-- A 2-d array. -/
structure A2 (α : Type) where
  n0 : ℕ
  n1 : ℕ
  get : ℕ → ℕ → α

/-- A 3-d array. -/
structure A3 (α : Type) where
  n0 : ℕ
  n1 : ℕ
  n2 : ℕ
  get : ℕ → ℕ → ℕ → α

/-- An array of any number of dimensions (`other`: 0 or more than 3). -/
inductive Nd (α : Type) where
  | d1 (a : A1 α)
  | d2 (a : A2 α)
  | d3 (a : A3 α)
  | other

/-- `np.tile(a, (k, 1))` for a 1-d array. -/
def A1.tile {α : Type} (a : A1 α) (k : ℕ) : A2 α := ⟨k, a.n0, fun _ j => a.get j⟩

/-- `a.transpose()` of a 2-d array. -/
def A2.transpose {α : Type} (a : A2 α) : A2 α := ⟨a.n1, a.n0, fun i j => a.get j i⟩

/-- `np.tile(a, (k, 1, 1))` for a 2-d array. -/
def A2.tile {α : Type} (a : A2 α) (k : ℕ) : A3 α := ⟨k, a.n0, a.n1, fun _ i j => a.get i j⟩

/-- `np.swapaxes(a, 0, -1)` of a 3-d array. -/
def A3.swap {α : Type} (a : A3 α) : A3 α := ⟨a.n2, a.n1, a.n0, fun i j k => a.get k j i⟩

/-- `np.reshape(a, (ntemps, nch, niters))` with leading axes of length one. -/
def Nd.reshape3 {α : Type} : Nd α → Option (A3 α)
  | .d1 a => some ⟨1, 1, a.n0, fun _ _ i => a.get i⟩
  | .d2 a => some ⟨1, a.n0, a.n1, fun _ c i => a.get c i⟩
  | .d3 a => some a
  | .other => none

/-! ### The class -/

/-- One bias point: `vb`, `vb_err`, `dites`, `dites_err`. -/
structure Reading where
  vb : ℝ
  vbErr : ℝ
  dites : ℝ
  ditesErr : ℝ

/-- A value and its error (`rload`, `rload_err`; the two arrays have the same shape). -/
structure ValErr where
  val : ℝ
  err : ℝ

/-- The `rload`, `rload_err` arguments. -/
inductive RLoad where
  | scalar (v : ValErr)
  | array (a : Nd ValErr)

/-- An initialised object.  `rload = none`: the attribute was never assigned. -/
structure Obj where
  data : A3 (Option Reading)
  rload : Option (A3 ValErr)
  normalinds : Option (List ℤ)

/-- `IV.__init__`.  Lines 182-238.  The four data arrays have the same shape and are passed together;
`none` is a padded (`nan`) bias point.  `np.ones_like(dites)*rload` keeps the original shape of `dites`,
which broadcasts to the reshaped one in every later use. -/
def init (dites : Nd (Option Reading)) (rload : RLoad) (nchanNames : ℕ)
    (normalinds : Option (List ℤ)) : Except Err Obj :=
  match dites.reshape3 with
  | none => .error .valueError
  | some a =>
    if nchanNames ≠ a.n1 then .error .valueError
    else
      match rload with
      | .scalar v => .ok ⟨a, some ⟨a.n0, a.n1, a.n2, fun _ _ _ => v⟩, normalinds⟩
      | .array (.d1 r) =>
        if r.n0 = a.n1 then .ok ⟨a, some ((r.tile a.n2).transpose.tile a.n0), normalinds⟩
        else .error .valueError
      | .array (.d2 r) =>
        if r.n0 = a.n0 ∧ r.n1 = a.n1 then
          .ok ⟨a, some (r.transpose.tile a.n2).swap, normalinds⟩
        else .error .valueError
      | .array (.d3 r) =>
        -- only the shape is checked: `self.rload` is not assigned
        if r.n0 = a.n0 ∧ r.n1 = a.n1 ∧ r.n2 = a.n2 then .ok ⟨a, none, normalinds⟩
        else .error .valueError
      | .array .other => .error .valueError

/-- The fit point of a reading. -/
def pt (r : Option Reading) : Option Pt := r.map fun r => ⟨r.vb, r.dites, r.ditesErr⟩

/-- `np.sum(((_fitfunc(vb,*x)-dites)/dites_err)**2)`.  Line 67. -/
noncomputable def chi2 (f : Fit) (pts : List (Option Pt)) : ℝ :=
  ((pts.filterMap id).map fun p => ((f.m * p.x + f.b - p.y) / p.σ) ^ 2).sum

open Classical in
/-- The loop of `_findnormalinds`; returns the final `end_ind`.  Lines 58-70.  `fuel` is the number of
points not yet visited. -/
noncomputable def growLoop (pts : List (Option Pt)) (tol : ℝ) : ℕ → ℕ → Except Err ℕ
  | 0, endInd => .ok endInd
  | fuel + 1, endInd =>
    if endInd < pts.length ∧ pts[endInd]? ≠ some none then
      match curveFit (pts.take (endInd + 1)) with
      | .error e => .error e
      | .ok f =>
        if chi2 f (pts.take (endInd + 1)) / ((endInd + 1 : ℕ) - 2 : ℝ) > tol then .ok (endInd + 1)
        else growLoop pts tol fuel (endInd + 1)
    else .ok endInd

/-- `_findnormalinds` with `tol=10`: the number of normal points (`range(0, end_ind-1)`).
Lines 38-74. -/
noncomputable def findnormalinds (pts : List (Option Pt)) (tol : ℝ) : Except Err ℕ :=
  match growLoop pts tol pts.length 2 with
  | .error e => .error e
  | .ok endInd => .ok (endInd - 1)

/-- `row[normalinds]` for an array or range of indices: negative ones count from the end, others out of
range raise. -/
def fancy {α : Type} (row : List α) (inds : List ℤ) : Except Err (List α) :=
  inds.mapM fun (i : ℤ) =>
    match row[(if i < 0 then i + (row.length : ℤ) else i).toNat]? with
    | some a => if i < -(row.length : ℤ) then .error .indexError else .ok a
    | none => .error .indexError

/-- The fit of one temperature and channel: `ioff`, `ioff_err`, `rfit`, `rfit_err`. -/
structure RowFit where
  ioff : ℝ
  ioffErr : ℝ
  rfit : ℝ
  rfitErr : ℝ

/-- The fit of one row.  Lines 260-283.  A fitted slope of exactly zero gives infinities (`nan` here). -/
noncomputable def rowFit (row : List (Option Reading)) (normalinds : Option (List ℤ)) :
    Except Err RowFit :=
  let pts := row.map pt
  let sel : Except Err (List (Option Pt)) :=
    match normalinds with
    | none =>
      match findnormalinds pts 10 with
      | .error e => .error e
      | .ok k => fancy pts ((List.range k).map fun (i : ℕ) => (i : ℤ))
    | some inds => fancy pts inds
  match sel with
  | .error e => .error e
  | .ok npts =>
    match curveFit npts with
    | .error e => .error e
    | .ok f =>
      if f.m = 0 then .error .nan
      else .ok ⟨f.b, Real.sqrt f.cbb, 1 / f.m, Real.sqrt ((-1 / f.m ^ 2) * (f.cmm * (-1 / f.m ^ 2)))⟩

/-- What `calc_iv` stores.  Arrays over bias points hold `none` at padded points and where the TES
current is zero (`r0`). -/
structure Result where
  ioff : ℕ → ℕ → ℝ
  ioffErr : ℕ → ℕ → ℝ
  rfit : ℕ → ℕ → ℝ
  rfitErr : ℕ → ℕ → ℝ
  rnorm : ℕ → ℕ → ℝ
  rnormErr : ℕ → ℕ → ℝ
  ites : ℕ → ℕ → ℕ → Option ℝ
  itesErr : ℕ → ℕ → ℕ → Option ℝ
  r0 : ℕ → ℕ → ℕ → Option ℝ
  r0Err : ℕ → ℕ → ℕ → Option ℝ
  ptes : ℕ → ℕ → ℕ → Option ℝ
  ptesErr : ℕ → ℕ → ℕ → Option ℝ

/-- A row of the data. -/
def Obj.row (o : Obj) (t c : ℕ) : List (Option Reading) :=
  (List.range o.data.n2).map fun (i : ℕ) => o.data.get t c i

/-- All row fits, in the order of the loops.  Lines 257-283. -/
noncomputable def Obj.fits (o : Obj) : Except Err (List (List RowFit)) :=
  (List.range o.data.n0).mapM fun t =>
    (List.range o.data.n1).mapM fun c => rowFit (o.row t c) o.normalinds

/-- `IV.calc_iv`.  Lines 248-302. -/
noncomputable def calcIv (o : Obj) : Except Err Result :=
  match o.fits with
  | .error e => .error e
  | .ok fits =>
    match o.rload with
    | none => .error .attributeError
    | some rl =>
      if o.data.n2 = 0 then .error .indexError
      else
        let fit : ℕ → ℕ → RowFit := fun t c => (fits.getD t []).getD c ⟨0, 0, 0, 0⟩
        let rload : ℕ → ℕ → ℕ → ℝ := fun t c i => (rl.get t c i).val
        let rloadErr : ℕ → ℕ → ℕ → ℝ := fun t c i => (rl.get t c i).err
        let ites : ℕ → ℕ → Reading → ℝ := fun t c r => r.dites - (fit t c).ioff
        let itesErr : ℕ → ℕ → Reading → ℝ := fun t c r =>
          Real.sqrt (r.ditesErr ^ 2 + (fit t c).ioffErr ^ 2)
        let r0 : ℕ → ℕ → ℕ → Reading → Option ℝ := fun t c i r =>
          if ites t c r = 0 then none else some (r.vb / ites t c r - rload t c i)
        .ok {
          ioff := fun t c => (fit t c).ioff
          ioffErr := fun t c => (fit t c).ioffErr
          rfit := fun t c => (fit t c).rfit
          -- line 300: `self.rfit_err = rfit[:,:,0]`
          rfitErr := fun t c => (fit t c).rfit
          rnorm := fun t c => (fit t c).rfit - rload t c 0
          rnormErr := fun t c => Real.sqrt ((fit t c).rfitErr ^ 2 + rloadErr t c 0 ^ 2)
          ites := fun t c i => (o.data.get t c i).map fun r => ites t c r
          itesErr := fun t c i => (o.data.get t c i).map fun r => itesErr t c r
          r0 := fun t c i => (o.data.get t c i).bind fun r => r0 t c i r
          r0Err := fun t c i => (o.data.get t c i).bind fun r =>
            if ites t c r = 0 then none
            else some (Real.sqrt ((1 / ites t c r) ^ 2 * r.vbErr ^ 2 +
              (r.vb / ites t c r ^ 2) ^ 2 * itesErr t c r ^ 2 + rloadErr t c i ^ 2))
          ptes := fun t c i => (o.data.get t c i).bind fun r =>
            (r0 t c i r).map fun x => ites t c r ^ 2 * x
          ptesErr := fun t c i => (o.data.get t c i).map fun r =>
            Real.sqrt ((r.vb - 2 * ites t c r * rload t c i) ^ 2 * itesErr t c r ^ 2 +
              ites t c r ^ 2 * r.vbErr ^ 2 + (ites t c r ^ 2) ^ 2 * rloadErr t c i ^ 2) }

end Verif.Iv
