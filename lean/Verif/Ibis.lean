import Verif.Iv
import Mathlib.Data.Matrix.Mul
import Mathlib.LinearAlgebra.Matrix.Notation
import Mathlib.Algebra.BigOperators.Fin

/-! Model of the IBIS class (`/repo/qetpy/core/_ibis.py`). -/

namespace Verif.Ibis
open Verif LineFit
open Verif.Iv (A1 A2 A3 Nd ValErr RLoad fancy)

/-! ### The class -/

/-- One bias point: `ibias`, `ibias_err`, `dites`, `dites_err`. -/
structure Reading where
  ibias : ℝ
  ibiasErr : ℝ
  dites : ℝ
  ditesErr : ℝ

/-- An initialised object.  `rp = none`: the attributes `rp_guess`, `rp_err_guess` were never
assigned. -/
structure Obj where
  data : A3 (Option Reading)
  rsh : ℝ
  rshErr : ℝ
  normalinds : List ℤ
  fitsc : Bool
  scinds : Option (List ℤ)
  rp : Option (Nd ValErr)

/-- `np.ones_like(dites)*v`: the shape is that of the argument `dites`, not of the reshaped array. -/
def onesLike {α β : Type} (d : Nd α) (v : β) : Nd β :=
  match d with
  | .d1 a => .d1 ⟨a.n0, fun _ => v⟩
  | .d2 a => .d2 ⟨a.n0, a.n1, fun _ _ => v⟩
  | .d3 a => .d3 ⟨a.n0, a.n1, a.n2, fun _ _ _ => v⟩
  | .other => .other

/-- `IBIS.__init__`.  Lines 173-256.  The four data arrays have the same shape and are passed together;
`none` is a padded (`nan`) bias point. -/
def init (dites : Nd (Option Reading)) (rsh rshErr : ℝ) (normalinds : List ℤ) (rp : RLoad)
    (nchanNames : ℕ) (fitsc : Bool) (scinds : Option (List ℤ)) : Except Err Obj :=
  if fitsc ∧ scinds = none then .error .valueError
  else
    match dites.reshape3 with
    | none => .error .valueError
    | some a =>
      if nchanNames ≠ a.n1 then .error .valueError
      else
        match rp with
        | .scalar v => .ok ⟨a, rsh, rshErr, normalinds, fitsc, scinds, some (onesLike dites v)⟩
        | .array (.d1 r) =>
          if r.n0 = a.n1 then
            .ok ⟨a, rsh, rshErr, normalinds, fitsc, scinds,
              some (.d3 ((r.tile a.n2).transpose.tile a.n0))⟩
          else .error .valueError
        | .array (.d2 r) =>
          if r.n0 = a.n0 ∧ r.n1 = a.n1 then
            .ok ⟨a, rsh, rshErr, normalinds, fitsc, scinds, some (.d3 (r.transpose.tile a.n2).swap)⟩
          else .error .valueError
        | .array (.d3 r) =>
          -- only the shape is checked: `self.rp_guess` is not assigned
          if r.n0 = a.n0 ∧ r.n1 = a.n1 ∧ r.n2 = a.n2 then
            .ok ⟨a, rsh, rshErr, normalinds, fitsc, scinds, none⟩
          else .error .valueError
        | .array .other => .error .valueError

/-! ### Resistance, power and their errors -/

/-- `np.sum(jac.dot(cov.dot(jac.transpose())))` with `jac` diagonal.
Lines 327-338, 387-397, 551-561, 589-599. -/
noncomputable def propagate {k : ℕ} (jac : Fin k → ℝ) (cov : Matrix (Fin k) (Fin k) ℝ) : ℝ :=
  ∑ i, ∑ j, (Matrix.diagonal jac * (cov * (Matrix.diagonal jac).transpose)) i j

/-- `_rtes`; division by zero is excluded by the caller.  Lines 283-309. -/
noncomputable def rtes (ibias ibiasOff rsh dites ioff rp : ℝ) : ℝ :=
  (ibias - ibiasOff) * rsh / (dites - ioff) - (rsh + rp)

/-- The diagonal of `jac` in `_rtes_err` (order: ibias, ibias_off, dites, ioff, rsh, rp).
Lines 319-333. -/
noncomputable def rtesJac (ibias ibiasOff rsh dites ioff : ℝ) : Fin 6 → ℝ :=
  ![rsh / (dites - ioff), -rsh / (dites - ioff), -(ibias - ibiasOff) * rsh / (dites - ioff) ^ 2,
    (ibias - ibiasOff) * rsh / (dites - ioff) ^ 2, (ibias - ibiasOff) / (dites - ioff) - 1, -1]

/-- `_rtes_err`.  Lines 312-339. -/
noncomputable def rtesErr (ibias ibiasOff rsh dites ioff : ℝ) (cov : Matrix (Fin 6) (Fin 6) ℝ) : ℝ :=
  Real.sqrt (propagate (rtesJac ibias ibiasOff rsh dites ioff) cov)

/-- `_ptes`.  Lines 342-370. -/
noncomputable def ptes (ibias ibiasOff rsh dites ioff rp : ℝ) : ℝ :=
  (ibias - ibiasOff) * rsh * (dites - ioff) - (rsh + rp) * (dites - ioff) ^ 2

/-- The diagonal of `jac` in `_ptes_err`.  Lines 380-394. -/
noncomputable def ptesJac (ibias ibiasOff rsh dites ioff rp : ℝ) : Fin 6 → ℝ :=
  ![rsh * (dites - ioff), -rsh * (dites - ioff),
    (ibias - ibiasOff) * rsh - 2 * (rsh + rp) * (dites - ioff),
    -(ibias - ibiasOff) * rsh + 2 * (rsh + rp) * (dites - ioff),
    (ibias - ibiasOff) * (dites - ioff) - (dites - ioff) ^ 2, -1 * (dites - ioff) ^ 2]

/-- `_ptes_err`.  Lines 373-398. -/
noncomputable def ptesErr (ibias ibiasOff rsh dites ioff rp : ℝ)
    (cov : Matrix (Fin 6) (Fin 6) ℝ) : ℝ :=
  Real.sqrt (propagate (ptesJac ibias ibiasOff rsh dites ioff rp) cov)

/-! ### analyze -/

/-- A row of the data. -/
def Obj.row (o : Obj) (t c : ℕ) : List (Option Reading) :=
  (List.range o.data.n2).map fun (i : ℕ) => o.data.get t c i

/-- The fit point of a reading. -/
def pt (r : Option Reading) : Option Pt := r.map fun r => ⟨r.ibias, r.dites, r.ditesErr⟩

/-- The straight-line fits of all rows; a slope of exactly zero gives infinities (`nan` here).
Lines 454-466, 482-504. -/
noncomputable def Obj.fits (o : Obj) (inds : List ℤ) : Except Err (List (List Fit)) :=
  (List.range o.data.n0).mapM fun t =>
    (List.range o.data.n1).mapM fun c =>
      match fancy ((o.row t c).map pt) inds with
      | .error e => .error e
      | .ok pts =>
        match curveFit pts with
        | .error e => .error e
        | .ok f => if f.m = 0 then .error .nan else .ok f

/-- The variance of `1/slope`: `covout[1,1]`.  Lines 469-474, 503-507. -/
noncomputable def invVar (f : Fit) : ℝ := (-1 / f.m ^ 2) * (f.cmm * (-1 / f.m ^ 2))

/-- The diagonal of `jac_int` for the abscissa of the intersection (order: int_n, slope_n, int_sc,
slope_sc).  Lines 538-554. -/
noncomputable def xJac (n s : Fit) : Fin 4 → ℝ :=
  ![1 / (s.m - n.m), (n.b - s.b) / (s.m - n.m) ^ 2, -1 / (s.m - n.m),
    -(n.b - s.b) / (s.m - n.m) ^ 2]

/-- The diagonal of `jac_int` for the ordinate.  Lines 568-592. -/
noncomputable def yJac (n s : Fit) : Fin 4 → ℝ :=
  ![n.m / (s.m - n.m) + 1, (n.b - s.b) / (s.m - n.m) + (n.b - s.b) / (s.m - n.m) ^ 2,
    -n.m / (s.m - n.m), -n.m * (n.b - s.b) / (s.m - n.m) ^ 2]

/-- `cov_int`.  Lines 556-559, 594-597. -/
noncomputable def intCov (n s : Fit) : Matrix (Fin 4) (Fin 4) ℝ :=
  Matrix.diagonal ![Real.sqrt n.cbb ^ 2, Real.sqrt n.cmm ^ 2, Real.sqrt s.cbb ^ 2, Real.sqrt s.cmm ^ 2]

/-- The optional arguments `yoff, yoff_err` and `xoff, xoff_err`. -/
inductive Off where
  | none
  | scalar (v : ValErr)
  | array (a : A3 ValErr)

/-- What `analyze` stores. -/
structure Result where
  slopeN : ℕ → ℕ → ℝ
  intN : ℕ → ℕ → ℝ
  slopeSc : ℕ → ℕ → ℝ
  intSc : ℕ → ℕ → ℝ
  ioff : ℕ → ℕ → ValErr
  ibiasOff : ℕ → ℕ → ValErr
  rfit : ℕ → ℕ → ValErr
  rp : ℕ → ℕ → ValErr
  rnorm : ℕ → ℕ → ValErr
  ites : ℕ → ℕ → ℕ → Option ValErr
  ibiasTrue : ℕ → ℕ → ℕ → Option ValErr
  vb : ℕ → ℕ → ℕ → Option ValErr
  r0 : ℕ → ℕ → ℕ → Option ValErr
  ptes : ℕ → ℕ → ℕ → Option ValErr

/-- No superconducting fit: the zero-initialised arrays.  Lines 443-450. -/
def noFit : Fit := ⟨0, 0, 0, 0, 0⟩

/-- An entry of the fit table. -/
def fitAt (l : List (List Fit)) (t c : ℕ) : Fit := (l.getD t []).getD c noFit

/-- The superconducting fits and the parasitic resistance.  Lines 481-531.  For distinct rows the arrays
are filled one after the other; the intersection uses their final values.  Parallel lines give
infinities (`nan` here). -/
noncomputable def Obj.scFits (o : Obj) (nf : List (List Fit)) :
    Except Err (List (List Fit) × (Nd ValErr ⊕ (Fit → ValErr))) :=
  if o.fitsc then
    match o.scinds with
    | none => .error .typeError
    | some inds =>
      match o.fits inds with
      | .error e => .error e
      | .ok sf =>
        if o.data.n0 = 0 ∨ o.data.n1 = 0 then .error .nameError
        else if ∃ t < o.data.n0, ∃ c < o.data.n1, (fitAt sf t c).m = (fitAt nf t c).m then .error .nan
        else .ok (sf, .inr fun s => ⟨1 / s.m * o.rsh - o.rsh,
          Real.sqrt ((o.rsh * invVar s) ^ 2 + ((1 / s.m - 1) * o.rshErr) ^ 2)⟩)
  else
    match o.rp with
    | none => .error .attributeError
    | some a => .ok ([], .inl a)

/-- `int_point_x`.  Lines 523, 531. -/
noncomputable def intX (fitsc : Bool) (n s : Fit) : ℝ := if fitsc then (n.b - s.b) / (s.m - n.m) else 0

/-- `int_point_y`.  Lines 524, 530. -/
noncomputable def intY (fitsc : Bool) (n s : Fit) : ℝ :=
  if fitsc then n.m * intX fitsc n s + n.b else n.b

/-- `ibias_off_err`.  Lines 533-561. -/
noncomputable def intXErr (n s : Fit) : ℝ := Real.sqrt (propagate (xJac n s) (intCov n s))

/-- `ioff_err`.  Lines 563-599. -/
noncomputable def intYErr (n s : Fit) : ℝ := Real.sqrt (propagate (yJac n s) (intCov n s))

/-- The offsets of the measured current and of the bias current.  Lines 601-629.  `ioff[..., 0]` and
`ibias_off[..., 0]` of a Python float raise TypeError. -/
noncomputable def offsets (fitsc : Bool) (n s : ℕ → ℕ → Fit) (yoff xoff : Off) :
    Except Err ((ℕ → ℕ → ℕ → ValErr) × (ℕ → ℕ → ℕ → ValErr)) :=
  let y : ℕ → ℕ → ℕ → ValErr := fun t c _ => ⟨intY fitsc (n t c) (s t c), intYErr (n t c) (s t c)⟩
  let x : ℕ → ℕ → ℕ → ValErr := fun t c _ => ⟨intX fitsc (n t c) (s t c), intXErr (n t c) (s t c)⟩
  match yoff, xoff with
  | .scalar _, _ => .error .typeError
  | _, .scalar _ => .error .typeError
  | .none, .none => .ok (y, x)
  | .array a, .none => .ok (a.get, x)
  | .none, .array b => .ok (y, b.get)
  | .array a, .array b => .ok (a.get, b.get)

/-- `rp[..., 0]`, `rp_err[..., 0]` (lines 630-631) and their use `[t, ch]` in the loop (line 643): they
have fewer than two axes, and the use raises, if `rp_guess` was scalar and the data not 3-d. -/
def rpValues (s : ℕ → ℕ → Fit) (src : Nd ValErr ⊕ (Fit → ValErr)) : Except Err (ℕ → ℕ → ValErr) :=
  match src with
  | .inr f => .ok fun t c => f (s t c)
  | .inl (.d3 a) => .ok fun t c => a.get t c 0
  | .inl _ => .error .indexError

/-- The derived quantities.  Lines 614-690. -/
noncomputable def assemble (o : Obj) (n s : ℕ → ℕ → Fit) (ioff ibiasOff : ℕ → ℕ → ℕ → ValErr)
    (rp : ℕ → ℕ → ValErr) : Result :=
  let rfit : ℕ → ℕ → ValErr := fun t c =>
    ⟨1 / (n t c).m * o.rsh,
      Real.sqrt ((o.rsh * invVar (n t c)) ^ 2 + (1 / (n t c).m * o.rshErr) ^ 2)⟩
  let cov : ℕ → ℕ → Reading → Matrix (Fin 6) (Fin 6) ℝ := fun t c r =>
    Matrix.diagonal ![r.ibiasErr ^ 2, (ibiasOff t c 0).err ^ 2, r.ditesErr ^ 2,
      (ioff t c 0).err ^ 2, o.rshErr ^ 2, (rp t c).err ^ 2]
  let ibiasTrue : ℕ → ℕ → ℕ → Reading → ValErr := fun t c i r =>
    ⟨r.ibias - (ibiasOff t c i).val, Real.sqrt (r.ibiasErr ^ 2 + (ibiasOff t c i).err ^ 2)⟩
  { slopeN := fun t c => (n t c).m
    intN := fun t c => (n t c).b
    slopeSc := fun t c => (s t c).m
    intSc := fun t c => (s t c).b
    ioff := fun t c => ioff t c 0
    ibiasOff := fun t c => ibiasOff t c 0
    rfit := rfit
    rp := rp
    rnorm := fun t c => ⟨(rfit t c).val - o.rsh - (rp t c).val,
      Real.sqrt ((rfit t c).err ^ 2 + (rp t c).err ^ 2)⟩
    ites := fun t c i => (o.data.get t c i).map fun r =>
      ⟨r.dites - (ioff t c i).val, Real.sqrt (r.ditesErr ^ 2 + (ioff t c i).err ^ 2)⟩
    ibiasTrue := fun t c i => (o.data.get t c i).map fun r => ibiasTrue t c i r
    vb := fun t c i => (o.data.get t c i).map fun r =>
      ⟨(ibiasTrue t c i r).val * o.rsh,
        Real.sqrt (((ibiasTrue t c i r).val * o.rshErr) ^ 2 + (o.rsh * (ibiasTrue t c i r).err) ^ 2)⟩
    r0 := fun t c i => (o.data.get t c i).bind fun r =>
      if r.dites - (ioff t c 0).val = 0 then none
      else some ⟨rtes r.ibias (ibiasOff t c 0).val o.rsh r.dites (ioff t c 0).val (rp t c).val,
        rtesErr r.ibias (ibiasOff t c 0).val o.rsh r.dites (ioff t c 0).val (cov t c r)⟩
    ptes := fun t c i => (o.data.get t c i).map fun r =>
      ⟨ptes r.ibias (ibiasOff t c 0).val o.rsh r.dites (ioff t c 0).val (rp t c).val,
        ptesErr r.ibias (ibiasOff t c 0).val o.rsh r.dites (ioff t c 0).val (rp t c).val (cov t c r)⟩ }

/-- `IBIS.analyze`.  Lines 400-690. -/
noncomputable def analyze (o : Obj) (yoff xoff : Off) : Except Err Result :=
  match o.fits o.normalinds with
  | .error e => .error e
  | .ok nf =>
    match o.scFits nf with
    | .error e => .error e
    | .ok (sf, rpSrc) =>
      match offsets o.fitsc (fitAt nf) (fitAt sf) yoff xoff with
      | .error e => .error e
      | .ok (ioff, ibiasOff) =>
        match rpValues (fitAt sf) rpSrc with
        | .error e => .error e
        | .ok rp => .ok (assemble o (fitAt nf) (fitAt sf) ioff ibiasOff rp)

end Verif.Ibis
