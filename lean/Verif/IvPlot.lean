import Verif.Iv

/-!
Model of `/repo/qetpy/plotting/_iv_plotting.py` and of the methods of `IV` that call it
(`/repo/qetpy/core/_iv.py` 304-406).  A plot is the list of its curves.
-/

namespace Verif.IvPlot
open Verif Iv

/-- The arguments `temps` and `chans`: `"all"`, a number, or a list. -/
inductive Sel where
  | all
  | one (i : ℤ)
  | list (l : List ℤ)

/-- `trange`, `chrange`.  Lines 41-53. -/
def Sel.range (s : Sel) (n : ℕ) : List ℤ :=
  match s with
  | .all => (List.range n).map fun (i : ℕ) => (i : ℤ)
  | .one i => [i]
  | .list l => l

/-- Indexing an axis of length `n`: negative indices count from the end. -/
def axis (n : ℕ) (i : ℤ) : Except Err ℕ :=
  if 0 ≤ i ∧ i < n then .ok i.toNat
  else if i < 0 ∧ -(n : ℤ) ≤ i then .ok (i + n).toNat
  else .error .indexError

/-- A drawn point with its error bar. -/
structure Mark where
  x : ℝ
  y : ℝ
  err : Option ℝ

/-- The curve of one temperature and channel; the temperature is part of the label only if there are
several.  `line` is the fit to the normal points. -/
structure Curve where
  temp : Option ℤ
  chan : ℕ
  marks : List Mark
  line : List (ℝ × ℝ)

/-- The marks of one curve; `nan` is not drawn.  Lines 65-84, 164-184, 249-269. -/
def marks (niters : ℕ) (scale : ℝ) (vb y err : ℕ → Option ℝ) : List Mark :=
  (List.range niters).filterMap fun (i : ℕ) =>
    match vb i, y i with
    | some v, some w => some ⟨v * 10 ^ 6, w * scale, (err i).map (· * scale)⟩
    | _, _ => none

open Classical in
/-- The entry found by `np.argmax(abs(...))` of an array without `nan`: the first of largest modulus. -/
noncomputable def farthest : List ℝ → Option ℝ
  | [] => none
  | v :: l =>
    match farthest l with
    | none => some v
    | some w => if |v| < |w| then some w else some v

open Classical in
/-- Python's `max` of a non-empty array; comparisons with `nan` are false.  Applied to the negated array
this is minus `min`. -/
noncomputable def pyMax : Option ℝ → List (Option ℝ) → Option ℝ
  | cur, [] => cur
  | some c, some x :: l => if c < x then pyMax (some x) l else pyMax (some c) l
  | some c, none :: l => pyMax (some c) l
  | none, _ :: l => pyMax none l

open Classical in
/-- `vb[maxind] > 0`: an array with a `nan` has its `argmax` there, and comparing it gives False.
Lines 86-88. -/
noncomputable def positive (vb : List (Option ℝ)) : Bool :=
  if none ∈ vb then false
  else match farthest (vb.filterMap id) with
    | some v => decide (0 < v)
    | none => false

/-- `np.linspace(a, b, num=10)`. -/
noncomputable def linspace (a b : ℝ) : List ℝ := (List.range 10).map fun (i : ℕ) => a + i * ((b - a) / 9)

/-- `vbfit`.  Lines 86-91.  `argmax` of an empty array raises ValueError; a `nan` bound gives no line. -/
noncomputable def vbfit : List (Option ℝ) → Except Err (List ℝ)
  | [] => .error .valueError
  | v :: l =>
    if positive (v :: l) then
      match pyMax v l with
      | some b => .ok (linspace 0 (b * 10 ^ 6))
      | none => .ok []
    else
      match pyMax (v.map (-·)) (l.map (Option.map (-·))) with
      | some b => .ok (linspace (-b * 10 ^ 6) 0)
      | none => .ok []

/-- The fit to the normal data.  Lines 85-98. -/
noncomputable def fitLine (vb : List (Option ℝ)) (rfit : ℝ) : Except Err (List (ℝ × ℝ)) :=
  match vbfit vb with
  | .error e => .error e
  | .ok xs => .ok (xs.map fun x => (x, 1 / rfit * x))

/-- Bias voltages of one temperature and channel. -/
def vbRow (o : Obj) (t c : ℕ) (i : ℕ) : Option ℝ := (o.data.get t c i).map Reading.vb

/-- The loops over temperatures and channels.  Lines 59-60. -/
def loops (o : Obj) (temps chans : Sel) (body : ℤ → ℕ → ℕ → Except Err Curve) : Except Err (List Curve) :=
  match (temps.range o.data.n0).mapM fun (i : ℤ) => (chans.range o.data.n1).mapM fun (j : ℤ) =>
      (match axis o.data.n0 i, axis o.data.n1 j with
      | .ok t, .ok c => body i t c
      | _, _ => .error .indexError : Except Err Curve) with
  | .error e => .error e
  | .ok ll => .ok ll.flatten

/-- The temperature in the label.  Lines 61-64. -/
def tempLabel (o : Obj) (t : ℤ) : Option ℤ := if 1 < o.data.n0 then some t else none

/-- `plot_iv` up to saving.  Lines 38-98.  Before `calc_iv` the currents are None. -/
noncomputable def drawIv (o : Obj) (res : Option Result) (temps chans : Sel) (showfit : Bool) :
    Except Err (List Curve) :=
  loops o temps chans fun i t c =>
    match res with
    | none => .error .typeError
    | some r =>
      let vb := vbRow o t c
      if showfit then
        match fitLine ((List.range o.data.n2).map vb) (r.rfit t c) with
        | .error e => .error e
        | .ok l => .ok ⟨tempLabel o i, c, marks o.data.n2 (10 ^ 6) vb (r.ites t c) (r.itesErr t c), l⟩
      else .ok ⟨tempLabel o i, c, marks o.data.n2 (10 ^ 6) vb (r.ites t c) (r.itesErr t c), []⟩

/-- `plot_rv` up to saving.  Lines 137-184.  Before `calc_iv` the shape cannot be read. -/
noncomputable def drawRv (o : Obj) (res : Option Result) (temps chans : Sel) : Except Err (List Curve) :=
  match res with
  | none => .error .attributeError
  | some r => loops o temps chans fun i t c =>
      .ok ⟨tempLabel o i, c, marks o.data.n2 (10 ^ 3) (vbRow o t c) (r.r0 t c) (r.r0Err t c), []⟩

/-- `plot_pv` up to saving.  Lines 222-269. -/
noncomputable def drawPv (o : Obj) (res : Option Result) (temps chans : Sel) : Except Err (List Curve) :=
  match res with
  | none => .error .attributeError
  | some r => loops o temps chans fun i t c =>
      .ok ⟨tempLabel o i, c, marks o.data.n2 (10 ^ 12) (vbRow o t c) (r.ptes t c) (r.ptesErr t c), []⟩

/-- What a call leaves behind: the outcome and the files written. -/
structure Out (α : Type) where
  ret : Except Err α
  files : List (List Curve)

/-- The end of the module functions: a figure is saved or returned, never both (None is returned after
saving).  Lines 107-112, 192-197, 277-282. -/
def finish (d : Except Err (List Curve)) (lgcsave : Bool) : Out (Option (List Curve)) :=
  match d with
  | .error e => ⟨.error e, []⟩
  | .ok d => if lgcsave then ⟨.ok none, [d]⟩ else ⟨.ok (some d), []⟩

/-- The methods `plot_iv`, `plot_rv`, `plot_pv`: `fig, ax = ...` cannot unpack None.
`core/_iv.py` 326-328, 350-352, 374-376. -/
def method (d : Except Err (List Curve)) (lgcsave : Bool) : Out (List Curve) :=
  match (finish d lgcsave).ret with
  | .error e => ⟨.error e, (finish d lgcsave).files⟩
  | .ok none => ⟨.error .typeError, (finish d lgcsave).files⟩
  | .ok (some d') => ⟨.ok d', (finish d lgcsave).files⟩

/-- `plot_all_curves`, module function and method.  Lines 309-334. -/
noncomputable def plotAll (o : Obj) (res : Option Result) (temps chans : Sel) (showfit lgcsave : Bool) : Out Unit :=
  let a := finish (drawIv o res temps chans showfit) lgcsave
  match a.ret with
  | .error e => ⟨.error e, a.files⟩
  | .ok _ =>
    let b := finish (drawRv o res temps chans) lgcsave
    match b.ret with
    | .error e => ⟨.error e, a.files ++ b.files⟩
    | .ok _ =>
      let c := finish (drawPv o res temps chans) lgcsave
      match c.ret with
      | .error e => ⟨.error e, a.files ++ b.files ++ c.files⟩
      | .ok _ => ⟨.ok (), a.files ++ b.files ++ c.files⟩

end Verif.IvPlot
