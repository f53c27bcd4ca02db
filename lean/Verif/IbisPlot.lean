import Verif.Ibis
import Verif.IvPlot

/-!
Model of `/repo/qetpy/plotting/_ibis_plotting.py` and of the methods of `IBIS` that call it
(`/repo/qetpy/core/_ibis.py` 692-839).  A plot is the list of its curves; colours are not modelled.
-/

namespace Verif.IbisPlot
open Verif Ibis
open Verif.Iv (A3 ValErr)
open Verif.IvPlot (Sel axis fitLine)

/-- A drawn point with its horizontal and vertical error bars. -/
structure Mark where
  x : ℝ
  y : ℝ
  xerr : ℝ
  yerr : ℝ

/-- The curve of one temperature and channel; `line` is the fit to the normal points. -/
structure Curve where
  temp : Option ℤ
  chan : ℕ
  marks : List Mark
  line : List (ℝ × ℝ)

/-- The marks of one curve; `nan` is not drawn.  Lines 59-66, 138-145, 214-221. -/
def marks (niters : ℕ) (scale : ℝ) (vb y : ℕ → Option ValErr) : List Mark :=
  (List.range niters).filterMap fun (i : ℕ) =>
    match vb i, y i with
    | some v, some w => some ⟨v.val * 10 ^ 6, w.val * scale, v.err * 10 ^ 6, w.err * scale⟩
    | _, _ => none

/-- The loops over temperatures and channels.  Lines 53-54, 132-133, 208-209. -/
def loops (n0 n1 : ℕ) (temps chans : Sel) (body : ℤ → ℕ → ℕ → Except Err Curve) :
    Except Err (List Curve) :=
  match (temps.range n0).mapM fun (i : ℤ) => (chans.range n1).mapM fun (j : ℤ) =>
      (match axis n0 i, axis n1 j with
      | .ok t, .ok c => body i t c
      | _, _ => .error .indexError : Except Err Curve) with
  | .error e => .error e
  | .ok ll => .ok ll.flatten

/-- The temperature in the label.  Lines 55-58. -/
def tempLabel (o : Obj) (t : ℤ) : Option ℤ := if 1 < o.data.n0 then some t else none

/-- `_plot_iv` up to saving.  Lines 33-76.  Before `analyze` the bias voltages are None. -/
noncomputable def drawIv (o : Obj) (res : Option Result) (temps chans : Sel) (showfit : Bool) :
    Except Err (List Curve) :=
  loops o.data.n0 o.data.n1 temps chans fun i t c =>
    match res with
    | none => .error .typeError
    | some r =>
      let ms := marks o.data.n2 (10 ^ 6) (r.vb t c) (r.ites t c)
      if showfit then
        match fitLine ((List.range o.data.n2).map fun (k : ℕ) => (r.vb t c k).map ValErr.val)
            (r.rfit t c).val with
        | .error e => .error e
        | .ok l => .ok ⟨tempLabel o i, c, ms, l⟩
      else .ok ⟨tempLabel o i, c, ms, []⟩

/-- `_plot_rv` up to saving.  Lines 113-146.  `r0` exists before `analyze` but the bias voltages do not. -/
noncomputable def drawRv (o : Obj) (res : Option Result) (temps chans : Sel) : Except Err (List Curve) :=
  loops o.data.n0 o.data.n1 temps chans fun i t c =>
    match res with
    | none => .error .typeError
    | some r => .ok ⟨tempLabel o i, c, marks o.data.n2 (10 ^ 3) (r.vb t c) (r.r0 t c), []⟩

/-- `_plot_pv` up to saving.  Lines 189-222. -/
noncomputable def drawPv (o : Obj) (res : Option Result) (temps chans : Sel) : Except Err (List Curve) :=
  loops o.data.n0 o.data.n1 temps chans fun i t c =>
    match res with
    | none => .error .typeError
    | some r => .ok ⟨tempLabel o i, c, marks o.data.n2 (10 ^ 12) (r.vb t c) (r.ptes t c), []⟩

/-- What a call leaves behind: the outcome and the files written. -/
structure Out (α : Type) where
  ret : Except Err α
  files : List (List Curve)

/-- The end of the module functions: the figure is saved and None returned, or it is returned.
Lines 83-88, 155-160, 231-236. -/
def finish (d : Except Err (List Curve)) (lgcsave : Bool) : Out (Option (List Curve)) :=
  match d with
  | .error e => ⟨.error e, []⟩
  | .ok d => if lgcsave then ⟨.ok none, [d]⟩ else ⟨.ok (some d), []⟩

/-- The methods `plot_iv`, `plot_rv`, `plot_pv`: `fig, ax = ...` cannot unpack None.
`core/_ibis.py` 720-729, 757-765, 792-800. -/
def method (d : Except Err (List Curve)) (lgcsave : Bool) : Out (List Curve) :=
  match (finish d lgcsave).ret with
  | .error e => ⟨.error e, (finish d lgcsave).files⟩
  | .ok none => ⟨.error .typeError, (finish d lgcsave).files⟩
  | .ok (some d') => ⟨.ok d', (finish d lgcsave).files⟩

/-- `_plot_all_curves` and the method `plot_all_curves`.  Lines 260-262; `core/_ibis.py` 831-839. -/
noncomputable def plotAll (o : Obj) (res : Option Result) (temps chans : Sel) (showfit lgcsave : Bool) :
    Out Unit :=
  let a := finish (drawIv o res temps chans showfit) lgcsave
  match a.ret with
  | .error e => ⟨.error e, a.files⟩
  | .ok _ =>
    let b := finish (drawRv o res temps chans) lgcsave
    match b.ret with
    | .error e => ⟨.error e, a.files ++ b.files⟩
    | .ok _ =>
      let c := finish (drawPv o res temps chans) lgcsave
      match c.ret with
      | .error e => ⟨.error e, a.files ++ b.files ++ c.files⟩
      | .ok _ => ⟨.ok (), a.files ++ b.files ++ c.files⟩

end Verif.IbisPlot
