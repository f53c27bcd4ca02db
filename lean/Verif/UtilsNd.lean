import Verif.Offset

/-! Model of `calc_offset` and `energy_absorbed` (`/repo/qetpy/utils/_utils.py` 259-297, 561-627) for
arrays with any number of dimensions, the last of which is the trace. -/

namespace Verif.Utils
open Verif

/-- An array: its shape and its entries (at the indices below the shape). -/
structure Arr where
  shape : List ℕ
  val : List ℕ → ℝ

namespace Arr

/-- `x[..., :i]`. -/
def sliceTo (x : Arr) (i : ℤ) : Except Err Arr :=
  match x.shape.getLast? with
  | none => .error .indexError
  | some n => .ok { shape := x.shape.dropLast ++ [Np.clipIdx n i], val := x.val }

/-- `x[..., j:]`. -/
def sliceFrom (x : Arr) (j : ℤ) : Except Err Arr :=
  match x.shape.getLast? with
  | none => .error .indexError
  | some n => .ok
      { shape := x.shape.dropLast ++ [n - Np.clipIdx n j]
        val := fun i => x.val (i.dropLast ++ [i.getLastD 0 + Np.clipIdx n j]) }

/-- `np.hstack((x, y))`: joined along the first axis for 1-d arrays, and along the *second* axis for all
others.  All other axes must agree. -/
def hstack (x y : Arr) : Except Err Arr :=
  let axis := if x.shape.length = 1 then 0 else 1
  let m := x.shape.getD axis 0
  if x.shape.length = y.shape.length ∧ x.shape.eraseIdx axis = y.shape.eraseIdx axis then
    .ok { shape := x.shape.set axis (m + y.shape.getD axis 0)
          val := fun i =>
            if i.getD axis 0 < m then x.val i else y.val (i.set axis (i.getD axis 0 - m)) }
  else .error .valueError

/-- The trace at the index `i` of the other axes. -/
def row (x : Arr) (i : List ℕ) : List ℝ :=
  (List.range (x.shape.getLastD 0)).map fun k => x.val (i ++ [k])

/-- `np.mean(x, axis=-1, keepdims=True)`; the entries are `nan` if the last axis has no entries. -/
noncomputable def meanKeep (x : Arr) : Arr where
  shape := x.shape.dropLast ++ [1]
  val := fun i => (x.row i.dropLast).sum / (x.shape.getLastD 0 : ℕ)

/-- The shape of two arrays broadcast against each other, all shapes from the last axis on. -/
def bshapeRev : List ℕ → List ℕ → Option (List ℕ)
  | [], t => some t
  | s, [] => some s
  | a :: s, b :: t =>
    if a = b ∨ b = 1 then (bshapeRev s t).map (a :: ·)
    else if a = 1 then (bshapeRev s t).map (b :: ·)
    else none

/-- The index into an array of shape `s` broadcast to a larger shape. -/
def pick (s i : List ℕ) : List ℕ :=
  List.zipWith (fun d k => if d = 1 then 0 else k) s (i.drop (i.length - s.length))

/-- `x - y` with broadcasting. -/
noncomputable def sub (x y : Arr) : Except Err Arr :=
  match bshapeRev x.shape.reverse y.shape.reverse with
  | none => .error .valueError
  | some s => .ok
      { shape := s.reverse
        val := fun i => x.val (pick x.shape i) - y.val (pick y.shape i) }

end Arr

/-- `powertrace_simple` of an array.  Lines 554-558. -/
noncomputable def powerArr (x : Arr) (ioffset qetbias rload rsh : ℝ) : Arr where
  shape := x.shape
  val := fun i => powertraceSimple (x.val i) ioffset qetbias rload rsh

/-- The baseline of `energy_absorbed`, and whether it is `nan`.  Lines 604-611. -/
noncomputable def baselineNd (x : Arr) (baseline : Option Arr) (indbasepre indbasepost : Option ℤ) :
    Except Err (Arr × Bool) :=
  match baseline with
  | some b => .ok (b, false)
  | none =>
    match indbasepre with
    | none => .error .valueError
    | some i =>
      match x.sliceTo i with
      | .error err => .error err
      | .ok pre =>
        match indbasepost with
        | none => .ok (pre.meanKeep, pre.shape.getLastD 0 == 0)
        | some j =>
          match x.sliceFrom j with
          | .error err => .error err
          | .ok post =>
            match pre.hstack post with
            | .error err => .error err
            | .ok w => .ok (w.meanKeep, w.shape.getLastD 0 == 0)

/-- `energy_absorbed` of an array.  Lines 604-627.  `time` is a 1-d array.  `np.trapz(…, axis=-1)` of an
array without axes raises IndexError; its sums are `nan` if they have terms and the baseline is `nan`. -/
noncomputable def energyAbsorbedNd (e : ℝ) (x : Arr) (ioffset qetbias rload rsh : ℝ)
    (fs : Option ℝ) (baseline : Option Arr) (time : Option (List ℝ))
    (indbasepre indbasepost : Option ℤ) : Except Err Arr :=
  match baselineNd x baseline indbasepre indbasepost with
  | .error err => .error err
  | .ok (b, nan) =>
    match (powerArr b ioffset qetbias rload rsh).sub (powerArr x ioffset qetbias rload rsh) with
    | .error err => .error err
    | .ok d =>
      match fs, time with
      | none, none => .error .valueError
      | some f, _ =>
        if d.shape = [] then .error .indexError
        else if nan = true ∧ 0 ∉ d.shape.dropLast ∧ 2 ≤ d.shape.getLastD 0 then .error .nan
        else .ok { shape := d.shape.dropLast, val := fun i => Np.trapz1 (d.row i) / (f * e) }
      | none, some t =>
        if d.shape = [] then .error .indexError
        else
          let m := d.shape.getLastD 0 - 1
          if t.length - 1 ≠ m ∧ t.length - 1 ≠ 1 ∧ m ≠ 1 then .error .valueError
          else if nan = true ∧ 0 ∉ d.shape.dropLast ∧ 1 ≤ m ∧ 2 ≤ t.length then .error .nan
          else .ok
            { shape := d.shape.dropLast
              val := fun i => (match Np.trapz t (d.row i) with | .ok v => v | .error _ => 0) / e }

/-- The number of bins `calc_offset` averages.  Lines 286-290. -/
noncomputable def keepBins (nbins : ℕ) (fs sgfreq : ℝ) (isDidv : Bool) : ℕ :=
  if isDidv then
    let periodBins := 1 / sgfreq * fs
    let nPeriods := ⌊(nbins : ℝ) / periodBins⌋₊
    min ⌊(nPeriods : ℝ) * periodBins⌋₊ nbins
  else nbins

/-- `calc_offset` of an array.  Lines 286-297.  The mean over the last axis of a 1-d array is a scalar,
and `np.mean(scalar, axis=0)` raises `AxisError`, which is an IndexError. -/
noncomputable def calcOffsetNd (x : Arr) (fs sgfreq : ℝ) (isDidv : Bool) : Except Err (Arr × Arr) :=
  match x.shape.getLast? with
  | none => .error .indexError
  | some nbins =>
    let keep := keepBins nbins fs sgfreq isDidv
    let m : List ℕ → ℝ := fun i => ((x.row i).take keep).sum / keep   -- np.mean(x, axis=-1)
    match x.shape.dropLast with
    | [] => .error .indexError
    | a :: tl =>
      if (keep = 0 ∨ a = 0) ∧ 0 ∉ tl then .error .nan
      else
        let off : List ℕ → ℝ := fun i => ((List.range a).map fun k => m (k :: i)).sum / a
        .ok ({ shape := tl, val := off },
             { shape := tl
               val := fun i =>
                 Real.sqrt (((List.range a).map fun k => (m (k :: i) - off i) ^ 2).sum / a) /
                   Real.sqrt a })

end Verif.Utils
