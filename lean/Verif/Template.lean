import Verif.Utils
import Mathlib.Analysis.SpecialFunctions.Exp

/-!
Model of `make_template` and `align_traces` (`/repo/qetpy/utils/_utils.py` lines 181-212, 357-461).
-/

namespace Verif.Template
open Verif

/-- The pulse at one time, `_utils.py` line 208. -/
noncomputable def pulse (τr τf t : ℝ) : ℝ := Real.exp (-t / τf) - Real.exp (-t / τr)

/-- `make_template(t, tau_r, tau_f, offset)`, lines 208-212.  `max` of an empty array raises
ValueError; a maximum of zero gives `nan` or `-inf` in every bin (the error `.nan`).
Time constants of zero are not modelled. -/
noncomputable def makeTemplate (t : List ℝ) (τr τf offset : ℝ) : Except Err (List ℝ) :=
  let p := t.map (pulse τr τf)
  let s := Utils.shift p (((t.length / 2 : ℕ) : ℝ) + offset) 0
  match s.max? with
  | none => .error .valueError
  | some m => if m = 0 then .error .nan else .ok (s.map fun x => x / m)

/-! ### `align_traces` -/

/-- A trace after filtering, truncation, mean subtraction and normalisation, lines 427-431; `none` is
an array of `nan` (a trace without variation).  `filt` is `lowpassfilter(_, cut_off_freq, fs)`. -/
noncomputable def condition (filt : ℝ → ℝ → List ℝ → List ℝ) (nCut : ℤ) (x : List ℝ) :
    Option (List ℝ) :=
  -- the call has `cut_off_freq=5000, fs=625e3` written out
  let f := filt 5000 625000 (Np.sliceTo x nCut)
  match Np.mean f with
  | none => none
  | some m =>
    let d := f.map fun y => y - m
    match d.max? with
    | none => none
    | some a => if a = 0 then none else some (d.map fun y => y / a)

/-- Entry `k` of `signal.fftconvolve(t1, t2[::-1], mode='full')`: the sum over `j` of
`t1[j] * t2[::-1][k - j]` with `t2[::-1][i] = t2[len(t2) - 1 - i]`. -/
noncomputable def corr (t1 t2 : List ℝ) (k : ℕ) : ℝ :=
  ((List.range t1.length).map fun (j : ℕ) =>
    if j ≤ k ∧ k - j < t2.length then t1.getD j 0 * t2.getD (t2.length - 1 - (k - j)) 0 else 0).sum

/-- `np.argmax` of the convolution (`len(t1) + len(t2) - 1` entries): the first maximum, entry 0 for
an array of `nan`. -/
noncomputable def peak (t1 t2 : Option (List ℝ)) : ℤ :=
  match t1, t2 with
  | some a, some b =>
    match (List.range (a.length + b.length - 1)).map (corr a b) with
    | [] => 0
    | c :: cs => (Utils.argmaxGo 0 c 1 cs : ℤ)
  | _, _ => 0

/-- The shifts, lines 434-449.  `traces_norm[0]` raises IndexError without traces. -/
noncomputable def alignShifts (filt : ℝ → ℝ → List ℝ → List ℝ) (traces : List (List ℝ)) (nCut : ℤ) :
    Except Err (List ℤ) :=
  match traces with
  | [] => .error .indexError
  | x :: _ =>
    let t1 := condition filt nCut x
    let orig := peak t1 t1
    .ok (traces.map fun y => peak t1 (condition filt nCut y) - orig)

/-- `align_traces(traces, n_cut=…, cut_off_freq=…, fs=…)`: the shifts and the masked traces, `none`
for masked.  `ndimage.shift` by a whole number of bins moves the samples (a spline through the samples
is evaluated at samples).  Lines 426-461. -/
noncomputable def alignTraces (filt : ℝ → ℝ → List ℝ → List ℝ) (traces : List (List ℝ)) (nCut : ℤ)
    (_cutOffFreq _fs : ℝ) : Except Err (List ℤ × List (List (Option ℝ))) :=
  match alignShifts filt traces nCut with
  | .error e => .error e
  | .ok shifts =>
    .ok (shifts, List.zipWith (fun (x : List ℝ) s => Utils.shiftInt (x.map some) s none) traces shifts)

/-- `align_traces` for traces of integers (as read from a digitiser).  `np.zeros_like(traces)` and the
result of `ndimage.shift` have the integer type of the traces; `castNan` is whatever integer the
conversion of `cval=np.nan` gives.  `np.isnan` of an integer is false, so that no entry is masked.
Lines 426-461. -/
noncomputable def alignTracesInt (filt : ℝ → ℝ → List ℝ → List ℝ) (castNan : ℤ)
    (traces : List (List ℤ)) (nCut : ℤ) : Except Err (List ℤ × List (List (Option ℤ))) :=
  match alignShifts filt (traces.map fun x => x.map fun v : ℤ => (v : ℝ)) nCut with
  | .error e => .error e
  | .ok shifts =>
    .ok (shifts, List.zipWith (fun (x : List ℤ) s => (Utils.shiftInt x s castNan).map some) traces shifts)

end Verif.Template
