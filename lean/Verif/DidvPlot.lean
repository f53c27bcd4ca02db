import Verif.DidvPriors

/-! Model of what the plotting methods of the dI/dV classes draw: the curves, their axis limits and the
errors raised (`/repo/qetpy/core/didv/_plot_didv.py`).  Colours, labels, titles and files are not modelled.
Times are in microseconds and currents in microamperes, as drawn. -/

namespace Verif.Didv
open Verif Dft

/-- What the plots use of a result dictionary: the cost, `params['dt']` and the keyword arguments taken from
`smallsignalparams`, or from `params` when this key is missing (lines 61-64). -/
structure PlotFit where
  cost : ℝ
  dt : ℝ
  args : Args

/-- A result of `DIDV`. -/
def Result.plotFit (r : Result) : PlotFit := ⟨r.cost, r.params.getLastD 0, sspArgs r.ssp⟩

/-- A result of `DIDVPriors`. -/
def PResult.plotFit (r : PResult) : PlotFit := ⟨r.cost, r.params.getLastD 0, sspArgs r.params⟩

/-- What the plots use of an object with processed traces. -/
structure View where
  proc : Proc
  fs : ℝ
  sgamp : ℝ
  sgfreq : ℝ
  duty : ℝ
  fit1 : Option PlotFit
  fit2 : Option PlotFit
  fit3 : Option PlotFit

/-- A `DIDV` object: before the traces are processed its arrays are `None` (TypeError). -/
def Obj.view (o : Obj) : Except Err View :=
  match o.proc with
  | none => .error .typeError
  | some p => .ok ⟨p, o.fs, o.sgamp, o.sgfreq, o.duty, o.res1.map Result.plotFit,
      o.res2.map Result.plotFit, o.res3.map Result.plotFit⟩

/-- A `DIDVPriors` object. -/
def PObj.view (o : PObj) : Except Err View :=
  match o.base.proc with
  | none => .error .typeError
  | some p => .ok ⟨p, o.base.fs, o.base.sgamp, o.base.sgfreq, o.base.duty, o.res1.map PResult.plotFit,
      o.res2.map PResult.plotFit, o.res3.map PResult.plotFit⟩

/-- The results in order of the number of poles. -/
def View.fits (v : View) : List (Option PlotFit) := [v.fit1, v.fit2, v.fit3]

/-- `min` of the pairs (cost, index): the first of the lowest costs. -/
noncomputable def minCost : List PlotFit → Option PlotFit
  | [] => none
  | f :: fs =>
    match minCost fs with
    | none => some f
    | some g => if f.cost ≤ g.cost then some f else some g

/-- `_get_best_time_offset`.  Lines 10-40. -/
noncomputable def View.bestOffset (v : View) : ℝ :=
  match minCost (v.fits.filterMap id) with
  | none => 0
  | some f => f.dt

/-- The argument `poles`: `"all"`, a number or a list of numbers. -/
inductive Poles where
  | all
  | one (k : ℤ)
  | list (l : List ℤ)

/-- `k in poleslist`. -/
def Poles.has : Poles → ℤ → Bool
  | .all, k => [1, 2, 3].contains k
  | .one j, k => j == k
  | .list l, k => l.contains k

/-- The fits drawn, in order. -/
def View.drawn (v : View) (poles : Poles) : List PlotFit :=
  (if poles.has 1 then v.fit1.toList else []) ++ (if poles.has 2 then v.fit2.toList else []) ++
    (if poles.has 3 then v.fit3.toList else [])

/-! ### Time domain -/

/-- A drawn curve. -/
abbrev Curve := List (ℝ × ℝ)

/-- The averaged trace, lines 54-59. -/
noncomputable def View.meanCurve (v : View) : Curve :=
  (List.range v.proc.nbins).map fun (i : ℕ) =>
    (v.proc.time i * 10 ^ 6, (v.proc.tmean i - v.proc.offset) * 10 ^ 6)

/-- The response of one fit, lines 61-79 (the same for each number of poles).  The time step of the
response is the difference of the first two times; a single bin raises IndexError. -/
noncomputable def View.fitCurve (v : View) (f : PlotFit) : Except Err Curve :=
  match v.proc.nbins with
  | 0 | 1 => .error .indexError
  | m + 2 =>
    match squarewaveresponse (n := m + 2) (v.proc.time 1 - v.proc.time 0) v.sgamp v.sgfreq v.duty f.args with
    | .error e => .error e
    | .ok y => .ok ((List.range (m + 2)).map fun (i : ℕ) =>
        ((v.proc.time i + f.dt) * 10 ^ 6, y (i : ZMod (m + 2)) * 10 ^ 6))

/-- All or none. -/
def collect {α : Type*} : List (Except Err α) → Except Err (List α)
  | [] => .ok []
  | .error e :: _ => .error e
  | .ok a :: l =>
    match collect l with
    | .error e => .error e
    | .ok r => .ok (a :: r)

/-- `_plot_time_domain`: the averaged trace and the fits.  Lines 43-127. -/
noncomputable def View.timePlot (v : View) (poles : Poles) : Except Err (Curve × List Curve) :=
  match collect ((v.drawn poles).map v.fitCurve) with
  | .error e => .error e
  | .ok l => .ok (v.meanCurve, l)

/-- The horizontal limits of `plot_single_period_of_trace`, lines 188-190. -/
noncomputable def View.periodLim (v : View) : ℝ × ℝ :=
  (v.proc.time 0 * 10 ^ 6, v.proc.time 0 * 10 ^ 6 + 1 / v.sgfreq * 10 ^ 6)

/-- The horizontal limits of `plot_zoomed_in_trace`, lines 226-239. -/
noncomputable def View.zoomLim (v : View) (zoom : ℝ) : ℝ × ℝ :=
  ((v.bestOffset + v.proc.time 0 + (1 / 2 - zoom / 2) * (1 / v.sgfreq)) * 10 ^ 6,
    (v.bestOffset + v.proc.time 0 + (1 / 2 + zoom / 2) * (1 / v.sgfreq)) * 10 ^ 6)

/-- The additional curve of `plot_didv_flipped`, lines 276-285. -/
noncomputable def View.flippedCurve (v : View) : Curve :=
  (List.range v.proc.nbins).map fun (i : ℕ) =>
    ((v.proc.time i - 1 / v.sgfreq / 2) * 10 ^ 6, -(v.proc.tmean i - v.proc.offset) * 10 ^ 6)

/-! ### Frequency domain -/

/-- Frequency of bin `k`. -/
noncomputable def View.freq (v : View) (k : ℕ) : ℝ := freqAt v.proc.nbins v.fs k

/-- `np.abs(mean / std) > 2.0`.  Division by a zero deviation gives an infinity, `nan` for zero over zero. -/
noncomputable def good (mean std : ℂ) : Prop := if std = 0 then mean ≠ 0 else 2 < ‖mean / std‖

open Classical in
/-- `fitinds`: the bins of positive frequency, line 306. -/
noncomputable def View.fitBins (v : View) : List ℕ :=
  (List.range v.proc.nbins).filter fun k => decide (0 < v.freq k)

open Classical in
/-- `plotinds`: those with small errors, lines 305-307. -/
noncomputable def View.plotBins (v : View) : List ℕ :=
  v.fitBins.filter fun k => decide (good (v.proc.didvmean k) (v.proc.didvstd k))

/-- `time_phase`, lines 309-311. -/
noncomputable def View.phase (v : View) (k : ℕ) : ℂ :=
  Complex.exp (2 * Complex.I * Real.pi * v.bestOffset * v.freq k)

/-- The points of the averaged data, lines 316-322. -/
noncomputable def View.dataPoints (v : View) (fn : ℂ → ℝ) : Curve :=
  v.plotBins.map fun k => (v.freq k, fn (v.proc.didvmean k * v.phase k))

/-- The two curves labelled as one standard deviation bounds, lines 324-336. -/
noncomputable def View.upperBound (v : View) (fn : ℂ → ℝ) : Curve :=
  v.plotBins.map fun k => (v.freq k, fn ((v.proc.didvmean k + v.proc.didvstd k) * v.phase k))

/-- Lines 331-336. -/
noncomputable def View.lowerBound (v : View) (fn : ℂ → ℝ) : Curve :=
  v.plotBins.map fun k => (v.freq k, fn ((v.proc.didvmean k - v.proc.didvstd k) * v.phase k))

/-- A fit, lines 338-351.  `none` is a `nan`, which is not drawn. -/
noncomputable def View.fitFreq (v : View) (fn : ℂ → ℝ) (f : PlotFit) : List (ℝ × Option ℝ) :=
  v.fitBins.map fun k => (v.freq k,
    match complexadmittance (v.freq k) f.args with
    | .ok y => some (fn y)
    | .error _ => none)

/-- The drawing of `_plot_freq_domain`. -/
structure FreqPlot where
  data : Curve
  upper : Curve
  lower : Curve
  fits : List (List (ℝ × Option ℝ))
  xlim : ℝ × ℝ
  ylim : ℝ × ℝ

open Classical in
/-- The values which set the vertical limits, lines 386-391. -/
noncomputable def View.limValues (v : View) (fn : ℂ → ℝ) : List ℝ :=
  (v.plotBins.filter fun k => decide (v.freq k < 10 ^ 5)).map fun k => fn (v.proc.didvmean k * v.phase k)

/-- `_plot_freq_domain`.  Lines 296-402.  `max` of an empty sequence raises ValueError. -/
noncomputable def View.freqPlot (v : View) (fn : ℂ → ℝ) (poles : Poles) : Except Err FreqPlot :=
  let l := v.limValues fn
  if l = [] then .error .valueError
  else
    let b := max (lmax l) (-lmin l)
    .ok ⟨v.dataPoints fn, v.upperBound fn, v.lowerBound fn, (v.drawn poles).map (v.fitFreq fn),
      (lmin (v.fitBins.map v.freq), lmax (v.fitBins.map v.freq)), (-b, b)⟩

/-- The points of `plot_re_vs_im_dvdi`, lines 540-546 (zero data do not pass the selection). -/
noncomputable def View.dvdiPoints (v : View) : Curve :=
  v.plotBins.map fun k => ((1 / (v.proc.didvmean k * v.phase k)).re, (1 / (v.proc.didvmean k * v.phase k)).im)

/-- A fit of `plot_re_vs_im_dvdi`, lines 548-561. -/
noncomputable def View.dvdiFit (v : View) (f : PlotFit) : List (Option (ℝ × ℝ)) :=
  v.fitBins.map fun k =>
    match complexadmittance (v.freq k) f.args with
    | .ok y => some ((1 / y).re, (1 / y).im)
    | .error _ => none

end Verif.Didv
