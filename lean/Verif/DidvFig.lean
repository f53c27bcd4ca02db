import Verif.DidvPlot

/-! Model of the public plotting methods of the dI/dV classes: which figures a call shows or saves, with the
axis limits of each (`/repo/qetpy/core/didv/_plot_didv.py`).  The directory of a saved figure exists and is
writable; equal limits, which matplotlib widens, are kept as they are. -/

namespace Verif.Didv
open Verif

/-- A public plotting method with its own arguments. -/
inductive Method where
  | fullTrace
  | singlePeriod
  | zoomedIn (zoom : ℝ)
  | flipped
  | reIm
  | absPhase
  | reVsIm

/-- What is drawn in a figure.  Limits which the code does not set are `none`. -/
inductive Drawing where
  | time (mean : Curve) (fits : List Curve) (flipped : Option Curve) (xlim : Option (ℝ × ℝ))
  | freq (plot : FreqPlot)
  | plane (data : Curve) (fits : List (List (Option (ℝ × ℝ))))

/-- A figure that was saved under a file name, or shown (`none`). -/
structure Figure where
  drawing : Drawing
  file : Option (List Char)

/-- `savepath + f"stem_{savename}.png"` if `saveplot`, otherwise `plt.show()`.
Lines 154-158, 193-197, 243-247, 289-293, 431-435, 443-447, 479-483, 492-496, 602-606. -/
def output (save : Bool) (path name stem : List Char) : Option (List Char) :=
  if save then some (path ++ stem ++ '_' :: name ++ ".png".toList) else none

/-- `self._time[0]` of an empty trace raises IndexError. -/
def View.timeLim (v : View) (lim : ℝ × ℝ) : Except Err (ℝ × ℝ) :=
  if v.proc.nbins = 0 then .error .indexError else .ok lim

/-- The horizontal limits of `plot_full_trace`, line 151. -/
noncomputable def View.fullLim (v : View) : ℝ × ℝ :=
  (v.proc.time 0 * 10 ^ 6, v.proc.time (v.proc.nbins - 1) * 10 ^ 6)

/-- A plot in time with limits. -/
noncomputable def View.timeDrawing (v : View) (poles : Poles) (lim : ℝ × ℝ) : Except Err Drawing :=
  match v.timePlot poles with
  | .error e => .error e
  | .ok (m, l) =>
    match v.timeLim lim with
    | .error e => .error e
    | .ok lim => .ok (.time m l none (some lim))

/-- A plot in frequency whose vertical limits are changed afterwards. -/
noncomputable def View.freqDrawing (v : View) (poles : Poles) (fn : ℂ → ℝ) (lim : ℝ × ℝ → ℝ × ℝ) :
    Except Err Drawing :=
  match v.freqPlot fn poles with
  | .error e => .error e
  | .ok g => .ok (.freq { g with ylim := lim g.ylim })

/-- The figures of a method in order, each with the stem of its file name.  Lines 128-293, 405-606.  For the
modulus `set_ylim(0)` sets the lower limit only (line 477). -/
noncomputable def View.figures (v : View) (poles : Poles) : Method → List (Except Err Drawing × List Char)
  | .fullTrace => [(v.timeDrawing poles v.fullLim, "full_trace".toList)]
  | .singlePeriod => [(v.timeDrawing poles v.periodLim, "trace_one_period".toList)]
  | .zoomedIn zoom => [(v.timeDrawing poles (v.zoomLim zoom), "zoomed_in_trace".toList)]
  | .flipped =>
    [(match v.timePlot poles with
      | .error e => .error e
      | .ok (m, l) => .ok (.time m l (some v.flippedCurve) none), "flipped_trace".toList)]
  | .reIm => [(v.freqDrawing poles Complex.re id, "didv_real".toList),
      (v.freqDrawing poles Complex.im id, "didv_imag".toList)]
  | .absPhase => [(v.freqDrawing poles (fun z => ‖z‖) fun l => (0, l.2), "didv_abs".toList),
      (v.freqDrawing poles Complex.arg fun _ => (-Real.pi, Real.pi), "didv_phase".toList)]
  | .reVsIm => [(.ok (.plane v.dvdiPoints ((v.drawn poles).map v.dvdiFit)), "dvdi_real_vs_imag".toList)]

/-- Make the figures one after the other, until an error is raised. -/
def emit (save : Bool) (path name : List Char) :
    List (Except Err Drawing × List Char) → List Figure × Except Err Unit
  | [] => ([], .ok ())
  | (.error e, _) :: _ => ([], .error e)
  | (.ok d, stem) :: l =>
    let r := emit save path name l
    (⟨d, output save path name stem⟩ :: r.1, r.2)

/-- A call of a plotting method: the figures shown or saved, and how the call ends. -/
noncomputable def View.plot (v : View) (m : Method) (poles : Poles) (save : Bool) (path name : List Char) :
    List Figure × Except Err Unit :=
  emit save path name (v.figures poles m)

end Verif.Didv
