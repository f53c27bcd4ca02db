import Verif.Sim

/-!
Model of `plot_noise_sim` (`/repo/qetpy/plotting/_noise_plotting.py` lines 514-869).  A plot is the list of its
lines; axis limits, titles and colours are left out.  A frequency at which a quantity is not a number has no point.
-/

namespace Verif.SimPlot
open Verif Sim

/-- A drawn line. -/
structure Line where
  label : String
  pts : List (ℝ × ℝ)

/-- `loglog(freqs, np.sqrt(np.abs(s(freqs))))`; `s` without `abs` is the same where it is not negative. -/
noncomputable def curve (freqs : List ℝ) (s : ℝ → Except Err ℝ) : List (ℝ × ℝ) :=
  freqs.filterMap fun f =>
    match s f with
    | .ok v => some (f, Real.sqrt |v|)
    | .error _ => none

/-- `np.sqrt(s(freqs))`: a negative value gives `nan`. -/
noncomputable def rootCurve (freqs : List ℝ) (s : ℝ → Except Err ℝ) : List (ℝ × ℝ) :=
  open Classical in
  freqs.filterMap fun f =>
    match s f with
    | .ok v => if v < 0 then none else some (f, Real.sqrt v)
    | .error _ => none

/-- The raw data; `scale` is what the PSD is divided by. -/
noncomputable def raw (freqs psd : List ℝ) (scale : ℝ → Except Err ℝ) : List (ℝ × ℝ) :=
  open Classical in
  (freqs.zip psd).filterMap fun p =>
    match scale p.1 with
    | .ok d => if d = 0 ∨ p.2 / d < 0 then none else some (p.1, Real.sqrt (p.2 / d))
    | .error _ => none

/-- `_plot_ti_noise`.  Lines 597-656. -/
noncomputable def tiNoise (t : TES) (f psd : List ℝ) : List Line :=
  [⟨"TES Johnson Noise", curve f (sItes t)⟩, ⟨"Load Noise", curve f (sIload t)⟩,
    ⟨"TFN Noise", curve f (sItfn t)⟩, ⟨"Total Noise", curve f (sItot t)⟩,
    ⟨"Squid+Electronics Noise", curve f (sIsquid t)⟩, ⟨"Raw Data", raw f psd fun _ => .ok 1⟩]

/-- `np.abs(noise_sim.dIdP())**2`.  Line 745. -/
noncomputable def powerScale (t : TES) (x : ℝ) : Except Err ℝ :=
  match dIdP t x with
  | .error e => .error e
  | .ok z => .ok (abs2 z)

/-- `_plot_tp_noise`.  Lines 685-749. -/
noncomputable def tpNoise (t : TES) (f psd : List ℝ) : List Line :=
  [⟨"TES Johnson Noise", curve f (sPtes t)⟩, ⟨"Load Noise", curve f (sPload t)⟩,
    ⟨"TFN Noise", curve f fun _ => .ok (sPtfn t)⟩, ⟨"Total Noise", curve f (sPtot t)⟩,
    ⟨"Squid+Electronics Noise", curve f (sPsquid t)⟩,
    ⟨"Raw Data", raw f psd (powerScale t)⟩]

/-- `_plot_sc_noise`.  Lines 776-807. -/
noncomputable def scNoise (t : TES) (f psd : List ℝ) : List Line :=
  [⟨"Raw Data", raw f psd fun _ => .ok 1⟩, ⟨"Squid+Electronics Noise", rootCurve f (sIsquid t)⟩,
    ⟨"Load Noise", rootCurve f (sIloadSc t)⟩, ⟨"Total Noise", rootCurve f (sItotSc t)⟩]

/-- `_plot_n_noise`.  Lines 834-869. -/
noncomputable def nNoise (t : TES) (f psd : List ℝ) : List Line :=
  [⟨"Raw Data", raw f psd fun _ => .ok 1⟩, ⟨"Squid+Electronics Noise", rootCurve f (sIsquid t)⟩,
    ⟨"TES Johnson Noise", rootCurve f (sItesNormal t)⟩, ⟨"Load Noise", rootCurve f (sIloadNormal t)⟩,
    ⟨"Total Noise", rootCurve f (sItotNormal t)⟩]

/-- What a call leaves behind: the returned figure (None after saving), the files, and the frequencies stored
in the simulation object. -/
structure Out where
  ret : Option (List Line)
  files : List (List Line)
  freqs : List ℝ

/-- Save or return. -/
def finish (lgcsave : Bool) (freqs : List ℝ) (fig : List Line) : Out :=
  if lgcsave then ⟨none, [fig], freqs⟩ else ⟨some fig, [], freqs⟩

/-- `plot_noise_sim`; `freqs` are those stored in the simulation object.  Lines 548-571.  Arrays of different
lengths cannot be drawn, and divisions of numbers by zero raise. -/
noncomputable def plotNoiseSim (t : TES) (freqs f psd : List ℝ) (istype : PyStr) (lgcsave : Bool) :
    Except Err Out :=
  if istype.is "current" then
    if t.i0 = 0 ∨ t.loopgain = 0 ∨ 1 - 1 / t.loopgain = 0 then .error .zeroDivision
    else if f.tail.length ≠ psd.tail.length then .error .valueError
    else .ok (finish lgcsave f.tail (tiNoise t f.tail psd.tail))
  else if istype.is "power" then
    if t.i0 = 0 ∨ t.loopgain = 0 ∨ 1 - 1 / t.loopgain = 0 then .error .zeroDivision
    else if f.tail.length ≠ psd.tail.length then .error .valueError
    else .ok (finish lgcsave f.tail (tpNoise t f.tail psd.tail))
  else if istype.is "sc" then
    if f.tail.length ≠ psd.tail.length then .error .valueError
    else .ok (finish lgcsave freqs (scNoise t f.tail psd.tail))
  else if istype.is "normal" then
    if f.tail.length ≠ psd.tail.length then .error .valueError
    else .ok (finish lgcsave freqs (nNoise t f.tail psd.tail))
  else .ok ⟨none, [], freqs⟩

end Verif.SimPlot
