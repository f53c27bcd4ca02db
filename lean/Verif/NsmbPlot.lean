import Verif.Nsmb
import Verif.Lowpass

/-!
Model of the diagnostic plot of the multi-template fits: `plotnsmb` in
`/repo/qetpy/plotting/_of_nsmb_plotting.py` lines 11-162, and its calls in
`/repo/qetpy/core/_of_nsmb.py` lines 475-485, 660-666 and 1064-1072.

A figure is the list of its curves (heights over the bins of the trace), its vertical markers, the
chi2 in the label of the total fit (before rounding to one decimal) and the file it is written to.
Colours, limits and axis labels are left out.
-/

namespace Verif.Nsmb

open Verif.Dft

variable {n : ℕ} [NeZero n] {nb : ℕ}

/-- `lgcsaveplots : bool, int`. -/
inductive Save
  | bool (b : Bool)
  | int (i : ℤ)
  deriving DecidableEq

/-- `if lgcsaveplots:`. -/
def Save.truthy : Save → Bool
  | .bool b => b
  | .int i => i ≠ 0

/-- `str(lgcsaveplots)`. -/
def Save.str : Save → String
  | .bool true => "True"
  | .bool false => "False"
  | .int i => toString i

/-- The figure. -/
structure NFig (n : ℕ) where
  filtered : Option (List ℝ)
  data : ZMod n → ℝ
  total : ZMod n → ℝ
  label : ℝ
  bkg : List (ZMod n → ℝ)
  sig : Option (ZMod n → ℝ)
  marks : List ℝ
  file : Option String

/-- The samples of a trace in order. -/
def samples (p : ZMod n → ℝ) : List ℝ := (List.range n).map fun (k : ℕ) => p (k : ZMod n)

/-- One row of `fitf`, lines 69-74. -/
noncomputable def fitf (sbf : Fin (nb + 1) → ZMod n → ℂ) (fs : ℝ) (a : Fin (nb + 1) → ℝ) (td : ℝ)
    (i : Fin (nb + 1)) (f : ZMod n) : ℂ :=
  let phase : ℂ := if i = 0 then Complex.exp (-(Complex.I * (omega fs f : ℂ) * (td : ℂ))) else 1
  (a i : ℂ) * sbf i f * phase

/-- One row of `fitt`, line 81. -/
noncomputable def fitt (sbf : Fin (nb + 1) → ZMod n → ℂ) (fs : ℝ) (a : Fin (nb + 1) → ℝ) (td : ℝ)
    (i : Fin (nb + 1)) (m : ZMod n) : ℝ := (ifft (fitf sbf fs a td i) m * n).re

/-- `fittott`, lines 75 and 82. -/
noncomputable def fittott (sbf : Fin (nb + 1) → ZMod n → ℂ) (fs : ℝ) (a : Fin (nb + 1) → ℝ) (td : ℝ)
    (m : ZMod n) : ℝ := (ifft (fun f => ∑ i, fitf sbf fs a td i f) m * n).re

/-- `background_templates_shifts[ii] for ii in range(nB)`, lines 134-152; a missing entry raises
`IndexError`, a `nan` (here `none`) draws no line. -/
def markers (nb : ℕ) : Option (List (Option ℝ)) → Except Err (List ℝ)
  | none => .ok []
  | some s => if s.length < nb then .error .indexError else .ok ((s.take nb).filterMap id)

/-- `fitt[j] + fitt[-1] + fitt[-2]` (lines 111, 120, 131); `fitt[-2]` raises `IndexError` if there is
a single row. -/
noncomputable def onBase (fit : Fin (nb + 1) → ZMod n → ℝ) (j : Fin (nb + 1)) :
    Except Err (ZMod n → ℝ) :=
  if nb = 0 then .error .indexError
  else .ok fun m => fit j m + fit (Fin.last nb) m + fit ⟨nb - 1, by omega⟩ m

/-- The rows `range(nS, nSB - 2)` of line 104 with `nS = 1`, `nSB = nb + 1`. -/
def bkgRows (nb : ℕ) : List (Fin (nb + 1)) := (List.finRange (nb + 1)).filter fun j =>
  1 ≤ j.val ∧ j.val < nb + 1 - 2

/-- `plotnsmb`, lines 52-162 with `nS = 1`.  `lp` is `lpFiltFreq`, `name` is
`savepath + figPrefix`. -/
noncomputable def plotnsmb (p : ZMod n → ℝ) (fs td : ℝ) (a : Fin (nb + 1) → ℝ)
    (sbf : Fin (nb + 1) → ZMod n → ℂ) (J : ZMod n → ℝ) (lp : Option ℝ) (save : Save) (name : String)
    (shifts : Option (List (Option ℝ))) : Except Err (NFig n) := do
  let filt ← match lp with
    | none => .ok none
    | some f => (Lowpass.lowpass (samples p) f fs).map some
  let tot := fittott sbf fs a td
  let label := residChi2 J fun m => p m - tot m
  let bkg ← (bkgRows nb).mapM (onBase (fitt sbf fs a td))
  let sig ← if |a 0| > 1e-20 then (onBase (fitt sbf fs a td) 0).map some else .ok none
  let marks ← markers nb shifts
  .ok { filtered := filt, data := p, total := tot, label := label, bkg := bkg, sig := sig,
        marks := marks, file := if save.truthy then some (name ++ save.str ++ ".png") else none }

/-- `of_nsmb` with `lgcplot`, `_of_nsmb.py` lines 660-668: the plot is drawn before the values are
returned. -/
noncomputable def ofNsmbPlot (p : ZMod n → ℝ) (F : Filt n nb)
    (iP : ZMod n → Matrix (Fin (nb + 1)) (Fin (nb + 1)) ℝ) (fs : ℝ) (window : List ℤ) (lf : ℕ)
    (lgcplot : Bool) (save : Save) (shifts : Option (List (Option ℝ))) :
    Except Err (Fit n nb × Option (NFig n)) := do
  let r ← ofNsmb p F iP fs window lf
  if lgcplot then
    let fig ← plotnsmb p fs r.tdelmin r.amps F.sbf F.psddnu (some 30e3) save "./scFit" shifts
    .ok (r, some fig)
  else .ok (r, none)

/-- `of_nsmb_con` with `lgcplot`, lines 1064-1082. -/
noncomputable def ofNsmbConPlot (p : ZMod n → ℝ) (F : Filt n nb) (fs : ℝ) (c : Fin (nb + 1) → ℤ)
    (window : List ℤ) (wins : List (List ℤ)) (lf : ℕ) (lgcplot : Bool) (save : Save)
    (shifts : Option (List (Option ℝ))) : Except Err (ConFit n nb × Option (NFig n)) := do
  let r ← ofNsmbCon p F fs c window wins lf
  if lgcplot then
    let fig ← plotnsmb p fs r.tdelmin r.amps F.sbf F.psddnu (some 30e3) save "./scFit" shifts
    .ok (r, some fig)
  else .ok (r, none)

/-- `of_mb` with `lgcplot`, lines 475-487: no delay, signal amplitude `0`. -/
noncomputable def ofMbPlot (p : ZMod n → ℝ) (F : Filt n nb) (fs : ℝ) (c : Fin nb → ℤ) (lf : ℕ)
    (lgcplot : Bool) (save : Save) (shifts : Option (List (Option ℝ))) :
    Except Err (((Fin nb → ℝ) × ℝ × ℝ) × Option (NFig n)) := do
  let r ← ofMb p F c lf
  if lgcplot then
    let fig ← plotnsmb p fs 0 (Fin.cons 0 r.1) F.sbf F.psddnu (some 30e3) save "./bcFit" shifts
    .ok (r, some fig)
  else .ok (r, none)

end Verif.Nsmb
