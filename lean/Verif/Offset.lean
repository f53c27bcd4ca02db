import Verif.Utils

/-! Model of the second return value of `calc_offset` (`/repo/qetpy/utils/_utils.py` 259-297). -/

namespace Verif.Utils
open Verif

/-- The means of the traces, `np.mean(x, axis=-1)`, of the bins which are kept.  Lines 286-293. -/
noncomputable def traceMeans (x : List (List ℝ)) (nbins : ℕ) (fs sgfreq : ℝ) (isDidv : Bool) :
    Option (List ℝ) :=
  let keep := if isDidv then
      let periodBins := 1 / sgfreq * fs
      let nPeriods := ⌊(nbins : ℝ) / periodBins⌋₊
      ⌊(nPeriods : ℝ) * periodBins⌋₊
    else nbins
  (x.map fun t => Np.mean (t.take keep)).mapM id

/-- `np.std(..., axis=0)` of a 1-d array with the default `ddof=0`; `nan` (`none`) if it is empty. -/
noncomputable def npStd (l : List ℝ) : Option ℝ :=
  match Np.mean l with
  | none => none
  | some mu => (Np.mean (l.map fun v => (v - mu) ^ 2)).map Real.sqrt

/-- `calc_offset` for a set of traces, second return value.  Line 294. -/
noncomputable def calcOffsetStd (x : List (List ℝ)) (nbins : ℕ) (fs sgfreq : ℝ) (isDidv : Bool) :
    Option ℝ :=
  match traceMeans x nbins fs sgfreq isDidv with
  | none => none
  | some ms => (npStd ms).map fun s => s / Real.sqrt x.length

end Verif.Utils
