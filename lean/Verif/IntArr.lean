import Verif.Utils
import Verif.Ibis

/-!
The functions which write into an array of the type of their input, for inputs of integers: `shift`
(`/repo/qetpy/utils/_utils.py`), `fill_negatives` (same file) and `IBIS.analyze`
(`/repo/qetpy/core/_ibis.py`).  The models for floats are in `Utils.lean` and `Ibis.lean`;
`align_traces` and `pileupcut` of integers are in `Template.lean` and `CutEffects.lean`.

All integers are taken to fit into the type of the array.
-/

namespace Verif.IntArr
open Verif
open Verif.Iv (ValErr)

/-- What an entry of an integer array holds after a real number has been assigned to it: the fractional
part is dropped. -/
noncomputable def store (v : ℝ) : ℤ := if v < 0 then ⌈v⌉ else ⌊v⌋

/-- `shift(arr, num, fill_value)` of an array of integers.  `_utils.py` lines 50-67: `np.empty_like(arr)` is
an array of integers, and `ndimage.shift` returns an array of the type of its input; `cast` is its
conversion, about which nothing is assumed. -/
noncomputable def shift (cast : ℝ → ℤ) (arr : List ℤ) (num : ℝ) (fill : ℝ) : List ℤ :=
  if num = (⌊num⌋ : ℝ) then Utils.shiftInt arr ⌊num⌋ (store fill)
  else (Utils.ndShift (arr.map fun v : ℤ => (v : ℝ)) num fill).map cast

/-- `fill_negatives(arr)` of an array of integers: the interpolated values are assigned to entries of `arr`.
`_utils.py` lines 345-353. -/
noncomputable def fillNegatives (arr : List ℤ) : List ℤ :=
  let good := Utils.goodPts (arr.map fun v : ℤ => (v : ℝ))
  if good.length ≠ 0 then
    arr.zipIdx.map fun (p : ℤ × ℕ) =>
      if p.1 ≤ 0 then
        match Np.interp good (p.2 : ℝ) with
        | some v => store v
        | none => p.1
      else p.1
  else arr

/-- A quantity and its error, both stored as integers. -/
noncomputable def storeV (x : ValErr) : ValErr := ⟨store x.val, store x.err⟩

open Classical in
/-- `IBIS.analyze` of an object whose `dites` are integers: `r0`, `r0_err`, `ptes`, `ptes_err` are filled into
arrays made by `np.zeros_like(self.dites)`.  `core/_ibis.py` lines 253-256 and 644-677.  A vanishing TES
current gives an infinite resistance, whose conversion raises (OverflowError, or ValueError for `nan`;
`.nan` here). -/
noncomputable def analyze (o : Ibis.Obj) (yoff xoff : Ibis.Off) : Except Err Ibis.Result :=
  match Ibis.analyze o yoff xoff with
  | .error e => .error e
  | .ok r =>
    if ∃ t < o.data.n0, ∃ c < o.data.n1, ∃ i < o.data.n2, r.r0 t c i = none then .error .nan
    else .ok { r with
      r0 := fun t c i => (r.r0 t c i).map storeV
      ptes := fun t c i => (r.ptes t c i).map storeV }

end Verif.IntArr
