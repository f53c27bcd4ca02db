import Verif.Dft
import Verif.Np
import Verif.OF

/-!
Model of the background-template builders: `/repo/qetpy/core/_of_nsmb.py` lines 1168-1327.
A template of `n ≥ 1` bins is a function on `ZMod n` (`n = 0` raises `ZeroDivisionError` in `1/nbin`
and is not modelled).  `fs` and `ttlrate` are Python numbers: dividing by zero raises.
-/

namespace Verif.Nsmb

open Verif.Dft

variable {n : ℕ} [NeZero n]

/-- `np.rint`: nearest integer, ties to even. -/
noncomputable def rint (x : ℝ) : ℤ :=
  if x - ⌊x⌋ < 1 / 2 then ⌊x⌋
  else if x - ⌊x⌋ > 1 / 2 then ⌊x⌋ + 1
  else if ⌊x⌋ % 2 = 0 then ⌊x⌋ else ⌊x⌋ + 1

/-- `np.arange(0,1,1/nbin)` for `n` bins (exact arithmetic: `n` entries). -/
noncomputable def slopeTemplate (τ : ZMod n) : ℝ := (τ.val : ℝ) * (1 / n)

/-- `get_slope_dc_template_nsmb`, lines 1190-1200: the two columns.  The shifts, two `nan`, are not
modelled. -/
noncomputable def slopeDc : List (ZMod n → ℝ) := [slopeTemplate, fun _ => 1]

/-- The values returned by `maketemplate_ttlfit_nsmb`. -/
structure Ttl (n : ℕ) where
  cols : List (ZMod n → ℝ)
  shifts : List ℤ
  polarity : List ℤ
  window : List ℤ

/-- `int(np.rint(ttlbinsbetween*ii))`, line 1277. -/
noncomputable def ttlShift (bins : ℝ) (ii : ℕ) : ℤ := rint (bins * ii)

/-- One background template, lines 1279-1282: the first one as it is, the others padded with zeros
in front and truncated with `[:-shift]`.  `np.pad` raises `ValueError` for a negative shift; for a zero
shift the slice `[:-0]` is empty and the assignment raises `ValueError`. -/
noncomputable def ttlCol (first : ZMod n → ℝ) (bins : ℝ) (ii : ℕ) : Except Err (ZMod n → ℝ) :=
  if ii = 0 then .ok first
  else
    let s := ttlShift bins ii
    if s ≤ 0 then .error .valueError
    else .ok fun τ => if (τ.val : ℤ) < s then 0 else first (τ - (s : ZMod n))

/-- The notched bins, lines 1305-1320, after wrapping negative values once. -/
noncomputable def ttlRestrict (n : ℕ) (bins : ℝ) (nTtl : ℕ) (notch : ℤ) : List ℤ :=
  ((List.range nTtl).flatMap fun ii =>
    OF.arange (ttlShift bins ii - notch) (ttlShift bins ii + notch + 1)).map
      fun i => if i < 0 then n + i else i

/-- `np.delete(np.arange(n), restrictind)`, line 1323: `IndexError` out of bounds, negative indices
count from the end. -/
def npDelete (n : ℕ) (r : List ℤ) : Except Err (List ℤ) :=
  if ∃ j ∈ r, ¬ (-(n : ℤ) ≤ j ∧ j < n) then .error .indexError
  else .ok ((OF.arange 0 n).filter fun i => ¬ ∃ j ∈ r, (if j < 0 then j + n else j) = i)

/-- `maketemplate_ttlfit_nsmb`, lines 1246-1327. -/
noncomputable def makeTtl (template : ZMod n → ℝ) (fs ttlrate : ℝ) (constrain positive : Bool)
    (notch : ℤ) : Except Err (Ttl n) :=
  if ttlrate = 0 ∨ fs = 0 then .error .zeroDivision else
  let timeBetween := 1 / ttlrate
  let bins := timeBetween * fs
  let tLength := (n : ℝ) / fs
  let nTtl := OF.trunc (tLength / timeBetween)
  let binShift := OF.trunc (-(nTtl : ℝ) / 2 * bins)
  let first := roll template (binShift : ZMod n)
  if nTtl + 2 < 0 then .error .valueError   -- np.ones with a negative dimension
  else if nTtl < 0 then .error .indexError  -- fewer than two columns for slope and DC
  else
    match (List.range nTtl.toNat).mapM (ttlCol first bins) with
    | .error e => .error e
    | .ok cols =>
      match npDelete n (ttlRestrict n bins nTtl.toNat notch) with
      | .error e => .error e
      | .ok window =>
        let pol : ℤ := if constrain then (if positive then 1 else -1) else 0
        .ok { cols := cols ++ [slopeTemplate, fun _ => 1],
              shifts := (List.range nTtl.toNat).map (ttlShift bins) ++ [0, 0],
              polarity := List.replicate nTtl.toNat pol ++ [0, 0],
              window := window }

end Verif.Nsmb
