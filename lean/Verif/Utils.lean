import Verif.Np
import Mathlib.Data.Nat.Factorization.Basic
import Mathlib.Data.Nat.PrimeFin
import Mathlib.Algebra.BigOperators.Fin
import Mathlib.Algebra.Order.Floor.Ring
import Mathlib.Data.Rat.Floor
import Mathlib.Analysis.SpecialFunctions.Pow.Real

/-!
Model of `/repo/qetpy/utils/_utils.py`.
-/

namespace Verif.Utils
open Verif

/-! ### `shift` -/

/-- `shift`, integer branch.  `_utils.py` lines 50-60. -/
def shiftInt {α} (arr : List α) (num : ℤ) (fill : α) : List α :=
  let n := arr.length
  if num > 0 then
    -- result[:num] = fill_value ; result[num:] = arr[:-num]
    List.replicate (min num.toNat n) fill ++ Np.sliceTo arr (-num)
  else if num < 0 then
    -- result[num:] = fill_value ; result[:num] = arr[-num:]
    Np.sliceFrom arr (-num) ++ List.replicate (min (-num).toNat n) fill
  else
    -- result[:] = arr
    arr

/-- `ndimage.shift(arr, num, order=1, mode='constant', cval=fill)`: sample `i` of the result is
the linear interpolation of `arr` at coordinate `i - num`, or `cval` when that coordinate is
outside `[0, n-1]`.  (Library behaviour, used at `_utils.py` lines 61-64.) -/
noncomputable def ndShift (arr : List ℝ) (num : ℝ) (fill : ℝ) : List ℝ :=
  (List.range arr.length).map fun (i : ℕ) =>
    let c : ℝ := (i : ℝ) - num
    if 0 ≤ c ∧ c ≤ (arr.length : ℝ) - 1 then
      let lo := ⌊c⌋.toNat
      let w := c - ⌊c⌋
      match arr[lo]?, arr[lo + 1]? with
      | some a, some b => (1 - w) * a + w * b
      | some a, none => a            -- only reached with `w = 0`, `c = n - 1`
      | _, _ => fill
    else fill

/-- `shift(arr, num, fill_value)`.  `_utils.py` lines 26-68. -/
noncomputable def shift (arr : List ℝ) (num : ℝ) (fill : ℝ) : List ℝ :=
  if num = (⌊num⌋ : ℝ) then shiftInt arr ⌊num⌋ fill   -- float(num).is_integer()
  else ndShift arr num fill

/-! ### `resample_factors` -/

/-- Python's `round(a / b)` on a quotient of naturals: round half to even. -/
def roundDiv (a b : ℕ) : ℕ :=
  let q := a / b
  let r := a % b
  if 2 * r < b then q
  else if 2 * r > b then q + 1
  else if q % 2 = 0 then q else q + 1

/-- `np.ceil(a / b)`. -/
def ceilDiv (a b : ℕ) : ℕ := (a + b - 1) / b

/-- `resample_factors(fs, sgfreq)` for integer-valued arguments.  `_utils.py` lines 102-119.
`factorrat(fs/sgfreq)` has a positive exponent exactly at the primes of the reduced numerator
and a negative one exactly at the primes of the reduced denominator. -/
def resampleFactorsNat (fs sgfreq : ℕ) : ℕ × ℕ :=
  let g := Nat.gcd fs sgfreq
  let num := fs / g
  let den := sgfreq / g
  let numer := num.primeFactorsList.dedup      -- keys with positive exponent
  let denom := den.primeFactorsList.dedup      -- keys with negative exponent
  match denom.min? with
  | none => (1, 1)                                    -- len(denom) == 0
  | some p =>
    let down := numer.prod                      -- np.multiply.reduce(numer)
    let up := roundDiv down p * p
    let up := if up = 0 then ceilDiv down p * p else up
    (up, down)

/-- `resample_factors` including the integrality checks, for non-negative arguments.
`_utils.py` lines 97-100. -/
def resampleFactors (fs sgfreq : ℚ) : Except Err (ℕ × ℕ) :=
  if fs ≠ (⌊fs⌋ : ℚ) then .error .valueError
  else if sgfreq ≠ (⌊sgfreq⌋ : ℚ) then .error .valueError
  else .ok (resampleFactorsNat ⌊fs⌋.toNat ⌊sgfreq⌋.toNat)

/-! ### `make_decreasing` -/

/-- The loop of `make_decreasing` on the remaining `(x, y)` points: returns the points where
`y_dec` was set to a non-zero value.  `_utils.py` lines 239-246. -/
noncomputable def keepDec (last : ℝ) : List (ℝ × ℝ) → List (ℝ × ℝ)
  | [] => []
  | p :: rest =>
    if last > p.2 then
      -- last_val = y[ii]; y_dec[ii] = y[ii]; kept iff y_dec[ii] != 0
      if p.2 ≠ 0 then p :: keepDec p.2 rest else keepDec p.2 rest
    else keepDec last rest

/-- The points used for the interpolation.  `y_dec[0] = y[0]` unconditionally (line 236), so the
first point is kept iff `y[0] != 0`. -/
noncomputable def kept : List (ℝ × ℝ) → List (ℝ × ℝ)
  | [] => []
  | p :: rest => if p.2 ≠ 0 then p :: keepDec p.2 rest else keepDec p.2 rest

/-- `make_decreasing(y, x)`; `none` where no interpolant exists.  `_utils.py` lines 214-256. -/
noncomputable def makeDecreasing (pts : List (ℝ × ℝ)) : List (Option ℝ) :=
  pts.map fun p => Np.interpExtrap (kept pts) p.1

/-! ### `calc_offset` -/

/-- `calc_offset` for a set of traces (2-d input), first return value.
`_utils.py` lines 286-293.  `int(...)` of a non-negative float is the floor. -/
noncomputable def calcOffset (x : List (List ℝ)) (nbins : ℕ) (fs sgfreq : ℝ) (isDidv : Bool) :
    Option ℝ :=
  let keep := if isDidv then
      let periodBins := 1 / sgfreq * fs
      let nPeriods := ⌊(nbins : ℝ) / periodBins⌋₊
      ⌊(nPeriods : ℝ) * periodBins⌋₊
    else nbins
  match (x.map fun t => Np.mean (t.take keep)).mapM id with
  | none => none
  | some ms => Np.mean ms

/-! ### `slope` -/

/-- `slope(x, y, removemeans)`.  `_utils.py` lines 323-325. -/
noncomputable def slope {n : ℕ} (x y : Fin n → ℝ) (removemeans : Bool) : ℝ :=
  let xm := if removemeans then (∑ i, x i) / n else 0
  (∑ i, (x i - xm) * (y i - xm)) / ∑ i, (x i - xm) ^ 2

/-! ### `fill_negatives` -/

/-- The table of strictly positive entries with their indices. -/
noncomputable def goodPts (arr : List ℝ) : List (ℝ × ℝ) :=
  (arr.zipIdx.filter fun p => ¬ p.1 ≤ 0).map fun p => ((p.2 : ℝ), p.1)

/-- `fill_negatives(arr)`.  `_utils.py` lines 344-353. -/
noncomputable def fillNegatives (arr : List ℝ) : List ℝ :=
  let good := goodPts arr
  if good.length ≠ 0 then
    arr.zipIdx.map fun (p : ℝ × ℕ) =>
      if p.1 ≤ 0 then
        match Np.interp good (p.2 : ℝ) with
        | some v => v
        | none => p.1          -- unreachable: the table is not empty
      else p.1
  else arr

/-! ### Power and energy -/

/-- `powertrace_simple` at one sample.  `_utils.py` lines 554-558. -/
noncomputable def powertraceSimple (trace ioffset qetbias rload rsh : ℝ) : ℝ :=
  let vbias := qetbias * rsh
  let traceI0 := trace - ioffset
  traceI0 * vbias - rload * traceI0 ^ 2

/-- Result of `get_offset_from_muon` (`lgcfullrtn=True`). -/
structure MuonOut where
  ioffset : ℝ
  r0 : ℝ
  i0 : ℝ
  p0 : ℝ

/-- `get_offset_from_muon` after the averages have been taken: `baseline` is the mean of the
first `nbaseline` bins and `saturation` the mean of the 200 bins from the peak.
`_utils.py` lines 508-519. -/
noncomputable def muonFromMeans (baseline saturation qetbias rn rload rsh : ℝ) : MuonOut :=
  let deltaI := saturation - baseline
  let vbias := qetbias * rsh
  let inormal := vbias / (rload + rn)
  let i0 := inormal - deltaI
  let ioffset := baseline - i0
  { ioffset := ioffset
    r0 := inormal * (rn + rload) / i0 - rload
    i0 := i0
    p0 := i0 * rsh * qetbias - rload * i0 ^ 2 }

/-- `np.argmax` of a list, with the running best `(index, value)`; first maximiser. -/
noncomputable def argmaxGo (best : ℕ) (bv : ℝ) (i : ℕ) : List ℝ → ℕ
  | [] => best
  | a :: rest => if bv < a then argmaxGo i a (i + 1) rest else argmaxGo best bv (i + 1) rest

/-- `get_offset_from_muon(avemuon, qetbias, rn, rload, rsh, nbaseline)`.
`_utils.py` lines 503-519.  `np.max` of an empty array raises ValueError. -/
noncomputable def getOffsetFromMuon (avemuon : List ℝ) (qetbias rn rload rsh : ℝ)
    (nbaseline : ℤ) : Except Err MuonOut :=
  match avemuon with
  | [] => .error .valueError
  | a :: rest =>
    let peak := argmaxGo 0 a 1 rest
    match Np.mean (Np.sliceTo avemuon nbaseline), Np.mean ((avemuon.drop peak).take 200) with
    | some baseline, some sat => .ok (muonFromMeans baseline sat qetbias rn rload rsh)
    | _, _ => .error .nan

/-- `energy_absorbed` for one trace.  `_utils.py` lines 604-627.  `e` is `scipy.constants.e`.  The mean
of an empty baseline is `nan`, and so is then every sum with at least one term. -/
noncomputable def energyAbsorbed (e : ℝ) (trace : List ℝ) (ioffset qetbias rload rsh : ℝ)
    (fs : Option ℝ) (baseline : Option ℝ) (time : Option (List ℝ))
    (indbasepre indbasepost : Option ℤ) : Except Err ℝ :=
  let base : Except Err (Option ℝ) :=
    match baseline with
    | some b => .ok (some b)
    | none =>
      match indbasepre with
      | none => .error .valueError
      | some i =>
        let pre := Np.sliceTo trace i
        let bt := match indbasepost with
          | none => pre
          | some j => pre ++ Np.sliceFrom trace j
        .ok (Np.mean bt)
  match base with
  | .error err => .error err
  | .ok mb =>
    let b := mb.getD 0
    let p0 := powertraceSimple b ioffset qetbias rload rsh
    let diff := trace.map fun s => p0 - powertraceSimple s ioffset qetbias rload rsh
    match fs, time with
    | some f, _ =>
        if mb = none ∧ 2 ≤ trace.length then .error .nan else .ok (Np.trapz1 diff / (f * e))
    | none, some t =>
        match Np.trapz t diff with
        | .ok v => if mb = none ∧ 2 ≤ trace.length ∧ 2 ≤ t.length then .error .nan else .ok (v / e)
        | .error err => .error err
    | none, none => .error .valueError

/-! ### `estimate_g` -/

/-- `g` of `estimate_g`.  `_utils.py` line 658. -/
noncomputable def gVal (n p0 tc tb : ℝ) : ℝ := n * p0 * tc ^ (n - 1) / (tc ^ n - tb ^ n)

/-- `dgdp`, line 661. -/
noncomputable def dgdp (n p0 tc tb : ℝ) : ℝ := gVal n p0 tc tb / p0

/-- `dgdtc`, line 662. -/
noncomputable def dgdtc (n p0 tc tb : ℝ) : ℝ :=
  (n - 1) * gVal n p0 tc tb / tc - gVal n p0 tc tb * n * tc ^ (n - 1) / (tc ^ n - tb ^ n)

/-- `dgdtbath`, line 663. -/
noncomputable def dgdtb (n p0 tc tb : ℝ) : ℝ :=
  n * gVal n p0 tc tb * tb ^ (n - 1) / (tc ^ n - tb ^ n)

/-- `estimate_g`.  `_utils.py` lines 658-675.  `np.sum(jac.dot(cov.dot(jac.T)))` with a diagonal
`jac`. -/
noncomputable def estimateG (p0 tc tb p0err : ℝ) (cov : Option (Fin 3 → Fin 3 → ℝ)) (n : ℝ) :
    ℝ × ℝ :=
  let g := gVal n p0 tc tb
  match cov with
  | some c =>
    let jac : Fin 3 → Fin 3 → ℝ := fun i j =>
      if i = 0 ∧ j = 0 then dgdp n p0 tc tb
      else if i = 1 ∧ j = 1 then dgdtc n p0 tc tb
      else if i = 2 ∧ j = 2 then dgdtb n p0 tc tb
      else 0
    let covjt : Fin 3 → Fin 3 → ℝ := fun i j => ∑ k, c i k * jac j k
    let covout : Fin 3 → Fin 3 → ℝ := fun i j => ∑ k, jac i k * covjt k j
    (g, Real.sqrt (∑ i, ∑ j, covout i j))
  | none => (g, |p0err * g / p0|)

end Verif.Utils
