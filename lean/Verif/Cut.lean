import Verif.Np
import Mathlib.Analysis.Real.Sqrt
import Mathlib.Data.Nat.Sqrt
import Mathlib.Algebra.Order.Monoid.WithTop
import Mathlib.LinearAlgebra.Matrix.NonsingularInverse

/-!
Model of the outlier tools of `/repo/qetpy/cut/_cut.py`: `removeoutliers`, `iterstat`, `itercov`,
`symmetrizedist`.

The data contain no `nan` and no `-inf`.  Loops take fuel; running out of fuel is `none`.  `scipy.stats.skew`, `np.median`, `np.cov`,
`np.histogram` and `np.random.choice` are written out or appear as parameters (see the comments).
-/

namespace Verif.Cut
open Verif

/-! ### Boolean indexing and statistics (numpy/scipy primitives) -/

/-- Boolean indexing `data[mask]`. -/
def sel {α : Type*} (data : List α) (mask : List Bool) : List α :=
  (data.zip mask).filterMap fun p => if p.2 then some p.1 else none

/-- `np.mean` of a non-empty array. -/
noncomputable def avg (l : List ℝ) : ℝ := l.sum / l.length

/-- The `k`-th central moment of a non-empty array. -/
noncomputable def moment (k : ℕ) (l : List ℝ) : ℝ := avg (l.map fun x => (x - avg l) ^ k)

/-- `np.std` of a non-empty array. -/
noncomputable def std (l : List ℝ) : ℝ := Real.sqrt (moment 2 l)

/-- `scipy.stats.skew`: `m3 / m2**1.5`; `nan` (`none`) for an empty array.  For constant data older
scipy versions return `0` and newer ones `nan`: that value is the parameter `deg`. -/
noncomputable def skew (deg : Option ℝ) (l : List ℝ) : Option ℝ :=
  if l = [] then none
  else if moment 2 l = 0 then deg
  else some (moment 3 l / Real.sqrt (moment 2 l) ^ 3)

/-- `np.median` of a non-empty array. -/
noncomputable def median (l : List ℝ) : ℝ :=
  let s := l.mergeSort fun a b => decide (a ≤ b)
  if l.length % 2 = 1 then s.getD (l.length / 2) 0
  else (s.getD (l.length / 2 - 1) 0 + s.getD (l.length / 2) 0) / 2

/-- The finite entries. -/
noncomputable def finite (l : List (WithTop ℝ)) : List ℝ :=
  l.filterMap fun v => WithTop.recTopCoe (C := fun _ => Option ℝ) none some v

/-! ### removeoutliers -/

/-- One pass of the `while` loop: the new `inds`.  `min`/`max` of an empty array raise ValueError.
Lines 42-44. -/
noncomputable def roPass (x : List (WithTop ℝ)) (inds : List Bool) : Except Err (List Bool) :=
  let med := median (finite (sel x inds))
  let dmed : List (WithTop ℝ) := x.map (WithTop.map fun v => v - med)
  match dmed.min?, dmed.max? with
  | some lo, some hi =>
    let dist : WithTop ℝ := min (lo.map fun v => |v|) (hi.map fun v => |v|)
    .ok (List.zipWith (fun b d => b && decide (WithTop.map (fun v : ℝ => |v|) d < dist)) inds dmed)
  | _, _ => .error .valueError

/-- `sk > skewtarget` (`False` when `sk` is `nan`). -/
def above (sk : Option ℝ) (target : ℝ) : Prop := ∃ s, sk = some s ∧ target < s

open Classical in
/-- The `while` loop, lines 41-48; `hist` collects the masks seen so far, latest first. -/
noncomputable def roLoop (deg : Option ℝ) (x : List (WithTop ℝ)) (maxiter : ℤ) (target : ℝ) :
    ℕ → ℤ → List Bool → List (List Bool) → Option (Except Err (List (List Bool)))
  | 0, _, _, _ => none
  | fuel + 1, i, inds, hist =>
    if above (skew deg (finite (sel x inds))) target then
      match roPass x inds with
      | .error e => some (.error e)
      | .ok inds' =>
        if i > maxiter then some (.ok (inds' :: inds :: hist))
        else roLoop deg x maxiter target fuel (i + 1) inds' (inds :: hist)
    else some (.ok (inds :: hist))

/-- The masks `inds` held during `removeoutliers`, latest first.  Lines 38-50. -/
noncomputable def roMasks (deg : Option ℝ) (fuel : ℕ) (x : List (WithTop ℝ)) (maxiter : ℤ)
    (target : ℝ) : Option (Except Err (List (List Bool))) :=
  roLoop deg x maxiter target fuel 1 (x.map fun v => decide (v ≠ ⊤)) []

/-- `removeoutliers`: the last mask.  Line 50. -/
noncomputable def removeoutliers (deg : Option ℝ) (fuel : ℕ) (x : List (WithTop ℝ)) (maxiter : ℤ)
    (target : ℝ) : Option (Except Err (List Bool)) :=
  (roMasks deg fuel x maxiter target).map fun r => r.map fun h => h.headD []

/-! ### iterstat -/

/-- What `iterstat` returns (`nan` is `none`). -/
structure Stat where
  mean : Option ℝ
  std : Option ℝ
  mask : List Bool

/-- `np.std(data)/precision`; division by zero gives `inf` (or `nan`, for which every comparison
`> stdcutoff` is equally false).  Line 179. -/
noncomputable def stdcutoff (data : List ℝ) (precision : ℝ) : WithTop ℝ :=
  if precision = 0 then ⊤ else ((std data / precision : ℝ) : WithTop ℝ)

/-- `abs(data - meanlast) < cut*stdlast`.  Line 188. -/
noncomputable def isMask (data : List ℝ) (cut mean std : ℝ) : List Bool :=
  data.map fun x => decide (|x - mean| < cut * std)

open Classical in
/-- The `while` loop on non-empty data.  Lines 187-211. -/
noncomputable def isLoop (data : List ℝ) (cut : ℝ) (cutoff : WithTop ℝ) :
    ℕ → ℝ → ℝ → ℕ → Option Stat
  | 0, _, _, _ => none
  | fuel + 1, meanlast, stdlast, nstable =>
    let mask := isMask data cut meanlast stdlast
    if mask.count true ≤ 1 then
      some ⟨some (avg data), some (std data), List.replicate data.length true⟩
    else
      let meanthis := avg (sel data mask)
      let stdthis := std (sel data mask)
      let nstable' :=
        if cutoff < ((|meanthis - meanlast| : ℝ) : WithTop ℝ) ∨
            cutoff < ((|stdthis - stdlast| : ℝ) : WithTop ℝ) then 0 else nstable + 1
      if nstable' ≥ 3 then some ⟨some meanthis, some stdthis, mask⟩
      else isLoop data cut cutoff fuel meanthis stdthis nstable'

/-- `iterstat` with `return_unbiased_estimates=False`.  Lines 179-217.  For empty data the mean and
standard deviation are `nan`, the mask is empty and the fallback of lines 189-198 returns. -/
noncomputable def iterstat (fuel : ℕ) (data : List ℝ) (cut precision : ℝ) : Option Stat :=
  if data = [] then some ⟨none, none, []⟩
  else isLoop data cut (stdcutoff data precision) fuel (avg data) (std data) 0

/-! ### itercov -/

/-- The positional arguments of `itercov`. -/
inductive CovArgs where
  | scalars (v : List ℝ)                       -- numbers
  | vectors (v : List (List ℝ))                -- 1-d arrays, one per variable
  | arrays (v : List (ℕ × List (List ℝ)))      -- 2-d arrays: number of columns, rows

/-- The number of variables and the events, or the error raised.  `np.shape` of ragged arguments
raises ValueError.  With several 2-d arrays only the first is used.  Lines 258-272. -/
def covData : CovArgs → Except Err (ℕ × List (List ℝ))
  | .scalars _ => .error .valueError
  | .vectors [] => .error .valueError
  | .vectors (v :: vs) =>
    if vs.all fun w => w.length = v.length then
      if vs = [] then .error .valueError
      else .ok (vs.length + 1,
        (List.range v.length).map fun (i : ℕ) => (v :: vs).map fun w => w.getD i 0)
    else .error .valueError
  | .arrays [] => .error .valueError
  | .arrays (a :: as) =>
    if as.all fun b => b.1 = a.1 ∧ b.2.length = a.2.length then
      if a.1 = 1 then .error .valueError else .ok a
    else .error .valueError

variable {d : ℕ}

/-- `np.mean(data, axis=1)` (events as a list of vectors). -/
noncomputable def vmean (ev : List (Fin d → ℝ)) : Fin d → ℝ :=
  fun i => avg (ev.map fun x => x i)

/-- `np.cov(data)` of at least two events. -/
noncomputable def vcov (ev : List (Fin d → ℝ)) : Matrix (Fin d) (Fin d) ℝ :=
  fun i j => (ev.map fun x => (x i - vmean ev i) * (x j - vmean ev j)).sum / ((ev.length : ℝ) - 1)

/-- What `itercov` returns; `none` is `nan`. -/
structure CovStat (d : ℕ) where
  mean : Option (Fin d → ℝ)
  cov : Option (Matrix (Fin d) (Fin d) ℝ)
  mask : List Bool

/-- The mask of one pass.  Lines 296-301. -/
noncomputable def covMask (ev : List (Fin d → ℝ)) (mean : Fin d → ℝ)
    (cov : Matrix (Fin d) (Fin d) ℝ) (maxchi2 threshold : ℝ) : List Bool :=
  ev.map fun x =>
    decide (∑ i, (x i - mean i) * (cov⁻¹.mulVec fun j => x j - mean j) i < maxchi2) &&
      decide (∀ i, |x i - mean i| < Real.sqrt (cov i i) * threshold)

open Classical in
/-- The `while` loop; `np.linalg.inv` raises LinAlgError for a singular matrix.
Returns also the number of passes.  Lines 295-330. -/
noncomputable def covLoop (ev : List (Fin d → ℝ)) (maxchi2 threshold : ℝ) (maxiter : ℤ)
    (errmean : Fin d → ℝ) (errcov : ℝ) :
    ℕ → (Fin d → ℝ) → Matrix (Fin d) (Fin d) ℝ → ℕ → ℕ → Option (Except Err (CovStat d × ℕ))
  | 0, _, _, _, _ => none
  | fuel + 1, mean, cov, nstable, jj =>
    if cov.det = 0 then some (.error .linAlgError)
    else
      let mask := covMask ev mean cov maxchi2 threshold
      if mask.count true ≤ 1 then
        some (.ok (⟨some (vmean ev), some (vcov ev), List.replicate ev.length true⟩, jj + 1))
      else
        let mean' := vmean (sel ev mask)
        let cov' := vcov (sel ev mask)
        let nstable' :=
          if (∃ i, errmean i < |mean' i - mean i|) ∨ (∃ i j, errcov < |cov' i j - cov i j|) then 0
          else nstable + 1
        if nstable' ≥ 2 ∨ (jj : ℤ) > maxiter then
          some (.ok (⟨some mean', some cov', mask⟩, jj + 1))
        else covLoop ev maxchi2 threshold maxiter errmean errcov fuel mean' cov' nstable' (jj + 1)

/-- Lines 274-332 on the events.  With fewer than two events the covariance is `nan`, no event
passes and the fallback of lines 304-313 returns (mean `nan` as well if there is no event).
`ppf` is `sqrt(scipy.stats.chi2.ppf(0.95**(1/ndim), 1))`. -/
noncomputable def itercovEv (ppf : ℕ → ℝ) (fuel : ℕ) (ev : List (Fin d → ℝ)) (nsigma : ℝ)
    (threshold : Option ℝ) (maxiter : ℤ) (fracerr : ℝ) : Option (Except Err (CovStat d × ℕ)) :=
  if ev = [] then some (.ok (⟨none, none, []⟩, 1))
  else if ev.length = 1 then some (.ok (⟨some (vmean ev), none, [true]⟩, 1))
  else
    let thr := threshold.getD (max 3 (ppf d))
    let cov := vcov ev
    covLoop ev (d + nsigma * Real.sqrt (2 * d)) thr maxiter
      (fun i => fracerr * Real.sqrt (cov i i)) (fracerr * ∑ i, Real.sqrt (cov i i) ^ 2)
      fuel (vmean ev) cov 0 0

/-- `itercov`.  Lines 258-332. -/
noncomputable def itercov (ppf : ℕ → ℝ) (fuel : ℕ) (args : CovArgs) (nsigma : ℝ)
    (threshold : Option ℝ) (maxiter : ℤ) (fracerr : ℝ) :
    Option (Except Err ((d : ℕ) × CovStat d × ℕ)) :=
  match covData args with
  | .error e => some (.error e)
  | .ok (d, ev) =>
    (itercovEv ppf fuel (ev.map fun r (i : Fin d) => r.getD i 0) nsigma threshold maxiter
      fracerr).map fun r => r.map fun s => ⟨d, s⟩

/-! ### symmetrizedist -/

/-- `int(np.sqrt(nvals))`, plus one if even.  Lines 367-369. -/
def histbins (n : ℕ) : ℕ := if n.sqrt % 2 = 0 then n.sqrt + 1 else n.sqrt

/-- `bin_edges[b]` of `np.histogram(vals, bins=hb, range=(-u, u))`. -/
noncomputable def edge (u : ℝ) (hb b : ℕ) : ℝ := -u + b * (2 * u / hb)

/-- `v` is counted in bin `b`: half-open bins, the last one closed (numpy convention). -/
def inBin (u : ℝ) (hb b : ℕ) (v : ℝ) : Prop :=
  edge u hb b ≤ v ∧ (v < edge u hb (b + 1) ∨ (b + 1 = hb ∧ v = edge u hb hb))

open Classical in
/-- `hist_num[b]`. -/
noncomputable def histNum (vals : List ℝ) (u : ℝ) (hb b : ℕ) : ℕ :=
  vals.countP fun v => decide (inBin u hb b v)

/-- `np.where(mask)[0]`. -/
def whereTrue (mask : List Bool) : List ℕ :=
  (List.range mask.length).filter fun i => mask.getD i false

/-- Assign `False` at the given indices. -/
def clear (mask : List Bool) (inds : List ℕ) : List Bool :=
  mask.mapIdx fun i b => b && !(inds.contains i)

/-- One iteration of the `for` loop: the part of bin `hb-ibin-2` that is kept.
`choice l k` is `np.random.choice(l, k, replace=False)`.  Lines 382-389. -/
noncomputable def symBin (choice : List ℕ → ℕ → List ℕ) (vals : List ℝ) (u : ℝ) (hb ibin : ℕ) :
    List Bool :=
  let cin := vals.map fun v =>
    decide (v < edge u hb (hb - ibin - 1)) && decide (edge u hb (hb - ibin - 2) ≤ v)
  let rem : ℤ := (histNum vals u hb (hb - ibin - 2) : ℤ) - histNum vals u hb (ibin + 1)
  if rem > 0 then clear cin (choice (whereTrue cin) rem.toNat) else cin

/-- `symmetrizedist`.  Lines 353-398.  The call of `iterstat` (line 356) only feeds the assignment
`vals = vals`; it is left out (it returns: `iterstat_returns`).  `max` of an empty array raises
ValueError. -/
noncomputable def symmetrizedist (choice : List ℕ → ℕ → List ℕ) (vals : List ℝ) :
    Except Err (List Bool) :=
  match vals.max? with
  | none => .error .valueError
  | some u =>
    let hb := histbins vals.length
    if u > 0 then
      if hb > 2 then
        let init := vals.map fun v => decide (v > edge u hb (hb / 2))
        .ok ((List.range' (hb / 2) (hb - 1 - hb / 2)).foldl
          (fun m ibin => List.zipWith (· || ·) m (symBin choice vals u hb ibin)) init)
      else .ok (List.replicate vals.length true)
    else .ok (List.replicate vals.length true)

/-! ### get_muon_cut -/

/-- `get_muon_cut`: `arr` (line 803) is not defined, so the first trace that reaches the test raises
NameError; `np.max` of an empty trace raises ValueError before.  Lines 793-806. -/
def getMuonCut (traces : List (List ℝ)) : Except Err (List Bool) :=
  match traces with
  | [] => .ok []
  | [] :: _ => .error .valueError
  | (_ :: _) :: _ => .error .nameError

end Verif.Cut
