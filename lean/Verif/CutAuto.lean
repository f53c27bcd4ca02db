import Verif.Cut
import Verif.OFFun

/-!
Model of the cut stages and of `autocuts` (`/repo/qetpy/cut/_cut.py` lines 400-764).

Traces of `n` bins are `ZMod n → ℝ`; `fs` and `sgfreq` are not zero.  A computation may run out of fuel (`none`), raise, or return.
`choice` is the outcome of the random selection in `symmetrizedist`, `deg` the value of
`scipy.stats.skew` for constant data (see `Cut.lean`).
-/

namespace Verif.Cut
open Verif

/-- A computation: `none` when the fuel is used up. -/
abbrev Comp (α : Type*) := Option (Except Err α)

/-- Sequencing. -/
def Comp.andThen {α β : Type*} (c : Comp α) (f : α → Comp β) : Comp β :=
  match c with
  | none => none
  | some (.error e) => some (.error e)
  | some (.ok a) => f a

/-- `outlieralgo`. -/
inductive Algo where
  | removeoutliers
  | iterstat
  | other

/-- What is fixed during one call of `autocuts`. -/
structure Env where
  deg : Option ℝ
  fuel : ℕ
  choice : List ℕ → ℕ → List ℕ

variable {n : ℕ} [NeZero n]

/-- The outlier algorithm on a feature; `none` is an array of `nan`, on which both algorithms keep
everything.  An unknown name hits the undefined `ValueErrror`.
Lines 454-459, 535-540, 597-602, 652-657. -/
noncomputable def runAlgo (env : Env) (algo : Algo) (nsig : ℝ) (len : ℕ) (feat : Option (List ℝ)) :
    Comp (List Bool) :=
  match algo, feat with
  | .other, _ => some (.error .nameError)
  | _, none => some (.ok (List.replicate len true))
  | .removeoutliers, some l =>
      Cut.removeoutliers env.deg env.fuel (l.map fun v => ((v : ℝ) : WithTop ℝ)) 20 (1 / 20)
  | .iterstat, some l => (Cut.iterstat env.fuel l nsig 10000).map fun r => .ok r.mask

/-- Python's `round(n/2)` (half to even).  Lines 430, 632. -/
def roundHalf (n : ℕ) : ℕ := if n % 2 = 0 then n / 2 else if n / 2 % 2 = 0 then n / 2 else n / 2 + 1

/-- `dummytemplate` before normalisation.  Lines 431-438, 633-640. -/
noncomputable def rawTemplate (fs : ℝ) : ZMod n → ℝ := fun i =>
  let t : ℝ := 1 / fs * (((i.val : ℝ) + 1) - roundHalf n)
  if t < 0 then 0
  else (1 - Real.exp (-t / (10 / 1000000))) * Real.exp (-t / (100 / 1000000))

/-- `dummytemplate / max(dummytemplate)`.  Lines 439, 641. -/
noncomputable def dummyTemplate (fs : ℝ) : ZMod n → ℝ := fun i =>
  rawTemplate fs i / Finset.univ.sup' ⟨0, Finset.mem_univ _⟩ (rawTemplate (n := n) fs)

/-- The loop `ofamp(trace, dummytemplate, dummypsd, fs)` with `dummypsd = np.ones(nbin)`: amplitude
and chi-square of every trace.  Lines 441-452, 643-650. -/
noncomputable def ofAll (fs : ℝ) (traces : List (ZMod n → ℝ)) : Except Err (List (ℝ × ℝ)) :=
  traces.mapM fun x =>
    match OF.Fun.ofamp [x] (dummyTemplate fs) (fun _ => ((1 : ℝ) : WithTop ℝ)) fs true true none
        false false with
    | .error e => .error e
    | .ok l => .ok ((l.headD (0, 0, 0)).1, (l.headD (0, 0, 0)).2.2)

/-- `traces -= mean[:, np.newaxis]`.  Lines 444-446. -/
noncomputable def removeMean (x : ZMod n → ℝ) : ZMod n → ℝ := fun i => x i - (∑ j, x j) / n

/-- `pileupcut`; `len(traces[0])` raises IndexError without traces.  Lines 429-461. -/
noncomputable def pileupcut (env : Env) (fs : ℝ) (algo : Algo) (nsig : ℝ) (removemeans : Bool)
    (traces : List (ZMod n → ℝ)) : Comp (List Bool) :=
  if traces = [] then some (.error .indexError)
  else
    match ofAll fs (if removemeans then traces.map removeMean else traces) with
    | .error e => some (.error e)
    | .ok l => runAlgo env algo nsig traces.length (some (l.map fun p => |p.1|))

/-- `np.mean(traces[:, range(a, b)], axis=1)`: IndexError outside `-n .. n-1`, `nan` for an empty
range.  Lines 519-520, 594. -/
noncomputable def colMean (traces : List (ZMod n → ℝ)) (a b : ℤ) : Except Err (Option (List ℝ)) :=
  if b ≤ a then .ok none
  else if a < -(n : ℤ) ∨ (n : ℤ) < b then .error .indexError
  else .ok (some (traces.map fun x =>
    ((List.range (b - a).toNat).map fun (i : ℕ) => x (((a + i : ℤ)) : ZMod n)).sum / (b - a : ℤ)))

/-- `sloperangebegin` (bounds).  Lines 501-517, 580-592. -/
noncomputable def beginRange (n : ℕ) (fs sgfreq : ℝ) (didv : Bool) : ℤ × ℤ :=
  let nperiods : ℤ := ⌊(n : ℝ) / fs * sgfreq⌋
  let b := fs / sgfreq
  if didv then
    if nperiods > 1 then (OF.trunc (b / 4), OF.trunc (3 * b / 8))
    else (OF.trunc (b / 4), OF.trunc (5 * b / 16))
  else (0, OF.trunc ((n : ℝ) / 10))

/-- `sloperangeend` (bounds).  Lines 501-517. -/
noncomputable def endRange (n : ℕ) (fs sgfreq : ℝ) (didv : Bool) : ℤ × ℤ :=
  let nperiods : ℤ := ⌊(n : ℝ) / fs * sgfreq⌋
  let b := fs / sgfreq
  if didv then
    if nperiods > 1 then
      (OF.trunc (((nperiods : ℝ) - 1) * b + b / 4), OF.trunc (((nperiods : ℝ) - 1) * b + 3 * b / 8))
    else (OF.trunc (5 * b / 16), OF.trunc (3 * b / 8))
  else (OF.trunc (9 * n / 10), n)

/-- `slopes = traceend - tracebegin` (`none`: all `nan`).  Lines 497-525. -/
noncomputable def slopes (fs sgfreq : ℝ) (didv : Bool) (traces : List (ZMod n → ℝ)) :
    Except Err (Option (List ℝ)) :=
  match colMean traces (beginRange n fs sgfreq didv).1 (beginRange n fs sgfreq didv).2,
    colMean traces (endRange n fs sgfreq didv).1 (endRange n fs sgfreq didv).2 with
  | .error e, _ => .error e
  | _, .error e => .error e
  | .ok (some l), .ok (some r) => .ok (some (List.zipWith (fun b e => e - b) l r))
  | _, _ => .ok none

/-- `mask[inds] = True`. -/
def setTrue (mask : List Bool) (inds : List ℕ) : List Bool :=
  mask.mapIdx fun i b => b || inds.contains i

/-- `slopecut`.  Lines 497-546.  The mask starts from `np.ones`, line 543. -/
noncomputable def slopecut (env : Env) (fs : ℝ) (algo : Algo) (nsig : ℝ) (didv symmetrize : Bool)
    (sgfreq : ℝ) (traces : List (ZMod n → ℝ)) : Comp (List Bool) :=
  if traces = [] then some (.error .indexError)
  else
    match slopes fs sgfreq didv traces with
    | .error e => some (.error e)
    | .ok feat =>
      let zero : Except Err (List ℕ) :=
        match symmetrize, feat with
        | true, some l =>
          match symmetrizedist env.choice l with
          | .error e => .error e
          | .ok m => .ok (whereTrue m)
        | _, _ => .ok (List.range traces.length)
      match zero with
      | .error e => some (.error e)
      | .ok inds =>
        (runAlgo env algo nsig inds.length
          (feat.map fun l => inds.map fun (i : ℕ) => l.getD i 0)).andThen fun c =>
            some (.ok (setTrue (List.replicate traces.length true) (sel inds c)))

/-- `baselinecut`.  Lines 577-604. -/
noncomputable def baselinecut (env : Env) (fs : ℝ) (algo : Algo) (nsig : ℝ) (didv : Bool)
    (sgfreq : ℝ) (traces : List (ZMod n → ℝ)) : Comp (List Bool) :=
  if traces = [] then some (.error .indexError)
  else
    match colMean traces (beginRange n fs sgfreq didv).1 (beginRange n fs sgfreq didv).2 with
    | .error e => some (.error e)
    | .ok feat => runAlgo env algo nsig traces.length feat

/-- `chi2cut`.  Lines 631-659. -/
noncomputable def chi2cut (env : Env) (fs : ℝ) (algo : Algo) (nsig : ℝ)
    (traces : List (ZMod n → ℝ)) : Comp (List Bool) :=
  if traces = [] then some (.error .indexError)
  else
    match ofAll fs traces with
    | .error e => some (.error e)
    | .ok l => runAlgo env algo nsig traces.length (some (l.map fun p => p.2))

/-- The arguments of `autocuts`. -/
structure AutoArgs where
  fs : ℝ
  didv : Bool
  sgfreq : ℝ
  symmetrize : Bool
  algo : Algo
  pileup1 : Bool
  slope : Bool
  baseline : Bool
  pileup2 : Bool
  chi2 : Bool
  nsigpileup1 : ℝ
  nsigslope : ℝ
  nsigbaseline : ℝ
  nsigpileup2 : ℝ
  nsigchi2 : ℝ

/-- `traces[inds]` for an index array. -/
def takeIdx {α : Type*} [Inhabited α] (l : List α) (inds : List ℕ) : List α :=
  inds.map fun (i : ℕ) => l.getD i default

/-- `autocuts`.  Lines 721-764. -/
noncomputable def autocuts (env : Env) (a : AutoArgs) (traces : List (ZMod n → ℝ)) :
    Comp (List Bool) :=
  -- pileup cut
  Comp.andThen
    (if a.pileup1 then
      (pileupcut env a.fs a.algo a.nsigpileup1 false traces).andThen fun c =>
        some (.ok (whereTrue c))
     else some (.ok (List.range traces.length))) fun i1 =>
  -- slope cut
  Comp.andThen
    (if a.slope then
      slopecut env a.fs a.algo a.nsigslope a.didv a.symmetrize a.sgfreq (takeIdx traces i1)
     else some (.ok (List.replicate i1.length true))) fun c2 =>
  let i2 := sel i1 c2
  -- baseline cut
  Comp.andThen
    (if a.baseline then
      baselinecut env a.fs a.algo a.nsigbaseline a.didv a.sgfreq (takeIdx traces i2)
     else some (.ok (List.replicate i2.length true))) fun c3 =>
  let i3 := sel i2 c3
  -- pileup cut on the mean subtracted data
  Comp.andThen
    (if a.pileup2 && a.didv then
      pileupcut env a.fs a.algo a.nsigpileup2 true (takeIdx traces i3)
     else some (.ok (List.replicate i3.length true))) fun c4 =>
  let i4 := sel i3 c4
  -- chi2 cut
  Comp.andThen
    (if a.chi2 then chi2cut env a.fs .iterstat a.nsigchi2 (takeIdx traces i4)
     else some (.ok (List.replicate i4.length true))) fun c5 =>
  some (.ok (setTrue (List.replicate traces.length false) (sel i4 c5)))

end Verif.Cut
