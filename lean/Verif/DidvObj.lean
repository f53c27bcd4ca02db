import Verif.DidvWave
import Verif.OF

/-! Model of the DIDV and DIDVPriors classes: processing of traces, starting guesses, the bounded fit with
the optimiser as a parameter, results (`/repo/qetpy/core/didv/_base_didv.py`, `_didv.py`,
`_didv_priors.py`). -/

namespace Verif.Didv
open Verif Dft OF

/-- A result dictionary: the fit parameters, their covariance, the fall times, the cost, the small signal
parameters and `didv0`. -/
structure Result where
  params : List ℝ
  cov : List (List ℝ)
  falltimes : List ℝ
  cost : ℝ
  ssp : List ℝ
  didv0 : ℝ

/-- The attributes set by `processtraces` and used by the fits.  Arrays are functions of the index with
their length `nbins`. -/
structure Proc where
  nbins : ℕ
  time : ℕ → ℝ
  tmean : ℕ → ℝ
  flatinds : List ℤ
  didvmean : ℕ → ℂ
  didvstd : ℕ → ℂ
  offset : ℝ
  offsetErr : ℝ

/-- The object.  `raw` are the raw traces, each of `nraw` bins; `proc` is `none` while `_tmean` is `None`. -/
structure Obj where
  raw : List (ℕ → ℝ)
  nraw : ℕ
  fs : ℝ
  sgfreq : ℝ
  sgamp : ℝ
  rsh : ℝ
  gain : ℝ
  r0 : ℝ
  rp : ℝ
  duty : ℝ
  add180 : Bool
  dt0 : ℝ
  proc : Option Proc
  res1 : Option Result
  res2 : Option Result
  res3 : Option Result

/-! ### Construction and processing -/

/-- `_BaseDIDV.__init__`.  Lines 439-494.  `resample` is `resample_data`, which returns the traces and their
sample rate.  A zero `sgfreq` gives `nan`, which differs from zero. -/
noncomputable def create (resample : List (ℕ → ℝ) → ℕ → ℝ → ℝ → (List (ℕ → ℝ) × ℕ × ℝ))
    (raw : List (ℕ → ℝ)) (nraw : ℕ) (fs sgfreq sgamp rsh gain r0 rp duty : ℝ) (add180 : Bool)
    (dt0 : ℝ) (autoresample : Bool) : Except Err Obj :=
  let bad : Prop := sgfreq = 0 ∨ fs - sgfreq * ⌊fs / sgfreq⌋ ≠ 0
  open Classical in
  if bad ∧ autoresample = false then .error .valueError
  else if bad then
    let r := resample raw nraw fs sgfreq
    .ok ⟨r.1, r.2.1, r.2.2, sgfreq, sgamp, rsh, gain, r0, rp, duty, add180, dt0, none, none, none, none⟩
  else .ok ⟨raw, nraw, fs, sgfreq, sgamp, rsh, gain, r0, rp, duty, add180, dt0, none, none, none, none⟩

/-- Mean of a non-empty list. -/
noncomputable def lmean (l : List ℝ) : ℝ := l.sum / l.length

/-- `np.std`. -/
noncomputable def lstd (l : List ℝ) : ℝ := Real.sqrt (lmean (l.map fun x => (x - lmean l) ^ 2))

/-- `np.mean` of complex numbers. -/
noncomputable def cmean (l : List ℂ) : ℂ := l.sum / l.length

/-- `stdcomplex`.  Lines 45-69. -/
noncomputable def stdcomplex (l : List ℂ) : ℂ := ⟨lstd (l.map Complex.re), lstd (l.map Complex.im)⟩

/-- `_deconvolvedidv` on the first `nb` samples of a trace, element `k`. -/
noncomputable def deconvAt (nb : ℕ) (dx : ℝ) (tr : ℕ → ℝ) (rsh sgamp sgfreq duty : ℝ) (k : ℕ) :
    Except Err ℂ × Bool :=
  match nb with
  | 0 => (.error .nan, false)
  | m + 1 => deconvolve (n := m + 1) dx (fun j => tr j.val) rsh sgamp sgfreq duty (k : ZMod (m + 1))

/-- The value at element `k` (zero for `nan`; used for traces without `nan`). -/
noncomputable def deconvVal (nb : ℕ) (dx : ℝ) (tr : ℕ → ℝ) (rsh sgamp sgfreq duty : ℝ) (k : ℕ) : ℂ :=
  match (deconvAt nb dx tr rsh sgamp sgfreq duty k).1 with
  | .ok y => y
  | .error _ => 0

/-- `flatinds`, before and after the restriction to the trace.  Lines 976-994 and `_didv.py` 96-116. -/
noncomputable def flatInds (nper nb : ℕ) (fs sgfreq dt0 : ℝ) : List ℤ :=
  ((List.range nper).flatMap fun (i : ℕ) =>
    let lo : ℤ := trunc (((i : ℝ) + 1 / 4) * (fs / sgfreq)) + trunc (dt0 * fs)
    let hi : ℤ := trunc (((i : ℝ) + 48 / 100) * (fs / sgfreq)) + trunc (dt0 * fs)
    (List.range (hi - lo).toNat).map fun (j : ℕ) => lo + j).filter fun i => 0 < i ∧ i < nb

/-- Number of periods in the raw trace.  Line 958. -/
noncomputable def nPeriods (nraw : ℕ) (fs sgfreq : ℝ) : ℕ :=
  ⌊(nraw : ℝ) * (1 / fs) / (1 / sgfreq)⌋.toNat

/-- Number of bins kept.  Lines 962-971. -/
noncomputable def nBins (nraw : ℕ) (fs sgfreq : ℝ) : ℕ :=
  (trunc ((nPeriods nraw fs sgfreq : ℝ) * fs / sgfreq)).toNat

/-- `processtraces` shifts the offset first.  Lines 951-954. -/
noncomputable def shiftDt0 (o : Obj) : Obj :=
  { o with dt0 := if o.add180 then o.dt0 + 1 / (2 * o.sgfreq) else o.dt0 }

open Classical in
/-- The traces without `nan` in their deconvolution.  Lines 969, 996-1018. -/
noncomputable def keptTraces (o : Obj) (nb : ℕ) : List (ℕ → ℝ) :=
  (o.raw.map fun t i => t i / o.gain).filter fun t => decide (∀ k < nb, ∃ y,
    (deconvAt nb (1 / o.fs) t o.rsh o.sgamp o.sgfreq o.duty k).1 = .ok y)

/-- The attributes computed from the traces kept.  Lines 956, 976-994, 1020-1041. -/
noncomputable def procOf (o : Obj) (nb : ℕ) (traces : List (ℕ → ℝ)) : Proc :=
  let tmean : ℕ → ℝ := fun i => lmean (traces.map fun t => t i)
  let zero : ℕ → Bool := fun k => (deconvAt nb (1 / o.fs) tmean o.rsh o.sgamp o.sgfreq o.duty k).2
  let didvs : ℕ → List ℂ := fun k =>
    traces.map fun t => deconvVal nb (1 / o.fs) t o.rsh o.sgamp o.sgfreq o.duty k
  let means : List ℝ := traces.map fun t => lmean ((List.range nb).map t)
  { nbins := nb
    time := fun i => i * (1 / o.fs) - o.dt0
    tmean := tmean
    flatinds := flatInds (nPeriods o.nraw o.fs o.sgfreq) nb o.fs o.sgfreq o.dt0
    didvmean := fun k => cmean (didvs k)
    didvstd := fun k => if zero k then (1 + Complex.I) * 10 ^ 20
      else stdcomplex (didvs k) / Real.sqrt traces.length
    offset := lmean means
    offsetErr := lstd means / Real.sqrt traces.length }

open Classical in
/-- `processtraces`.  Lines 936-1041.  Fewer than two bins raise IndexError when the time step is computed.
When no trace is kept all further arrays are `nan`, here an error. -/
noncomputable def processtraces (o : Obj) : Except Err Unit × Obj :=
  if o.raw = [] then (.error .indexError, o)
  else if nBins o.nraw o.fs o.sgfreq < 2 then (.error .indexError, shiftDt0 o)
  else if keptTraces o (nBins o.nraw o.fs o.sgfreq) = [] then (.error .nan, shiftDt0 o)
  else (.ok (), { shiftDt0 o with
    proc := some (procOf (shiftDt0 o) (nBins o.nraw o.fs o.sgfreq)
      (keptTraces o (nBins o.nraw o.fs o.sgfreq))) })

/-! ### Starting guesses -/

/-- Largest element (zero for an empty list, which is not reached). -/
noncomputable def lmax (l : List ℝ) : ℝ := l.foldr max (l.headD 0)

/-- Smallest element. -/
noncomputable def lmin (l : List ℝ) : ℝ := l.foldr min (l.headD 0)

/-- `_squarewaveguessparams`.  Lines 694-702. -/
noncomputable def squareGuess (trace : List ℝ) (sgamp rsh : ℝ) : Except Err (ℝ × ℝ) :=
  if lmax trace - lmin trace = 0 then .error .nan
  else .ok (sgamp * rsh / (lmax trace - lmin trace), 1 / 10 ^ 6)

/-- `isloopgainsub1` of `_guessdidvparams`.  Lines 713-719.  The mean of no points is `nan`, and the
comparison false. -/
noncomputable def guessSub1 (trace flat : List ℝ) : Bool :=
  if flat = [] then false else decide (lmean flat < lmean trace)

/-- The other outputs of `_guessdidvparams`.  Lines 713-750.  `nan` and infinities are errors. -/
noncomputable def guessParams (trace flat : List ℝ) (sgamp rsh L0 : ℝ) : Except Err (ℝ × ℝ × ℝ × ℝ) :=
  if flat = [] ∨ sgamp * rsh = 0 then .error .nan
  else
    let didv0 := 2 * |lmean flat - lmean trace| / (sgamp * rsh)
    let didvflat := (lmax trace - lmean flat) / (sgamp * rsh)
    if didv0 = 0 ∨ didvflat = 0 then .error .nan
    else
      let A0 := 1 / didvflat
      if guessSub1 trace flat then
        let B0 := 1 / didv0 - A0
        .ok (A0, if B0 > 0 then -B0 else B0, -100 / 10 ^ 6, L0 / A0)
      else .ok (A0, -1 / didv0 - A0, -100 / 10 ^ 7, L0 / A0)

/-! ### The fit -/

/-- Output of the optimiser and of the inversion of `jacᵀ jac`, which may fail. -/
structure LsOut where
  x : List ℝ
  cost : ℝ
  cov : Except Err (List (List ℝ))

/-- The interior of `scipy.optimize.least_squares`: residual, starting point and bounds. -/
abbrev LS := (List ℝ → Except Err (List ℝ)) → List ℝ → List (Option ℝ × Option ℝ) → LsOut

/-- A value between its bounds; `none` is an infinite bound. -/
def inB (x : ℝ) (b : Option ℝ × Option ℝ) : Prop := (∀ l ∈ b.1, l ≤ x) ∧ (∀ u ∈ b.2, x ≤ u)

open Classical in
/-- `least_squares` raises ValueError if the starting point is not within the bounds, if a scale is not
positive, and if the residuals at the starting point are not finite. -/
noncomputable def leastSquares (ls : LS) (res : List ℝ → Except Err (List ℝ)) (p0 : List ℝ)
    (bounds : List (Option ℝ × Option ℝ)) (xscale : List ℝ) : Except Err LsOut :=
  if ¬ List.Forall₂ inB p0 bounds then .error .valueError
  else if ∃ s ∈ xscale, s ≤ 0 then .error .valueError
  else match res p0 with
    | .error _ => .error .valueError
    | .ok _ => .ok (ls res p0 bounds)

/-- The admittance of a list of fit parameters at one frequency, with the time shift.
`_didv.py` lines 266-282. -/
noncomputable def fitY (f : ℝ) (params : List ℝ) : Except Err ℂ :=
  match params with
  | [A, tau2, dt] => (onePoleY f A tau2).map fun y => y * Complex.exp (-2 * Complex.I * Real.pi * f * dt)
  | [A, B, tau1, tau2, dt] =>
    (twoPoleY f A B tau1 tau2).map fun y => y * Complex.exp (-2 * Complex.I * Real.pi * f * dt)
  | [A, B, C, tau1, tau2, tau3, dt] =>
    (threePoleY f A B C tau1 tau2 tau3).map fun y => y * Complex.exp (-2 * Complex.I * Real.pi * f * dt)
  | _ => .error .valueError

/-- One data point: frequency, admittance and complex standard deviation. -/
structure Pt where
  f : ℝ
  y : ℂ
  err : ℂ

/-- `_residual`.  `_didv.py` lines 258-298.  A zero standard deviation gives infinities or `nan`. -/
noncomputable def residual (pts : List Pt) (params : List ℝ) : Except Err (List ℝ) :=
  match pts with
  | [] => .ok []
  | p :: ps =>
    match fitY p.f params, residual ps params with
    | .ok c, .ok r =>
      if p.err.re = 0 ∨ p.err.im = 0 then .error .nan
      else .ok ((p.y - c).re * (1 / p.err.re) :: (p.y - c).im * (1 / p.err.im) :: r)
    | .error e, _ => .error e
    | _, .error e => .error e

/-- Starting point and the two sets of bounds.  `_didv.py` lines 215-256. -/
def starts (poles : ℕ) (A0 B0 C0 tau10 tau20 tau30 dt : ℝ) :
    List ℝ × List (Option ℝ × Option ℝ) × List ℝ × List (Option ℝ × Option ℝ) :=
  let pos : Option ℝ × Option ℝ := (some 0, none)
  let neg : Option ℝ × Option ℝ := (none, some 0)
  let free : Option ℝ × Option ℝ := (none, none)
  if poles = 1 then
    ([A0, tau20, dt], [pos, pos, free], [-A0, tau20, dt], [neg, pos, free])
  else if poles = 2 then
    ([A0, B0, tau10, tau20, dt], [pos, neg, neg, pos, free],
      [A0, -B0, -tau10, tau20, dt], [pos, pos, pos, pos, free])
  else
    ([A0, B0, C0, tau10, tau20, tau30, dt], [pos, neg, neg, neg, pos, pos, free],
      [A0, -B0, -C0, -tau10, tau20, tau30, dt], [pos, pos, pos, pos, pos, pos, free])

/-- `DIDV._fitdidv`.  `_didv.py` lines 205-357. -/
noncomputable def fitdidv (ls : LS) (pts : List Pt) (poles : ℕ) (A0 B0 C0 tau10 tau20 tau30 dt : ℝ)
    (sub1 : Option Bool) : Except Err (List ℝ × List (List ℝ) × ℝ) :=
  let s := starts poles A0 B0 C0 tau10 tau20 tau30 dt
  let scale := s.1.map abs
  let fin (r : LsOut) : Except Err (List ℝ × List (List ℝ) × ℝ) :=
    match r.cov with
    | .error e => .error e
    | .ok c => .ok (r.x, c, r.cost)
  match sub1 with
  | none =>
    match leastSquares ls (residual pts) s.1 s.2.1 scale with
    | .error e => .error e
    | .ok r1 =>
      match leastSquares ls (residual pts) s.2.2.1 s.2.2.2 scale with
      | .error e => .error e
      | .ok r2 => if r1.cost < r2.cost then fin r1 else fin r2
  | some true =>
    match leastSquares ls (residual pts) s.2.2.1 s.2.2.2 scale with
    | .error e => .error e
    | .ok r => fin r
  | some false =>
    match leastSquares ls (residual pts) s.1 s.2.1 scale with
    | .error e => .error e
    | .ok r => fin r

/-- The keyword arguments made of a list of small signal parameters.  `_didv.py` lines 575-643. -/
def sspArgs : List ℝ → Args
  | [rsh, rp, L, _] => { rsh := some rsh, rp := some rp, L := some L }
  | [rsh, rp, r0, beta, l, L, tau0, _] =>
    { rsh := some rsh, rp := some rp, r0 := some r0, beta := some beta, l := some l, L := some L,
      tau0 := some tau0 }
  | [rsh, rp, r0, beta, l, L, tau0, gratio, tau3, _] =>
    { rsh := some rsh, rp := some rp, r0 := some r0, beta := some beta, l := some l, L := some L,
      tau0 := some tau0, gratio := some gratio, tau3 := some tau3 }
  | _ => {}

/-- `DIDV._fitresult`.  `_didv.py` lines 550-654.  The small signal parameters are numpy floats: a
vanishing denominator stores `nan` or infinities, which is an error here. -/
noncomputable def fitResult (params : List ℝ) (cov : List (List ℝ)) (falltimes : List ℝ)
    (cost rsh rp r0 : ℝ) : Except Err Result :=
  match convertTo params rsh r0 rp with
  | .error e => .error e
  | .ok ssp =>
    match complexadmittance 0 (sspArgs ssp) with
    | .error _ => .error .nan
    | .ok y => .ok ⟨params, cov, falltimes, cost, ssp, y.re⟩

/-- Frequency of element `k` of a DFT of `nb` samples. -/
noncomputable def freqAt (nb : ℕ) (fs : ℝ) (k : ℕ) : ℝ :=
  match nb with
  | 0 => 0
  | m + 1 => fftfreq (n := m + 1) fs (k : ZMod (m + 1))

open Classical in
/-- The points below the cut-off frequency (`none` is infinity).  `_didv.py` lines 410, 424-426. -/
noncomputable def fitPts (p : Proc) (fs : ℝ) (fcut : Option ℝ) : List Pt :=
  ((List.range p.nbins).filter fun k => decide (∀ c ∈ fcut, |freqAt p.nbins fs k| < c)).map fun k =>
    ⟨freqAt p.nbins fs k, p.didvmean k, p.didvstd k⟩

/-- The external solvers. -/
structure Ext where
  ls : LS
  fsolve2 : ((ℝ × ℝ) → ℝ × ℝ) → ℝ × ℝ → ℝ × ℝ
  fsolve3 : ((ℝ × ℝ × ℝ) → ℝ × ℝ × ℝ) → ℝ × ℝ × ℝ → ℝ × ℝ × ℝ

/-- The averaged trace as a list. -/
noncomputable def Proc.trace (p : Proc) : List ℝ := (List.range p.nbins).map p.tmean

/-- The averaged trace at the flat indices. -/
noncomputable def Proc.flat (p : Proc) : List ℝ := p.flatinds.map fun i => p.tmean i.toNat

/-- Starting guess of a fit: `A0, B0, C0, tau10, tau20, tau30, dt` and the loop gain decision.
`_didv.py` lines 412-418, 448-456, 487-519.  Without flat indices the guess is `nan` (the code raises
IndexError instead if the ranges were empty before their restriction to the trace: the empty array is
then an array of floats). -/
noncomputable def startGuess (o : Obj) (p : Proc) (poles : ℕ) :
    Except Err ((ℝ × ℝ × ℝ × ℝ × ℝ × ℝ × ℝ) × Bool) :=
  if poles = 1 then
    match squareGuess p.trace o.sgamp o.rsh with
    | .error e => .error e
    | .ok (A0, tau20) =>
      .ok ((A0, -6 / 10, -6 / 10, -1 / (2 * Real.pi * 500), tau20, 0, o.dt0), false)
  else if poles = 2 then
    match guessParams p.trace p.flat o.sgamp o.rsh (1 / 10 ^ 7) with
    | .error e => .error e
    | .ok (A0, B0, tau10, tau20) =>
      .ok ((A0, B0, -6 / 10, tau10, tau20, 0, o.dt0), guessSub1 p.trace p.flat)
  else
    match o.res2 with
    | none =>
      match guessParams p.trace p.flat o.sgamp o.rsh (1 / 10 ^ 7) with
      | .error e => .error e
      | .ok (A0, B0, tau10, tau20) =>
        .ok ((A0, -|B0|, -5 / 100, -|tau10|, tau20, 1 / 10 ^ 3, o.dt0), guessSub1 p.trace p.flat)
    | some r =>
      match r.params with
      | [A, B, tau1, tau2, dt] =>
        .ok ((A, -|B|, -5 / 100, -|tau1|, tau2, 1 / 10 ^ 3, dt), guessSub1 p.trace p.flat)
      | _ => .error .indexError

/-- The fit proper, on processed traces.  A guess which is not finite makes the optimiser raise
ValueError. -/
noncomputable def runFit (x : Ext) (o : Obj) (p : Proc) (poles : ℕ) (fcut : Option ℝ) :
    Except Err Result :=
  match startGuess o p poles with
  | .error .nan => .error .valueError
  | .error e => .error e
  | .ok ((A0, B0, C0, tau10, tau20, tau30, dt), sub1) =>
    match fitdidv x.ls (fitPts p o.fs fcut) poles A0 B0 C0 tau10 tau20 tau30 dt (some sub1) with
    | .error e => .error e
    | .ok (params, cov, cost) =>
      match findPoleFallTimes x.fsolve2 x.fsolve3 params with
      | .error e => .error e
      | .ok ft => fitResult params cov ft cost o.rsh o.rp o.r0

/-- `DIDV.dofit`.  `_didv.py` lines 360-546. -/
noncomputable def dofit (x : Ext) (o : Obj) (poles : ℤ) (fcut : Option ℝ) : Except Err Unit × Obj :=
  let start := match o.proc with
    | none => processtraces o
    | some _ => (.ok (), o)
  match start with
  | (.error e, o) => (.error e, o)
  | (.ok (), o) =>
    match o.proc with
    | none => (.error .typeError, o)
    | some p =>
      if poles = 1 then
        match runFit x o p 1 fcut with
        | .error e => (.error e, o)
        | .ok r => (.ok (), { o with res1 := some r })
      else if poles = 2 then
        match runFit x o p 2 fcut with
        | .error e => (.error e, o)
        | .ok r => (.ok (), { o with res2 := some r })
      else if poles = 3 then
        match runFit x o p 3 fcut with
        | .error e => (.error e, o)
        | .ok r => (.ok (), { o with res3 := some r })
      else (.error .valueError, o)

/-- What `fitresult` returns: Python's `None`, an empty dictionary or a result. -/
inductive Lookup where
  | pyNone
  | empty
  | found (r : Result)

/-- `fitresult`.  Lines 1044-1093. -/
def fitresult (o : Obj) (poles : ℤ) : Lookup :=
  let get : Option Result → Lookup := fun r => match r with
    | none => .empty
    | some r => .found r
  if poles = 1 then get o.res1
  else if poles = 2 then get o.res2
  else if poles = 3 then get o.res3
  else .pyNone

/-! ### Initialisation from averages, and the fit with priors -/

/-- `didvinitfromdata`.  `_didv.py` lines 73-118; `DIDV.__init__` raises for sample rates which are not a
multiple of `sgfreq`. -/
noncomputable def initFromData (n : ℕ) (tmean : ℕ → ℝ) (didvmean didvstd : ℕ → ℂ)
    (offset offsetErr fs sgfreq sgamp rsh r0 rp : ℝ) (add180 : Bool) (dt0 : ℝ) : Except Err Obj :=
  match create (fun r n f _ => (r, n, f)) [] 0 fs sgfreq sgamp rsh 1 r0 rp (1 / 2) add180 dt0 false with
  | .error e => .error e
  | .ok o =>
    let dt0 := if add180 then dt0 + 1 / (2 * sgfreq) else dt0
    let nper := ⌊(n : ℝ) * sgfreq / fs⌋.toNat
    .ok { o with
      dt0 := dt0
      proc := some ⟨n, fun i => i / fs - dt0, tmean, flatInds nper n fs sgfreq dt0, didvmean, didvstd,
        offset, offsetErr⟩ }

/-- The object used by `DIDVPriors._guessparams`.  `_didv_priors.py` lines 248-262. -/
noncomputable def guessObj (o : Obj) (p : Proc) (priors : List ℝ) : Except Err Obj :=
  match priors with
  | _ :: p1 :: p2 :: _ =>
    initFromData p.nbins p.tmean p.didvmean p.didvstd p.offset p.offsetErr o.fs o.sgfreq o.sgamp o.rsh
      (if p2 ≠ 0 then p2 else 1 / 10) (if p1 ≠ 0 then p1 else 1 / 100) o.add180 o.dt0
  | _ => .error .indexError

/-- `DIDVPriors._guessparams`.  `_didv_priors.py` lines 240-303.  The time shift is the last small signal
parameter. -/
noncomputable def guessPriors (x : Ext) (o : Obj) (p : Proc) (poles : ℤ) (fcut : Option ℝ)
    (priors : List ℝ) : Except Err (List ℝ) :=
  match guessObj o p priors with
  | .error e => .error e
  | .ok g =>
    match dofit x g poles fcut with
    | (.error e, _) => .error e
    | (.ok (), g) =>
      match fitresult g poles with
      | .found r => .ok (r.ssp.dropLast.map abs ++ r.ssp.drop (r.ssp.length - 1))
      | _ => .error .valueError

/-- `guess_new`.  `_didv_priors.py` line 360. -/
noncomputable def mixGuess (guess priors : List ℝ) : List ℝ :=
  List.zipWith (fun g p => if p = 0 then g else p) guess priors

end Verif.Didv
