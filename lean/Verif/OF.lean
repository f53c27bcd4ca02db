import Verif.Dft
import Verif.Argmin
import Mathlib.Analysis.SpecialFunctions.Sqrt
import Mathlib.Algebra.Order.Floor.Ring

/-!
Model of the class `OptimumFilter` (`/repo/qetpy/core/_fitting.py` lines 148-1008).

A trace of `n` bins is a function on `ZMod n`.  Length mismatches between signal, template and PSD
(numpy broadcasting errors) are excluded by the types.  The attribute `templatefilt_td` is written
once (`None`) and never read, so it is left out.

Every method returns its result together with the new object state, because the methods fill the
cached attributes, and keep doing so even when they raise afterwards.
-/

namespace Verif.OF
open Verif Verif.Dft

variable {n : ℕ} [NeZero n]

/-- The attributes of an `OptimumFilter` object.  Lines 244-266. -/
structure State (n : ℕ) where
  psd : ZMod n → WithTop ℝ
  psd0 : WithTop ℝ
  fs : ℝ
  s : ZMod n → ℂ
  phi : ZMod n → ℂ
  norm : ℝ
  v : ZMod n → ℂ
  signalfilt : ZMod n → ℂ
  chi0 : Option ℝ
  chit : Option (ZMod n → ℝ)          -- chit_withdelay
  amps : Option (ZMod n → ℝ)          -- amps_withdelay
  chi : Option (ZMod n → ℝ)           -- chi_withdelay
  sfTd : Option (ZMod n → ℝ)          -- signalfilt_td
  times : Option (ZMod n → ℝ)
  freqs : Option (ZMod n → ℝ)

namespace State

/-- `self.df = self.fs / self.nbins`. -/
noncomputable def df (st : State n) : ℝ := st.fs / n

/-- The weight `1 / self.psd[k]`. -/
noncomputable def w (st : State n) (k : ZMod n) : ℝ := recip (st.psd k)

end State

/-- `fft(x) / nbins / df`. -/
noncomputable def toFreq (fs : ℝ) (x : ZMod n → ℝ) (k : ZMod n) : ℂ :=
  fftR x k / (n : ℂ) / ((fs / n : ℝ) : ℂ)

/-- `OptimumFilter.__init__`.  Lines 237-266. -/
noncomputable def init (signal template : ZMod n → ℝ) (psd : ZMod n → WithTop ℝ) (fs : ℝ)
    (ac integralnorm : Bool) : State n :=
  let psd' : ZMod n → WithTop ℝ := fun k => if ac ∧ k = 0 then ⊤ else psd k
  let df : ℝ := fs / n
  let s0 := toFreq fs template
  let s := if integralnorm then fun k => s0 k / s0 0 else s0
  let phi : ZMod n → ℂ := fun k => starRingEnd ℂ (s k) * (recip (psd' k) : ℂ)
  let norm := (∑ k, phi k * s k).re * df
  let v := toFreq fs signal
  { psd := psd', psd0 := psd 0, fs := fs, s := s, phi := phi, norm := norm, v := v
    signalfilt := fun k => phi k * v k / (norm : ℂ)
    chi0 := none, chit := none, amps := none, chi := none, sfTd := none
    times := none, freqs := none }

/-- `OptimumFilter.update_signal`.  Lines 337-344. -/
noncomputable def updateSignal (st : State n) (signal : ZMod n → ℝ) : State n :=
  let v := toFreq st.fs signal
  { st with
    v := v
    signalfilt := fun k => st.phi k * v k / (st.norm : ℂ)
    chi0 := none, chit := none, sfTd := none, amps := none, chi := none }

/-! ### Cached attributes

`readX` is the value an attribute has after the corresponding `if self.x is None: self.x = ...`;
`fillX` is the object after that statement. -/

/-- `_check_freqs`, lines 284-285. -/
noncomputable def readFreqs (st : State n) : ZMod n → ℝ := st.freqs.getD (fftfreq st.fs)
noncomputable def fillFreqs (st : State n) : State n := { st with freqs := some (readFreqs st) }

/-- `chi0`, lines 402-405 (also 484-487, 555-558, 679-682, 827-830). -/
noncomputable def readChi0 (st : State n) : ℝ :=
  st.chi0.getD ((∑ k, starRingEnd ℂ (st.v k) * (st.w k : ℂ) * st.v k) * (st.df : ℂ)).re
noncomputable def fillChi0 (st : State n) : State n := { st with chi0 := some (readChi0 st) }

/-- `signalfilt_td`, lines 549-552. -/
noncomputable def readSfTd (st : State n) : ZMod n → ℝ :=
  st.sfTd.getD fun m => (ifft (fun k => st.signalfilt k * (n : ℂ)) m).re * st.df
noncomputable def fillSfTd (st : State n) : State n := { st with sfTd := some (readSfTd st) }

/-- `chit_withdelay`, lines 561-562. -/
noncomputable def readChit (st : State n) : ZMod n → ℝ :=
  st.chit.getD fun m => (readSfTd st m) ^ 2 * st.norm
noncomputable def fillChit (st : State n) : State n := { st with chit := some (readChit st) }

/-- `chi_withdelay`, lines 565-567. -/
noncomputable def readChi (st : State n) : ZMod n → ℝ :=
  st.chi.getD (roll (fun m => readChi0 st - readChit st m) ((n / 2 : ℕ) : ZMod n))
noncomputable def fillChi (st : State n) : State n := { st with chi := some (readChi st) }

/-- `amps_withdelay`, lines 569-572. -/
noncomputable def readAmps (st : State n) : ZMod n → ℝ :=
  st.amps.getD (roll (readSfTd st) ((n / 2 : ℕ) : ZMod n))
noncomputable def fillAmps (st : State n) : State n := { st with amps := some (readAmps st) }

/-- `times`, lines 673-676: `np.arange(-(n//2), n//2 + n%2) / fs`. -/
noncomputable def readTimes (st : State n) : ZMod n → ℝ :=
  st.times.getD fun i => ((i.val : ℝ) - ((n / 2 : ℕ) : ℝ)) / st.fs
noncomputable def fillTimes (st : State n) : State n := { st with times := some (readTimes st) }

/-! ### Interpolation -/

/-- `_interpolate_parabola`, lines 294-305.  `vals[bestind + 1]` raises IndexError at the last
bin (`vals[bestind - 1]` wraps around at bin 0); a vanishing curvature gives `nan`. -/
noncomputable def interpolateParabola (vals : ZMod n → ℝ) (bestind : ℤ) (delta : ℝ)
    (tInterp : Option ℝ) : Except Err (ℝ × ℝ) :=
  if bestind + 1 ≥ n then .error .indexError
  else
    let sf := 1 / (2 * delta ^ 2)
    let a := sf * (vals ((bestind + 1 : ℤ) : ZMod n) - 2 * vals (bestind : ZMod n)
      + vals ((bestind - 1 : ℤ) : ZMod n))
    let b := sf * delta * (vals ((bestind + 1 : ℤ) : ZMod n) - vals ((bestind - 1 : ℤ) : ZMod n))
    let c := sf * 2 * delta ^ 2 * vals (bestind : ZMod n)
    match tInterp with
    | some t => .ok (t, a * t ^ 2 + b * t + c)
    | none =>
      if a = 0 then .error .nan
      else
        let t := -b / (2 * a)
        .ok (t, a * t ^ 2 + b * t + c)

/-- `_interpolate_of`, lines 315-322. -/
noncomputable def interpolateOf (amps chi2 : ZMod n → ℝ) (bestind : ℤ) (delta : ℝ) :
    Except Err (ℝ × ℝ × ℝ) :=
  match interpolateParabola chi2 bestind delta none with
  | .error e => .error e
  | .ok (t, c) =>
    match interpolateParabola amps bestind delta (some t) with
    | .error e => .error e
    | .ok (_, a) => .ok (a, t, c)

/-! ### Methods -/

/-- `energy_resolution`, lines 346-359. -/
noncomputable def energyResolution (st : State n) : ℝ := 1 / Real.sqrt st.norm

/-- `time_resolution`, lines 361-387. -/
noncomputable def timeResolution (st : State n) (amp : ℝ) : ℝ × State n :=
  (1 / Real.sqrt (amp ^ 2 * (∑ k, (2 * Real.pi * readFreqs st k) ^ 2 * ‖st.s k‖ ^ 2 * st.w k)
    * st.df), fillFreqs st)

/-- `chi2_nopulse`, lines 390-407. -/
noncomputable def chi2Nopulse (st : State n) : ℝ × State n := (readChi0 st, fillChi0 st)

/-- `chi2_lowfreq`, lines 409-442. -/
noncomputable def chi2Lowfreq (st : State n) (amp t0 fcutoff : ℝ) : ℝ × State n :=
  let f := readFreqs st
  let chi2tot : ZMod n → ℝ := fun k =>
    st.df * ‖st.v k - (amp : ℂ) * Complex.exp (-2 * Complex.I * Real.pi * t0 * f k) * st.s k‖ ^ 2
      * st.w k
  (∑ k, if |f k| ≤ fcutoff then chi2tot k else 0, fillFreqs st)

/-- `ofamp_nodelay`, lines 444-494. -/
noncomputable def nodelay (st : State n) (wc : ℤ) : (ℝ × ℝ) × State n :=
  let amp : ℝ :=
    if wc ≠ 0 then
      let t0 : ℝ := wc / st.fs
      (∑ k, st.signalfilt k * Complex.exp (2 * Complex.I * Real.pi * t0 * readFreqs st k)).re * st.df
    else (∑ k, st.signalfilt k).re * st.df
  let st' := if wc ≠ 0 then fillFreqs st else st
  ((amp, readChi0 st - amp ^ 2 * st.norm), fillChi0 st')

/-- Read out the arrays at the result of the search.  Lines 588-600. -/
noncomputable def pick (fs : ℝ) (amps chi : ZMod n → ℝ) (chiNan : ℝ)
    (bestind : Except Err (Option ℤ)) (interp : Bool) : Except Err (ℝ × ℝ × ℝ) :=
  match bestind with
  | .error e => .error e
  | .ok none => .ok (0, 0, chiNan)
  | .ok (some i) =>
    if interp then
      match interpolateOf amps chi i (1 / fs) with
      | .error e => .error e
      | .ok (a, dt, c) => .ok (a, ((i : ℝ) - ((n / 2 : ℕ) : ℝ)) / fs + dt, c)
    else .ok (amps (i : ZMod n), ((i : ℝ) - ((n / 2 : ℕ) : ℝ)) / fs, chi (i : ZMod n))

/-- The array of length `n` as the function on indices used by the delay search. -/
def asIdx (x : ZMod n → ℝ) : ℤ → ℝ := fun i => x (i : ZMod n)

/-- Direction mask followed by the search, lines 574-586 (also 716-729, 974-987). -/
noncomputable def search (amps chi : ZMod n → ℝ) (nconstrain : Option ℤ) (outside : Bool)
    (dir wc : ℤ) : Except Err (Option ℤ) :=
  match directionMask (asIdx amps) dir with
  | .error e => .error e
  | .ok mask => argminChi2 n (asIdx chi) nconstrain outside mask wc

/-- `ofamp_withdelay`, lines 549-600. -/
noncomputable def withdelay (st : State n) (nconstrain : Option ℤ) (outside : Bool) (dir wc : ℤ)
    (interp : Bool) : Except Err (ℝ × ℝ × ℝ) × State n :=
  let st' := fillAmps (fillChi (fillChit (fillChi0 (fillSfTd st))))
  let amps := readAmps st
  let chi := readChi st
  (pick st.fs amps chi (readChi0 st) (search amps chi nconstrain outside dir wc) interp, st')

/-- Python's `int(x)` on a float. -/
noncomputable def trunc (x : ℝ) : ℤ := if x < 0 then ⌈x⌉ else ⌊x⌋

/-- `templatefilt_td` of `ofamp_pileup_iterative`, lines 665-671. -/
noncomputable def tfTdAt (st : State n) (t1 : ℝ) : ZMod n → ℝ := fun m =>
  (ifft (fun k => Complex.exp (-2 * Complex.I * Real.pi * readFreqs st k * t1) * st.phi k * st.s k
    * (n : ℂ)) m).re * st.df

/-- `t1ind`, lines 686-689. -/
noncomputable def t1Index (st : State n) (t1 : ℝ) : ℤ :=
  if t1 < 0 then trunc (t1 * st.fs + n) else trunc (t1 * st.fs)

/-- `a2s` before rolling, line 684. -/
noncomputable def pileupA2 (st : State n) (a1 t1 : ℝ) : ZMod n → ℝ := fun m =>
  readSfTd st m - a1 * tfTdAt st t1 m / st.norm

/-- `chit` of the pile-up fit, lines 692-696. -/
noncomputable def pileupChit (st : State n) (a1 t1 : ℝ) : ℝ :=
  a1 ^ 2 * st.norm - 2 * a1 * readSfTd st (t1Index st t1 : ZMod n) * st.norm

/-- `chi` of the pile-up fit before rolling, lines 692-708. -/
noncomputable def pileupChi (st : State n) (a1 t1 : ℝ) : ZMod n → ℝ := fun m =>
  let a2 := pileupA2 st a1 t1 m
  let chil := a2 ^ 2 * st.norm + 2 * a1 * a2 * tfTdAt st t1 m - 2 * a2 * readSfTd st m * st.norm
  readChi0 st + pileupChit st a1 t1 + chil

/-- `ofamp_pileup_iterative`, lines 657-746.  `signalfilt_td[t1ind]` raises IndexError outside
`-n .. n-1`. -/
noncomputable def pileupIterative (st : State n) (a1 t1 : ℝ) (nconstrain : Option ℤ)
    (outside : Bool) (dir wc : ℤ) (interp : Bool) : Except Err (ℝ × ℝ × ℝ) × State n :=
  let st' := fillChi0 (fillTimes (fillSfTd (fillFreqs st)))
  let i := t1Index st t1
  if ¬ (-(n : ℤ) ≤ i ∧ i < n) then (.error .indexError, st')
  else
    let a2s := roll (pileupA2 st a1 t1) ((n / 2 : ℕ) : ZMod n)
    let chi := roll (pileupChi st a1 t1) ((n / 2 : ℕ) : ZMod n)
    let res : Except Err (ℝ × ℝ × ℝ) :=
      match search a2s chi nconstrain outside dir wc with
      | .error e => .error e
      | .ok none => .ok (0, 0, readChi0 st + pileupChit st a1 t1)
      | .ok (some i) =>
        if interp then
          match interpolateOf a2s chi i (1 / st.fs) with
          | .error e => .error e
          | .ok (a, dt, c) => .ok (a, readTimes st (i : ZMod n) + dt, c)
        else .ok (a2s (i : ZMod n), readTimes st (i : ZMod n), chi (i : ZMod n))
    (res, st')

/-- `templatefilt_td` of `ofamp_pileup_stationary`, lines 789-791. -/
noncomputable def tfTd (st : State n) : ZMod n → ℝ := fun m =>
  (ifft (fun k => st.phi k * st.s k * (n : ℂ)) m).re * st.df

/-- `a1s` before rolling, lines 804-811 and 822. -/
noncomputable def statA1 (st : State n) : ZMod n → ℝ := fun m =>
  if m = 0 then readSfTd st 0 / (2 * st.norm)
  else (readSfTd st 0 * st.norm ^ 2 - readSfTd st m * st.norm * tfTd st m)
    / (st.norm ^ 2 - tfTd st m ^ 2)

/-- `a2s` before rolling, lines 812-819 and 823. -/
noncomputable def statA2 (st : State n) : ZMod n → ℝ := fun m =>
  if m = 0 then readSfTd st 0 / (2 * st.norm)
  else (readSfTd st m * st.norm ^ 2 - readSfTd st 0 * st.norm * tfTd st m)
    / (st.norm ^ 2 - tfTd st m ^ 2)

/-- `chi` of the stationary pile-up fit before rolling, lines 832-843. -/
noncomputable def statChi (st : State n) : ZMod n → ℝ := fun m =>
  let a1 := statA1 st m
  let a2 := statA2 st m
  let chit := (a1 ^ 2 + a2 ^ 2) * st.norm + 2 * a1 * a2 * tfTd st m
  let chil := 2 * a1 * readSfTd st 0 * st.norm + 2 * a2 * readSfTd st m * st.norm
  readChi0 st + chit - chil

open Classical in
/-- `ofamp_pileup_stationary`, lines 784-870.  A vanishing `denom` at a non-zero delay puts `nan`
or `inf` into the arrays (`.nan`); indexing with `nan` (empty window) raises IndexError. -/
noncomputable def pileupStationary (st : State n) (nconstrain : Option ℤ) (outside : Bool)
    (wc : ℤ) : Except Err (ℝ × ℝ × ℝ × ℝ) × State n :=
  let st' := fillChi0 (fillTimes (fillSfTd st))
  let a1s := roll (statA1 st) ((n / 2 : ℕ) : ZMod n)
  let a2s := roll (statA2 st) ((n / 2 : ℕ) : ZMod n)
  let chi := roll (statChi st) ((n / 2 : ℕ) : ZMod n)
  let res : Except Err (ℝ × ℝ × ℝ × ℝ) :=
    match argminChi2 n (asIdx chi) nconstrain outside none wc with
    | .error e => .error e
    | .ok none => .error .indexError
    | .ok (some i) =>
      if ∃ j ∈ searchedBins n nconstrain outside wc, (j : ZMod n) - ((n / 2 : ℕ) : ZMod n) ≠ 0 ∧
          st.norm ^ 2 - tfTd st ((j : ZMod n) - ((n / 2 : ℕ) : ZMod n)) ^ 2 = 0 then .error .nan
      else .ok (a1s (i : ZMod n), a2s (i : ZMod n), readTimes st (i : ZMod n), chi (i : ZMod n))
  (res, st')

/-! ### `ofamp_baseline`, lines 872-1008 -/

/-- The intermediate quantities of `ofamp_baseline`, lines 925-948. -/
structure BaseQ (n : ℕ) where
  norm : ℝ
  b1 : ZMod n → ℝ
  b2 : ℝ
  c1 : ℝ
  c2 : ℝ
  chi0 : ℝ            -- `np.sum(|v|^2/psd)*df`, with the zero bin added back

/-- Lines 925-948 (and 964-968 for `chi0`), with `p0 = self.psd0` finite. -/
noncomputable def baseQ (st : State n) (p0 : ℝ) : BaseQ n :=
  let d : ℝ := 1 / st.df
  let phi : ZMod n → ℂ :=
    if st.psd 0 = ⊤ then fun k => if k = 0 then st.s 0 / (p0 : ℂ) else st.phi k else st.phi
  let norm := if st.psd 0 = ⊤ then (∑ k, phi k * st.s k).re * st.df else st.norm
  { norm := norm
    b1 := fun m => (ifft (fun k => phi k * st.v k) m).re * n * st.df
    b2 := (phi 0 * (d : ℂ)).re * st.df
    c1 := (st.v 0 * (d : ℂ) / (p0 : ℂ)).re * st.df
    c2 := |d| ^ 2 / p0 * st.df
    chi0 := (∑ k, ‖st.v k‖ ^ 2 * st.w k) * st.df +
      (if st.psd 0 = ⊤ then ‖st.v 0‖ ^ 2 / p0 * st.df else 0) }

/-- `amps`, line 940. -/
noncomputable def baseAmps (q : BaseQ n) : ZMod n → ℝ := fun m =>
  (q.b1 m * q.c2 - q.b2 * q.c1) / (q.norm * q.c2 - q.b2 ^ 2)

/-- `baselines`, line 942. -/
noncomputable def baselines (q : BaseQ n) : ZMod n → ℝ := fun m =>
  (q.c1 - baseAmps q m * q.b2) / q.c2

/-- `chi2` of the first pass, lines 944-952. -/
noncomputable def baseChi1 (q : BaseQ n) : ZMod n → ℝ := fun m =>
  let a := baseAmps q m
  let b := baselines q m
  q.chi0 + -2 * (a * q.b1 m + b * q.c1) + a ^ 2 * q.norm + 2 * a * b * q.b2 + b ^ 2 * q.c2

/-- `amps_out` for the baseline `bs`, line 958. -/
noncomputable def baseAmps2 (q : BaseQ n) (bs : ℝ) : ZMod n → ℝ := fun m =>
  (q.b1 m - bs * q.b2) / q.norm

/-- `chi0` of the second pass, lines 961-966. -/
noncomputable def baseChi0 (q : BaseQ n) (bs : ℝ) : ℝ := q.chi0 - 2 * bs * q.c1 + bs ^ 2 * q.c2

/-- `chi2` of the second pass, lines 968-970. -/
noncomputable def baseChi2 (q : BaseQ n) (bs : ℝ) : ZMod n → ℝ := fun m =>
  let a := baseAmps2 q bs m
  baseChi0 q bs - 2 * a * q.b1 m + a ^ 2 * q.norm + 2 * a * bs * q.b2

/-- `ofamp_baseline`.  It reads and writes no cached attribute.  An infinite `psd0` or a vanishing
denominator gives `nan` everywhere. -/
noncomputable def baseline (st : State n) (nconstrain : Option ℤ) (outside : Bool) (dir wc : ℤ)
    (interp : Bool) : Except Err (ℝ × ℝ × ℝ) :=
  match st.psd0 with
  | ⊤ => .error .nan
  | (p0 : ℝ) =>
    let q := baseQ st p0
    if q.norm * q.c2 - q.b2 ^ 2 = 0 ∨ q.c2 = 0 ∨ q.norm = 0 then .error .nan
    else
      match argminOn (asIdx (baseChi1 q)) (arange 0 n) with
      | none => .error .valueError
      | some i0 =>
        let bs := baselines q (i0 : ZMod n)
        let amps := roll (baseAmps2 q bs) ((n / 2 : ℕ) : ZMod n)
        let chi := roll (baseChi2 q bs) ((n / 2 : ℕ) : ZMod n)
        pick st.fs amps chi (baseChi0 q bs) (search amps chi nconstrain outside dir wc) interp

/-! ### The object as a state machine -/

/-- A public method call. -/
inductive Op (n : ℕ) where
  | updateSignal (signal : ZMod n → ℝ)
  | energyResolution
  | timeResolution (amp : ℝ)
  | chi2Nopulse
  | chi2Lowfreq (amp t0 fcutoff : ℝ)
  | nodelay (wc : ℤ)
  | withdelay (nconstrain : Option ℤ) (outside : Bool) (dir wc : ℤ) (interp : Bool)
  | pileupIterative (a1 t1 : ℝ) (nconstrain : Option ℤ) (outside : Bool) (dir wc : ℤ) (interp : Bool)
  | pileupStationary (nconstrain : Option ℤ) (outside : Bool) (wc : ℤ)
  | baseline (nconstrain : Option ℤ) (outside : Bool) (dir wc : ℤ) (interp : Bool)

/-- The value a call returns (or the exception it raises), flattened to a list of reals. -/
abbrev Out := Except Err (List ℝ)

/-- Flatten a triple. -/
def out3 : Except Err (ℝ × ℝ × ℝ) → Out
  | .error e => .error e
  | .ok (a, b, c) => .ok [a, b, c]

/-- Flatten a quadruple. -/
def out4 : Except Err (ℝ × ℝ × ℝ × ℝ) → Out
  | .error e => .error e
  | .ok (a, b, c, d) => .ok [a, b, c, d]

/-- One method call: what it returns and the object afterwards. -/
noncomputable def step (st : State n) : Op n → Out × State n
  | .updateSignal x => (.ok [], updateSignal st x)
  | .energyResolution => (.ok [energyResolution st], st)
  | .timeResolution a => (.ok [(timeResolution st a).1], (timeResolution st a).2)
  | .chi2Nopulse => (.ok [(chi2Nopulse st).1], (chi2Nopulse st).2)
  | .chi2Lowfreq a t f => (.ok [(chi2Lowfreq st a t f).1], (chi2Lowfreq st a t f).2)
  | .nodelay wc => (.ok [(nodelay st wc).1.1, (nodelay st wc).1.2], (nodelay st wc).2)
  | .withdelay nc o d wc i => (out3 (withdelay st nc o d wc i).1, (withdelay st nc o d wc i).2)
  | .pileupIterative a1 t1 nc o d wc i =>
      (out3 (pileupIterative st a1 t1 nc o d wc i).1, (pileupIterative st a1 t1 nc o d wc i).2)
  | .pileupStationary nc o wc =>
      (out4 (pileupStationary st nc o wc).1, (pileupStationary st nc o wc).2)
  | .baseline nc o d wc i => (out3 (baseline st nc o d wc i), st)

/-- The object after a sequence of calls. -/
noncomputable def run (st : State n) : List (Op n) → State n
  | [] => st
  | op :: ops => run (step st op).2 ops

end Verif.OF
