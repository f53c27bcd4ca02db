import Verif.Dft
import Verif.Np
import Verif.OF
import Verif.Utils
import Verif.Pinv
import Mathlib.Analysis.SpecialFunctions.Pow.Real
import Mathlib.Data.EReal.Basic

/-!
Model of `OFnonlin` and `MuonTailFit`: `/repo/qetpy/core/_fitting.py` lines 1585-2561.

Inside `least_squares` all parameters are numpy floats: a division by zero or a fractional power of
a negative number gives `nan`, modelled as the error `.nan`.  The optimiser
`scipy.optimize.least_squares` is an arbitrary function of its arguments (`solve`), preceded by its
documented input validation (`LsqValid`); moving a start point that lies on a bound into the interior
(`make_strictly_feasible`) and `errscale = 0` are not modelled, and neither are time constants that are
exactly zero (`scaledAmp` treats `tau_f = 0` as `nan`, where numpy floats give `-A`; the time domain
functions would have `nan` in their first sample).  Plotting is in `NonLinPlot`.
-/

namespace Verif.NonLin

open Verif Verif.Dft Matrix

variable {n : ℕ} [NeZero n]

/-- The object, lines 1651-1669 and the attributes assigned by `fit_falltimes`.  `data` and `error`
are `None` before the first fit; they are only read after being assigned. -/
structure Obj (n : ℕ) where
  psd : ZMod n → ℝ
  fs : ℝ
  template : Option (List ℝ)
  data : ZMod n → ℂ
  error : ZMod n → ℝ
  npole : ℤ
  scale : Bool
  taurise : Option ℝ

/-- `__init__`, lines 1632-1669. -/
noncomputable def init (psd : ZMod n → ℝ) (fs : ℝ) (template : Option (List ℝ)) : Obj n where
  psd := Function.update psd 0 (10 ^ 40)
  fs := fs
  template := template
  data := 0
  error := 0
  npole := 1
  scale := true
  taurise := none

/-- `self.df`. -/
noncomputable def Obj.df (o : Obj n) : ℝ := o.fs / n

/-- `omega = 2 * np.pi * self.freqs`. -/
noncomputable def Obj.omega (o : Obj n) (k : ZMod n) : ℝ := 2 * Real.pi * fftfreq o.fs k

/-- `self.time` as a list. -/
noncomputable def Obj.time (o : Obj n) : List ℝ := (List.range n).map fun (i : ℕ) => (i : ℝ) / o.fs

/-- One term `tau / (1 + omega*tau*1j)`. -/
noncomputable def pole (τ ω : ℝ) : ℂ := τ / (1 + ω * τ * Complex.I)

/-- `fourpole`, lines 1713-1727. -/
noncomputable def Obj.fourpole (o : Obj n) (A B C τr τ1 τ2 τ3 t0 : ℝ) (k : ZMod n) : ℂ :=
  (A * pole τ1 (o.omega k) + B * pole τ2 (o.omega k) + C * pole τ3 (o.omega k) -
    (A + B + C) * pole τr (o.omega k)) * Complex.exp (-Complex.I * o.omega k * t0) * Real.sqrt o.df

/-- `fourpoletime`, lines 1767-1776. -/
noncomputable def Obj.fourpoletime (o : Obj n) (A B C τr τ1 τ2 τ3 t0 : ℝ) : List ℝ :=
  Utils.shift (o.time.map fun t => A * Real.exp (-t / τ1) + B * Real.exp (-t / τ2) +
    C * Real.exp (-t / τ3) - (A + B + C) * Real.exp (-t / τr)) (OF.trunc (t0 * o.fs) : ℤ) 0

/-- `threepole`, lines 1815-1827. -/
noncomputable def Obj.threepole (o : Obj n) (A B τr τ1 τ2 t0 : ℝ) (k : ZMod n) : ℂ :=
  (A * pole τ1 (o.omega k) + B * pole τ2 (o.omega k) - (A + B) * pole τr (o.omega k)) *
    Complex.exp (-Complex.I * o.omega k * t0) * Real.sqrt o.df

/-- `threepoletime`, lines 1867-1874. -/
noncomputable def Obj.threepoletime (o : Obj n) (A B τr τ1 τ2 t0 : ℝ) : List ℝ :=
  Utils.shift (o.time.map fun t => A * Real.exp (-t / τ1) + B * Real.exp (-t / τ2) -
    (A + B) * Real.exp (-t / τr)) (OF.trunc (t0 * o.fs) : ℤ) 0

/-- `amp`, lines 1914-1916 and 1975-1977.  `nan` for `tau_f = 0`, equal times, or times of opposite
sign. -/
noncomputable def scaledAmp (A τr τf : ℝ) : Except Err ℝ :=
  let delta := τr - τf
  let rat := τr / τf
  if τf = 0 ∨ delta = 0 ∨ rat < 0 then .error .nan
  else .ok (A / (rat ^ (-τr / delta) - rat ^ (-τf / delta)))

/-- `twopole`, lines 1909-1934. -/
noncomputable def Obj.twopole (o : Obj n) (A τr τf t0 : ℝ) : Except Err (ZMod n → ℂ) :=
  if o.scale then
    match scaledAmp A τr τf with
    | .error e => .error e
    | .ok amp => .ok fun k => amp * (|τr - τf| : ℝ) / (1 + o.omega k * τf * Complex.I) /
        (1 + o.omega k * τr * Complex.I) * Complex.exp (-o.omega k * t0 * Complex.I) *
        Real.sqrt o.df
  else
    .ok fun k => (A * pole τf (o.omega k) - A * pole τr (o.omega k)) *
      Complex.exp (-o.omega k * t0 * Complex.I) * Real.sqrt o.df

/-- `twopoletime`, lines 1974-1987. -/
noncomputable def Obj.twopoletime (o : Obj n) (A τr τf t0 : ℝ) : Except Err (List ℝ) :=
  if o.scale then
    match scaledAmp A τr τf with
    | .error e => .error e
    | .ok amp => .ok (Utils.shift
        (o.time.map fun t => amp * (Real.exp (-t / τf) - Real.exp (-t / τr)))
        (OF.trunc (t0 * o.fs) : ℤ) 0)
  else
    .ok (Utils.shift (o.time.map fun t => A * Real.exp (-t / τf) - A * Real.exp (-t / τr))
      (OF.trunc (t0 * o.fs) : ℤ) 0)

/-- `onepole`, lines 2010-2011.  `None - tau_f` raises `TypeError`, in both branches of `twopole`
(`omega * None` without scaling). -/
noncomputable def Obj.onepole (o : Obj n) (A τf t0 : ℝ) : Except Err (ZMod n → ℂ) :=
  match o.taurise with
  | none => .error .typeError
  | some τr => o.twopole A τr τf t0

/-- The model selected by `npolefit`, lines 2029-2048 and 2315-2354.  A tuple of the wrong length
raises `ValueError` when unpacked. -/
noncomputable def Obj.model (o : Obj n) (params : List ℝ) : Except Err (ZMod n → ℂ) :=
  if o.npole = 4 then
    match params with
    | [A, B, C, τr, τ1, τ2, τ3, t0] => .ok (o.fourpole A B C τr τ1 τ2 τ3 t0)
    | _ => .error .valueError
  else if o.npole = 3 then
    match params with
    | [A, B, τr, τ1, τ2, t0] => .ok (o.threepole A B τr τ1 τ2 t0)
    | _ => .error .valueError
  else if o.npole = 2 then
    match params with
    | [A, τr, τf, t0] => o.twopole A τr τf t0
    | _ => .error .valueError
  else
    match params with
    | [A, τf, t0] => o.onepole A τf t0
    | _ => .error .valueError

/-- `z1d`, lines 2049-2051: real and imaginary parts alternate. -/
noncomputable def flatten (delta : ZMod n → ℂ) (err : ZMod n → ℝ) : List ℝ :=
  (List.range n).flatMap fun (k : ℕ) =>
    [(delta (k : ZMod n)).re / err (k : ZMod n), (delta (k : ZMod n)).im / err (k : ZMod n)]

open Classical in
/-- `residuals`, lines 2013-2053.  Dividing by a vanishing (or `nan`, for a negative psd) error is
modelled as `.nan`. -/
noncomputable def Obj.residuals (o : Obj n) (params : List ℝ) : Except Err (List ℝ) :=
  match o.model params with
  | .error e => .error e
  | .ok m => if ∃ k, o.error k ≤ 0 then .error .nan
    else .ok (flatten (fun k => o.data k - m k) o.error)

/-- `calcchi2`, lines 2072-2076; no degree of freedom left gives `inf`, modelled as `.nan`. -/
noncomputable def Obj.calcchi2 (o : Obj n) (m : ZMod n → ℂ) (dof : ℕ) : Except Err ℝ :=
  if (n : ℤ) - dof = 0 then .error .nan
  else .ok ((∑ k, ‖o.data k - m k‖ ^ 2 / o.error k ^ 2) / (((n : ℤ) - dof : ℤ) : ℝ))

/-- `self.dof`, lines 2244-2298. -/
def dofOf (npole : ℤ) : ℕ := if npole = 4 then 8 else if npole = 3 then 6 else if npole = 2 then 4 else 3

/-- What `least_squares` returns. -/
structure Lsq (n : ℕ) where
  x : List ℝ
  jac : Matrix (Fin (2 * n)) (Fin x.length) ℝ
  success : Bool

/-- The validation at the start of `least_squares`: shapes, `lb < ub`, start point within the
bounds, `x_scale > 0` (here `x_scale = p0`). -/
def LsqValid (x0 : List ℝ) (b : List EReal × List EReal) (xscale : List ℝ) : Prop :=
  b.1.length = x0.length ∧ b.2.length = x0.length ∧
  (∀ p ∈ b.1.zip b.2, p.1 < p.2) ∧
  (∀ p ∈ b.1.zip x0, p.1 ≤ (p.2 : EReal)) ∧ (∀ p ∈ b.2.zip x0, (p.2 : EReal) ≤ p.1) ∧
  ∀ s ∈ xscale, 0 < s

/-- The assignments at the start of `fit_falltimes` (lines 2155-2167); they happen even if the call
raises later. -/
noncomputable def Obj.prepare (o : Obj n) (pulse : ZMod n → ℝ) (npole : ℤ) (errscale : ℝ)
    (taurise : Option ℝ) (scale : Bool) : Obj n :=
  { o with
    data := fun k => fftR pulse k / (Real.sqrt (o.fs * n) : ℂ)
    error := fun k => Real.sqrt (o.psd k / errscale)
    npole := npole
    scale := scale
    taurise := if npole = 1 then (match taurise with | none => o.taurise | some t => some t)
      else o.taurise }

/-- `np.argmax` of a list (`ValueError` when empty). -/
noncomputable def argmax (l : List ℝ) : Except Err ℤ :=
  match OF.argminOn (fun i => -(l.getD i.toNat 0)) (OF.arange 0 l.length) with
  | none => .error .valueError
  | some i => .ok i

/-- `l[a:b]`. -/
def slice (l : List ℝ) (a b : ℤ) : List ℝ :=
  (l.take (Np.clipIdx l.length b)).drop (Np.clipIdx l.length a)

/-- The trace as a list. -/
def toL (pulse : ZMod n → ℝ) : List ℝ := (List.range n).map fun (k : ℕ) => pulse (k : ZMod n)

/-- `np.max(pulse) - np.min(pulse)`. -/
noncomputable def ampscale (pulse : ZMod n → ℝ) : ℝ :=
  Finset.univ.sup' Finset.univ_nonempty pulse - Finset.univ.inf' Finset.univ_nonempty pulse

/-- The default guess, lines 2206-2257.  The mean of an empty slice is `nan`, which makes
`least_squares` raise `ValueError` whatever the bounds (the other operations before it raise
nothing else). -/
noncomputable def Obj.defaultGuess (o : Obj n) (pulse : ZMod n → ℝ) : Except Err (List ℝ) :=
  let asc := match o.template with | none => 1 | some _ => ampscale pulse
  let tmpl := match o.template with | none => toL pulse | some t => t
  match argmax tmpl with
  | .error e => .error e
  | .ok maxind =>
    match Np.mean (slice tmpl (maxind - 7) (maxind + 7)) with
    | none => .error .valueError
    | some mean =>
      let a := mean * asc
      let t0 := (maxind : ℝ) / o.fs
      if o.npole = 4 then
        .ok [a, a / 3, a / 3, 20 / 10 ^ 6, 100 / 10 ^ 6, 300 / 10 ^ 6, 500 / 10 ^ 6, t0]
      else if o.npole = 3 then
        .ok [a, a / 3, 20 / 10 ^ 6, 100 / 10 ^ 6, 300 / 10 ^ 6, t0]
      else
        let tauval := 37 / 100 * a
        let endt := OF.trunc (300 / 10 ^ 6 * o.fs)
        match argmax ((slice (toL pulse) (maxind + 1) (maxind + 1 + endt)).map
            fun y => -|y - tauval|) with
        | .error e => .error e
        | .ok i =>
          let taufall := ((i + maxind + 1 - maxind : ℤ) : ℝ) / o.fs
          if o.npole = 2 then .ok [a, 20 / 10 ^ 6, taufall, t0] else .ok [a, taufall, t0]

/-- `p0`, lines 2169-2257: the guess given or made up. -/
noncomputable def Obj.start (o : Obj n) (pulse : ZMod n → ℝ) (guess : Option (List ℝ)) :
    Except Err (List ℝ) :=
  match guess with
  | none => o.defaultGuess pulse
  | some g =>
    if o.npole = 4 then (if g.length ≠ 8 then .error .valueError else .ok g)
    else if o.npole = 3 then (if g.length ≠ 6 then .error .valueError else .ok g)
    else if o.npole = 2 then (if g.length ≠ 4 then .error .valueError else .ok g)
    else (if g.length ≠ 3 then .error .valueError else .ok g)

/-- The default bounds, lines 2264-2311: amplitudes within a factor 100, times within a factor 10,
the start time within 30 samples. -/
noncomputable def Obj.defaultBounds (o : Obj n) (p0 : List ℝ) : List EReal × List EReal :=
  let namp := if o.npole = 4 then 3 else if o.npole = 3 then 2 else 1
  let lo := (p0.take namp).map (· / 100) ++ ((p0.drop namp).dropLast.map (· / 10)) ++
    ((p0.drop namp).getLast?.toList.map (· - 30 / o.fs))
  let hi := (p0.take namp).map (· * 100) ++ ((p0.drop namp).dropLast.map (· * 10)) ++
    ((p0.drop namp).getLast?.toList.map (· + 30 / o.fs))
  (lo.map (↑), hi.map (↑))

/-- The full return value. -/
structure FitResult (n : ℕ) where
  lsq : Lsq n
  errors : Fin lsq.x.length → ℝ
  cov : Matrix (Fin lsq.x.length) (Fin lsq.x.length) ℝ
  chi2 : ℝ

open Classical in
/-- `fit_falltimes` after the assignments of `prepare`, lines 2161-2369.  A residual that is not
finite at the start point makes `least_squares` raise `ValueError`. -/
noncomputable def Obj.run (o : Obj n) (pulse : ZMod n → ℝ) (guess : Option (List ℝ))
    (bounds : Option (List EReal × List EReal)) (taurise : Option ℝ)
    (solve : List ℝ → List EReal × List EReal → Lsq n) : Except Err (FitResult n) :=
  if o.npole = 1 ∧ taurise = none then .error .valueError
  else
    match o.start pulse guess with
    | .error e => .error e
    | .ok p0 =>
      let b := bounds.getD (o.defaultBounds p0)
      if ¬ LsqValid p0 b p0 then .error .valueError
      else
        match o.residuals p0 with
        | .error .nan => .error .valueError
        | .error e => .error e
        | .ok _ =>
          let r := solve p0 b
          match o.model r.x with
          | .error e => .error e
          | .ok m =>
            match o.calcchi2 m (dofOf o.npole) with
            | .error e => .error e
            | .ok chi2 =>
              let cov := pinv (r.jacᵀ * r.jac)
              .ok { lsq := r, errors := fun i => Real.sqrt (cov i i), cov := cov, chi2 := chi2 }

/-- `fit_falltimes`, lines 2078-2369: the object afterwards and the result. -/
noncomputable def Obj.fit (o : Obj n) (pulse : ZMod n → ℝ) (npole : ℤ) (errscale : ℝ)
    (guess : Option (List ℝ)) (bounds : Option (List EReal × List EReal)) (taurise : Option ℝ)
    (scale : Bool) (solve : List ℝ → List EReal × List EReal → Lsq n) :
    Obj n × Except Err (FitResult n) :=
  let o' := o.prepare pulse npole errscale taurise scale
  (o', o'.run pulse guess bounds taurise solve)

/-! ### `MuonTailFit` -/

/-- The object, lines 2424-2441, with `data` and `error` of the current fit. -/
structure Muon (n : ℕ) where
  psd : ZMod n → ℝ
  fs : ℝ
  data : ZMod n → ℂ
  error : ZMod n → ℝ

/-- `muontailfcn`, lines 2463-2465. -/
noncomputable def Muon.fcn (o : Muon n) (A τ : ℝ) (k : ZMod n) : ℂ :=
  A * τ / (1 + (2 * Real.pi * fftfreq o.fs k : ℝ) * τ * Complex.I) * Real.sqrt (o.fs / n)

/-- `residuals`, lines 2467-2487. -/
noncomputable def Muon.residuals (o : Muon n) (A τ : ℝ) : List ℝ :=
  flatten (fun k => o.data k - o.fcn A τ k) o.error

/-- `calcchi2`, line 2506. -/
noncomputable def Muon.calcchi2 (o : Muon n) (m : ZMod n → ℂ) : ℝ :=
  ∑ k, ‖o.data k - m k‖ ^ 2 / o.error k ^ 2

/-- `data` and `error`, lines 2538-2539. -/
noncomputable def Muon.prepare (psd : ZMod n → ℝ) (fs : ℝ) (signal : ZMod n → ℝ) (errscale : ℝ) :
    Muon n where
  psd := psd
  fs := fs
  data := fun k => fftR signal k / (Real.sqrt (fs * n) : ℂ)
  error := fun k => Real.sqrt (psd k / errscale)

/-- `tauguess`, line 2542. -/
noncomputable def muonTau (fs : ℝ) (signal : ZMod n → ℝ) : Except Err ℝ :=
  match argmax ((toL signal).map fun y => -|y - ampscale signal / Real.exp 1|) with
  | .error e => .error e
  | .ok i => .ok (i / fs)

open Classical in
/-- `fitmuontail`, lines 2509-2561. -/
noncomputable def muonFit (psd : ZMod n → ℝ) (fs : ℝ) (signal : ZMod n → ℝ) (errscale : ℝ)
    (solve : List ℝ → List EReal × List EReal → Lsq n) : Except Err (FitResult n) :=
  let o := Muon.prepare psd fs signal errscale
  let amp := ampscale signal
  match muonTau fs signal with
  | .error e => .error e
  | .ok tau =>
    let b : List EReal × List EReal := ([0, 0], [((amp * 100 : ℝ) : EReal), ((tau * 100 : ℝ) : EReal)])
    if ¬ LsqValid [amp, tau] b [|amp|, |tau|] then .error .valueError
    else if ∃ k, o.error k ≤ 0 then .error .valueError  -- residuals not finite
    else
      let r := solve [amp, tau] b
      match r.x with
      | [A, τ] =>
        let cov := pinv (r.jacᵀ * r.jac)
        .ok { lsq := r, errors := fun i => Real.sqrt (cov i i), cov := cov,
              chi2 := o.calcchi2 (o.fcn A τ) }
      | _ => .error .typeError

end Verif.NonLin
