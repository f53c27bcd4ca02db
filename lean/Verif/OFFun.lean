import Verif.OF

/-!
Model of the stand-alone optimum filter functions `ofamp`, `ofamp_pileup`,
`ofamp_pileup_stationary`, `chi2lowfreq`, `chi2_nopulse`
(`/repo/qetpy/core/_fitting.py` lines 1010-1582).

They are written out separately from the class model (`OF.lean`), because the code is: only the
numpy primitives, `toFreq` (`fft(x)/nbins/df`), the delay search and `trunc` (`int`) are shared.
A two-dimensional signal array is the list of its rows.  Length mismatches between signal,
template and PSD are excluded by the types.
-/

namespace Verif.OF.Fun
open Verif Verif.Dft Verif.OF

variable {n : ℕ} [NeZero n]

/-- `psd = inputpsd.copy(); if coupling == 'AC': psd[0] = np.inf`.
Lines 1079-1104, 1240-1274, 1382-1402, 1504-1508, 1568-1578. -/
def acPsd (psd : ZMod n → WithTop ℝ) (ac : Bool) : ZMod n → WithTop ℝ :=
  fun k => if ac ∧ k = 0 then ⊤ else psd k

/-- `s = fft(template)/nbins/df`, divided by `s[0]` for `integralnorm`.  Lines 1091-1095. -/
noncomputable def tmpl (T : ZMod n → ℝ) (fs : ℝ) (integralnorm : Bool) : ZMod n → ℂ :=
  fun k => if integralnorm then toFreq fs T k / toFreq fs T 0 else toFreq fs T k

/-- `phi = s.conjugate() / psd`.  Line 1107. -/
noncomputable def phi (s : ZMod n → ℂ) (psd : ZMod n → WithTop ℝ) : ZMod n → ℂ :=
  fun k => starRingEnd ℂ (s k) * (recip (psd k) : ℂ)

/-- `norm = np.real(np.dot(phi, s)) * df`.  Line 1108. -/
noncomputable def norm (s : ZMod n → ℂ) (psd : ZMod n → WithTop ℝ) (fs : ℝ) : ℝ :=
  (∑ k, phi s psd k * s k).re * (fs / n)

/-- `np.real(np.dot(v.conjugate() / psd, v)) * df`.  Lines 1122, 1145, 1293, 1429. -/
noncomputable def chi0 (v : ZMod n → ℂ) (psd : ZMod n → WithTop ℝ) (fs : ℝ) : ℝ :=
  (∑ k, starRingEnd ℂ (v k) * (recip (psd k) : ℂ) * v k).re * (fs / n)

/-- `np.real(ifft(phi * v / norm * nbins)) * df`.  Line 1119. -/
noncomputable def filt (s v : ZMod n → ℂ) (psd : ZMod n → WithTop ℝ) (fs : ℝ) : ZMod n → ℝ :=
  fun m => (ifft (fun k => phi s psd k * v k / (norm s psd fs : ℂ) * (n : ℂ)) m).re * (fs / n)

/-- `_argmin_chi2` on a two-dimensional `chi2` with `windowcenter = 0` and no mask: one index per
row, or `nan` (`none`) when the window is empty.  Lines 63-108. -/
noncomputable def argminRows (chis : List (ZMod n → ℝ)) (nconstrain : Option ℤ) (outside : Bool) :
    Except Err (Option (List ℤ)) :=
  if ¬ (-((n : ℤ) / 2) ≤ 0 ∧ 0 ≤ (n : ℤ) / 2 - ((n : ℤ) + 1) % 2) then .error .valueError
  else
    match nconstrain with
    | some k =>
      if k ≤ 0 ∧ ¬ k > n then .error .valueError
      else
        let inds := winInds n (if k > n then (n : ℤ) else k) outside 0
        if inds = [] then .ok none
        else .ok (some (chis.map fun c => (argminOn (asIdx c) inds).getD 0))
    | none => .ok (some (chis.map fun c => (argminOn (asIdx c) (arange 0 n)).getD 0))

/-- `np.diag(a[:, inds])`: entry `i` is `a[i, inds[i]]`. -/
def diagAt {α : Type*} (rows : List (ZMod n → α)) (inds : List ℤ) : List α :=
  (List.range rows.length).filterMap fun i =>
    match rows[i]?, inds[i]? with
    | some r, some j => some (r (j : ZMod n))
    | _, _ => none

/-- `ofamp` on the rows `xs`; the result is one `(amp, t0, chi2)` per row.  Lines 1079-1162. -/
noncomputable def ofamp (xs : List (ZMod n → ℝ)) (T : ZMod n → ℝ) (psd : ZMod n → WithTop ℝ)
    (fs : ℝ) (withdelay ac : Bool) (nconstrain : Option ℤ) (outside integralnorm : Bool) :
    Except Err (List (ℝ × ℝ × ℝ)) :=
  let p := acPsd psd ac
  let s := tmpl T fs integralnorm
  let N := norm s p fs
  let vs := xs.map (toFreq fs)
  if withdelay then
    let amps := vs.map fun v => filt s v p fs
    let chis := vs.map fun v m => chi0 v p fs - filt s v p fs m ^ 2 * N
    let amps' := amps.map fun a => roll a ((n / 2 : ℕ) : ZMod n)
    let chis' := chis.map fun c => roll c ((n / 2 : ℕ) : ZMod n)
    match argminRows chis' nconstrain outside with
    | .error e => .error e
    | .ok none => .error .indexError        -- `amps[:, nan]`
    | .ok (some inds) =>
      .ok ((diagAt amps' inds).zip ((inds.map fun (i : ℤ) => ((i : ℝ) - ((n / 2 : ℕ) : ℝ)) / fs).zip
        (diagAt chis' inds)))
  else
    .ok (vs.map fun v =>
      let amp := (∑ k, phi s p k * v k / (N : ℂ)).re * (fs / n)
      (amp, 0, chi0 v p fs - amp ^ 2 * N))

/-- The `sigma` that `ofamp` returns with `lgcsigma=True`.  Lines 1111-1113. -/
noncomputable def ofampSigma (T : ZMod n → ℝ) (psd : ZMod n → WithTop ℝ) (fs : ℝ)
    (ac integralnorm : Bool) : ℝ :=
  1 / Real.sqrt ((∑ k, phi (tmpl T fs integralnorm) (acPsd psd ac) k * tmpl T fs integralnorm k).re
    * (fs / n))

/-- The first pulse used by `ofamp_pileup`.  Lines 1248-1257. -/
noncomputable def firstPulse (x T : ZMod n → ℝ) (psd : ZMod n → WithTop ℝ) (fs : ℝ)
    (a1 t1 : Option ℝ) (ac : Bool) (nconstrain1 : Option ℤ) : Except Err (ℝ × ℝ) :=
  match a1, t1 with
  | some a, some t => .ok (a, t)
  | _, _ =>
    match ofamp [x] T psd fs true ac nconstrain1 false false with
    | .error e => .error e
    | .ok l => .ok ((l.headD (0, 0, 0)).1, (l.headD (0, 0, 0)).2.1)

/-- `ofamp_pileup`, returning `(a1, t1, a2, t2, chi2)`.  Lines 1240-1325.
`signalfilt_td[t1ind]` raises IndexError outside `-n .. n-1`, and so does indexing with the `nan`
of an empty window. -/
noncomputable def ofampPileup (x T : ZMod n → ℝ) (psd : ZMod n → WithTop ℝ) (fs : ℝ)
    (a1 t1 : Option ℝ) (ac : Bool) (nconstrain1 nconstrain2 : Option ℤ) (outside : Bool) :
    Except Err (ℝ × ℝ × ℝ × ℝ × ℝ) :=
  match firstPulse x T psd fs a1 t1 ac nconstrain1 with
  | .error e => .error e
  | .ok (a1, t1) =>
    let p := acPsd psd ac
    let s := tmpl T fs false
    let v := toFreq fs x
    let N := norm s p fs
    let sf := filt s v p fs
    let omega : ZMod n → ℝ := fun k => 2 * Real.pi * fftfreq fs k
    let tf : ZMod n → ℝ := fun m =>
      (ifft (fun k => Complex.exp (-1 * Complex.I * omega k * t1) * phi s p k * s k * (n : ℂ)) m).re
        * (fs / n)
    let times : ZMod n → ℝ := fun i => ((i.val : ℝ) - ((n / 2 : ℕ) : ℝ)) / fs
    let a2s : ZMod n → ℝ := fun m => sf m - a1 * tf m / N
    let chit : ZMod n → ℝ := fun m => (a1 ^ 2 + a2s m ^ 2) * N + 2 * a1 * a2s m * tf m
    let t1ind := if t1 < 0 then trunc (t1 * fs + n) else trunc (t1 * fs)
    if ¬ (-(n : ℤ) ≤ t1ind ∧ t1ind < n) then .error .indexError
    else
      let chil : ZMod n → ℝ := fun m => 2 * a1 * sf (t1ind : ZMod n) * N + 2 * a2s m * sf m * N
      let chi : ZMod n → ℝ := fun m => chi0 v p fs + chit m - chil m
      let a2s' := roll a2s ((n / 2 : ℕ) : ZMod n)
      let chi' := roll chi ((n / 2 : ℕ) : ZMod n)
      match argminChi2 n (asIdx chi') nconstrain2 outside none 0 with
      | .error e => .error e
      | .ok none => .error .indexError
      | .ok (some i) =>
        .ok (a1, t1, a2s' (i : ZMod n), times (i : ZMod n), chi' (i : ZMod n))

open Classical in
/-- `ofamp_pileup_stationary`, returning `(a1, a2, t2, chi2)`.  Lines 1382-1459.  A vanishing
`denom` at a non-zero delay puts `nan` or `inf` into the arrays (`.nan`). -/
noncomputable def ofampPileupStationary (x T : ZMod n → ℝ) (psd : ZMod n → WithTop ℝ) (fs : ℝ)
    (ac : Bool) (nconstrain : Option ℤ) (outside : Bool) : Except Err (ℝ × ℝ × ℝ × ℝ) :=
  let p := acPsd psd ac
  let s := tmpl T fs false
  let v := toFreq fs x
  let N := norm s p fs
  let sf : ZMod n → ℝ := fun m => filt s v p fs m * N
  let tf : ZMod n → ℝ := fun m =>
    (ifft (fun k => phi s p k * s k * (n : ℂ)) m).re * (fs / n)
  let times : ZMod n → ℝ := fun i => ((i.val : ℝ) - ((n / 2 : ℕ) : ℝ)) / fs
  let denom : ZMod n → ℝ := fun m => N ^ 2 - tf m ^ 2
  let a1s : ZMod n → ℝ := fun m =>
    if m = 0 then sf 0 / (2 * N ^ 2) else (sf 0 * N - sf m * tf m) / denom m
  let a2s : ZMod n → ℝ := fun m =>
    if m = 0 then sf 0 / (2 * N ^ 2) else (sf m * N - sf 0 * tf m) / denom m
  let chit : ZMod n → ℝ := fun m => (a1s m ^ 2 + a2s m ^ 2) * N + 2 * a1s m * a2s m * tf m
  let chil : ZMod n → ℝ := fun m => 2 * a1s m * sf 0 + 2 * a2s m * sf m
  let chi : ZMod n → ℝ := fun m => chi0 v p fs + chit m - chil m
  let h : ZMod n := ((n / 2 : ℕ) : ZMod n)
  match argminChi2 n (asIdx (roll chi h)) nconstrain outside none 0 with
  | .error e => .error e
  | .ok none => .error .indexError
  | .ok (some i) =>
    if ∃ j ∈ searchedBins n nconstrain outside 0, (j : ZMod n) - h ≠ 0 ∧ denom ((j : ZMod n) - h) = 0
    then .error .nan
    else .ok (roll a1s h (i : ZMod n), roll a2s h (i : ZMod n), times (i : ZMod n),
      roll chi h (i : ZMod n))

/-- numpy broadcasting of two one-dimensional arrays along the row axis. -/
def bcast {α β : Type*} : List α → List β → Except Err (List (α × β))
  | [a], bs => .ok (bs.map fun b => (a, b))
  | as, [b] => .ok (as.map fun a => (a, b))
  | as, bs => if as.length = bs.length then .ok (as.zip bs) else .error .valueError

/-- `chi2lowfreq` on the rows `xs` with one `(amp, t0)` per fit.  Lines 1504-1538. -/
noncomputable def chi2lowfreq (xs : List (ZMod n → ℝ)) (T : ZMod n → ℝ) (ats : List (ℝ × ℝ))
    (psd : ZMod n → WithTop ℝ) (fs fcutoff : ℝ) (ac : Bool) : Except Err (List ℝ) :=
  let p := acPsd psd ac
  let s := toFreq fs T
  match bcast xs ats with
  | .error e => .error e
  | .ok l => .ok (l.map fun q =>
      ∑ k, if |fftfreq fs k| ≤ fcutoff then
        (fs / n) * ‖toFreq fs q.1 k - (q.2.1 : ℂ) *
          Complex.exp (-2 * Complex.I * Real.pi * q.2.2 * fftfreq fs k) * s k‖ ^ 2 * recip (p k)
        else 0)

/-- `chi2_nopulse`.  Lines 1568-1582. -/
noncomputable def chi2Nopulse (x : ZMod n → ℝ) (psd : ZMod n → WithTop ℝ) (fs : ℝ) (ac : Bool) : ℝ :=
  fs / n * ∑ k, ‖toFreq fs x k‖ ^ 2 * recip (acPsd psd ac k)

end Verif.OF.Fun
