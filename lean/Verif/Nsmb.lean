import Verif.Dft
import Verif.Np
import Verif.Pinv
import Verif.Argmin
import Verif.OF

/-!
Model of the multi-template optimum filter: `/repo/qetpy/core/_of_nsmb.py` lines 11-1166.

Conventions.
* Time and frequency axes are `ZMod n`; template `0` is the signal, templates `1 .. nb` are the
  backgrounds (`Fin (nb + 1)`).  `of_nsmb_setup` always produces one signal template (`ns = 1`:
  it adds one axis to a one-dimensional `stemplatet`), so `ns` is not a parameter here.
* Arrays are passed in the documented orientation (`psddnu`, `sbtemplatef` of `of_nsmb_setup`
  transposed, as `test/test_ofnsmb.py` does).
* `fs` and the PSD are real; divisions by a zero PSD bin are not modelled (the theorems assume a
  positive PSD).
* Plotting is in `NsmbPlot`; `print` is not modelled.
-/

namespace Verif.Nsmb

open Verif.Dft Matrix

variable {n : ℕ} [NeZero n] {nb : ℕ}

/-- `of_nsmb_ffttemplate`, `_of_nsmb.py` lines 35-46: `fft(sbtemplatet)/nt`. -/
noncomputable def sbtemplatef (T : Fin (nb + 1) → ZMod n → ℝ) (i : Fin (nb + 1)) (f : ZMod n) : ℂ :=
  fftR (T i) f / n

/-- `psddnu` of `of_nsmb_setup`, lines 244-252: `psd*dnu` with the DC bin replaced by bin 1. -/
noncomputable def psddnu (psd : ZMod n → ℝ) (fs : ℝ) (f : ZMod n) : ℝ :=
  let dt := 1 / fs
  let dnu := 1 / (n * dt)
  if f = 0 then psd 1 * dnu else psd f * dnu

/-- `phi` of `of_nsmb_getPf`, lines 87-90. -/
noncomputable def phi (sbf : Fin (nb + 1) → ZMod n → ℂ) (J : ZMod n → ℝ) (i : Fin (nb + 1))
    (f : ZMod n) : ℂ := starRingEnd ℂ (sbf i f) / J f

/-- `Pf` of `of_nsmb_getPf`, lines 91-94. -/
noncomputable def Pf (sbf : Fin (nb + 1) → ZMod n → ℂ) (J : ZMod n → ℝ) (i j : Fin (nb + 1))
    (f : ZMod n) : ℂ := starRingEnd ℂ (sbf i f) / J f * sbf j f

/-- `Pfs` of `of_nsmb_getPf`, line 97. -/
noncomputable def Pfs (sbf : Fin (nb + 1) → ZMod n → ℂ) (J : ZMod n → ℝ) :
    Matrix (Fin (nb + 1)) (Fin (nb + 1)) ℝ := of fun i j => (∑ f, Pf sbf J i j f).re

/-- `P = np.real(np.fft.ifft(Pf,axis=2)*nt)`, line 261. -/
noncomputable def P0 (sbf : Fin (nb + 1) → ZMod n → ℂ) (J : ZMod n → ℝ) (i j : Fin (nb + 1))
    (t : ZMod n) : ℝ := (ifft (Pf sbf J i j) t * n).re

/-- The signal-signal and background-background corners are frozen at zero delay, lines 268-275. -/
noncomputable def P1 (sbf : Fin (nb + 1) → ZMod n → ℂ) (J : ZMod n → ℝ) (i j : Fin (nb + 1))
    (t : ZMod n) : ℝ :=
  if i = 0 ∧ j = 0 then P0 sbf J i j 0
  else if i ≠ 0 ∧ j ≠ 0 then P0 sbf J i j 0
  else P0 sbf J i j t

/-- The lower triangle is copied from the upper one, lines 277-282. -/
noncomputable def P (sbf : Fin (nb + 1) → ZMod n → ℂ) (J : ZMod n → ℝ) (i j : Fin (nb + 1))
    (t : ZMod n) : ℝ := if i > j then P1 sbf J j i t else P1 sbf J i j t

/-- The values returned by `of_nsmb_setup` (the constants `ns = 1`, `nb`, `bitcomb`, `lfindex = 500`
are not repeated). -/
structure Filt (n nb : ℕ) where
  psddnu : ZMod n → ℝ
  phi : Fin (nb + 1) → ZMod n → ℂ
  Pfs : Matrix (Fin (nb + 1)) (Fin (nb + 1)) ℝ
  P : Fin (nb + 1) → Fin (nb + 1) → ZMod n → ℝ
  sbf : Fin (nb + 1) → ZMod n → ℂ
  sbt : Fin (nb + 1) → ZMod n → ℝ
  B : Matrix (Fin nb) (Fin nb) ℝ
  iB : Matrix (Fin nb) (Fin nb) ℝ

/-- `of_nsmb_setup`, lines 233-294.  `psddnu[1]` raises `IndexError` for one-bin traces; with one
background template `np.squeeze(B)` is zero-dimensional and `pinv` raises `LinAlgError`
(lines 284-285). -/
noncomputable def setup (T : Fin (nb + 1) → ZMod n → ℝ) (psd : ZMod n → ℝ) (fs : ℝ) :
    Except Err (Filt n nb) :=
  if n = 1 then .error .indexError
  else if nb = 1 then .error .linAlgError
  else
    let J := psddnu psd fs
    let sbf := sbtemplatef T
    let B : Matrix (Fin nb) (Fin nb) ℝ := of fun i j => P0 sbf J i.succ j.succ 0
    .ok { psddnu := J, phi := phi sbf J, Pfs := Pfs sbf J, P := P sbf J, sbf := sbf, sbt := T,
          B := B, iB := pinv B }

/-- One time slice of `P`. -/
noncomputable def slice (P : Fin (nb + 1) → Fin (nb + 1) → ZMod n → ℝ) (t : ZMod n) :
    Matrix (Fin (nb + 1)) (Fin (nb + 1)) ℝ := of fun i j => P i j t

/-- `of_nsmb_getiP`, lines 319-329. -/
noncomputable def getiP (P : Fin (nb + 1) → Fin (nb + 1) → ZMod n → ℝ) (t : ZMod n) :
    Matrix (Fin (nb + 1)) (Fin (nb + 1)) ℝ := pinv (slice P t)

/-- `pulsef = np.fft.fft(pulset)/nt` (lines 414, 591, 798). -/
noncomputable def pulsef (p : ZMod n → ℝ) (f : ZMod n) : ℂ := fftR p f / n

/-- `qf[isb] = phi[isb]*pulsef` (lines 417-420, 594-596, 801-803). -/
noncomputable def qf (phi : Fin (nb + 1) → ZMod n → ℂ) (p : ZMod n → ℝ) (i : Fin (nb + 1))
    (f : ZMod n) : ℂ := phi i f * pulsef p f

/-- `qt` (lines 599-609, 806-817): the filtered trace at every delay for the signal, the plain sum
for the backgrounds. -/
noncomputable def qt (phi : Fin (nb + 1) → ZMod n → ℂ) (p : ZMod n → ℝ) (t : ZMod n)
    (i : Fin (nb + 1)) : ℝ :=
  if i = 0 then (ifft (qf phi p i) t).re * n else (∑ f, qf phi p i f).re

/-- `chi2base` (lines 624, 825). -/
noncomputable def chi2base (J : ZMod n → ℝ) (p : ZMod n → ℝ) : ℝ :=
  (∑ f, starRingEnd ℂ (pulsef p f) / J f * pulsef p f).re

/-- `a_t` (lines 611-621). -/
noncomputable def aT (phi : Fin (nb + 1) → ZMod n → ℂ)
    (iP : ZMod n → Matrix (Fin (nb + 1)) (Fin (nb + 1)) ℝ) (p : ZMod n → ℝ) (t : ZMod n) :
    Fin (nb + 1) → ℝ := iP t *ᵥ qt phi p t

/-- `chi2_t` (lines 627-629). -/
noncomputable def chi2T (J : ZMod n → ℝ) (phi : Fin (nb + 1) → ZMod n → ℂ)
    (iP : ZMod n → Matrix (Fin (nb + 1)) (Fin (nb + 1)) ℝ) (p : ZMod n → ℝ) (t : ZMod n) : ℝ :=
  chi2base J p - ∑ i, aT phi iP p t i * qt phi p t i

/-- The window is wrapped into the trace in place, lines 633-638. -/
def wrapIdx (n : ℕ) (i : ℤ) : ℤ :=
  let j := if i < 0 then n + i else i
  if j ≥ n then j % n else j

/-- `omega` (lines 580-585, 779-784): `arange(nt)*dnu`, minus `nt*dnu` above half the range. -/
noncomputable def omega (fs : ℝ) (f : ZMod n) : ℝ :=
  let dt := 1 / fs
  let dnu := 1 / (n * dt)
  let nu := (f.val : ℝ) * dnu
  2 * Real.pi * (if nu > n * dnu / 2 then nu - n * dnu else nu)

/-- `tdelmin` (lines 648, 957). -/
noncomputable def tdel (n : ℕ) (fs : ℝ) (ind : ℤ) : ℝ :=
  let dt := 1 / fs
  ((ind : ℝ) - n * (if (ind : ℝ) > (n : ℝ) / 2 then 1 else 0)) * dt

/-- Residual of the best fit in the time domain (lines 651-660, 1021-1033). -/
noncomputable def resid (sbf : Fin (nb + 1) → ZMod n → ℂ) (fs : ℝ) (p : ZMod n → ℝ)
    (a : Fin (nb + 1) → ℝ) (td : ℝ) (m : ZMod n) : ℝ :=
  let phase (i : Fin (nb + 1)) (f : ZMod n) : ℂ :=
    if i = 0 then Complex.exp (-(Complex.I * (omega fs f : ℂ) * (td : ℂ))) else 1
  let fitf (f : ZMod n) : ℂ := ∑ i, (a i : ℂ) * sbf i f * phase i f
  p m - (ifft fitf m * n).re

/-- `np.real(np.sum(np.conj(residTf)/psddnu*residTf))` (lines 663, 1036). -/
noncomputable def residChi2 (J : ZMod n → ℝ) (r : ZMod n → ℝ) : ℝ :=
  (∑ f, starRingEnd ℂ (fftR r f / n) / J f * (fftR r f / n)).re

/-- The same sum over the first `lf` frequency bins (lines 664, 1037). -/
noncomputable def residChi2Lf (J : ZMod n → ℝ) (r : ZMod n → ℝ) (lf : ℕ) : ℝ :=
  (∑ f with f.val < lf, starRingEnd ℂ (fftR r f / n) / J f * (fftR r f / n)).re

/-- The values returned by `of_nsmb`, and the window array as it is left behind. -/
structure Fit (n nb : ℕ) where
  amps : Fin (nb + 1) → ℝ
  tdelmin : ℝ
  chi2min : ℝ
  chi2minlf : ℝ
  residT : ZMod n → ℝ
  window : List ℤ

/-- The index of `np.argmin(chi2_t[indwindow])` in the window (lines 641-645, 947-950): fancy
indexing raises `IndexError` out of range, `np.amin` raises `ValueError` on an empty window. -/
noncomputable def pickIdx (chi2 : ZMod n → ℝ) (win : List ℤ) : Except Err ℤ :=
  if ∃ i ∈ win, ¬ (-(n : ℤ) ≤ i ∧ i < n) then .error .indexError
  else
    match OF.argminOn (OF.asIdx chi2) win with
    | none => .error .valueError
    | some i => .ok i

/-- `of_nsmb`, lines 568-668.  With a single template (`nb = 0`) the squeezed arrays lose an axis:
`chi2_t` has one entry and `a_t[:,ind_tdel]` raises `IndexError` (an empty window raises
`ValueError` before that). -/
noncomputable def ofNsmb (p : ZMod n → ℝ) (F : Filt n nb)
    (iP : ZMod n → Matrix (Fin (nb + 1)) (Fin (nb + 1)) ℝ) (fs : ℝ) (window : List ℤ) (lf : ℕ) :
    Except Err (Fit n nb) :=
  let win := window.map (wrapIdx n)
  if nb = 0 then (if window = [] then .error .valueError else .error .indexError)
  else
    match pickIdx (chi2T F.psddnu F.phi iP p) win with
    | .error e => .error e
    | .ok ind =>
      let amin := aT F.phi iP p (ind : ZMod n)
      let td := tdel n fs ind
      let r := resid F.sbf fs p amin td
      .ok { amps := amin, tdelmin := td, chi2min := chi2T F.psddnu F.phi iP p (ind : ZMod n),
            chi2minlf := residChi2Lf F.psddnu r lf, residT := r, window := win }

/-- `_index_disallowed`, lines 1152-1166. -/
noncomputable def disallowed {ι : Type*} (a : ι → ℝ) (c : ι → ℤ) (i : ι) : Bool :=
  decide (a i < 0 ∧ c i = 1) || decide (a i > 0 ∧ c i = -1) || decide (a i = 0)

/-- Number of ones in a mask. -/
def ones {ι : Type*} [Fintype ι] (m : ι → Bool) : ℕ := (Finset.univ.filter fun i => m i).card

/-- Amplitudes of the collapsed fit put back into a full vector (lines 447-448, 884-885). -/
def expand {ι : Type*} (m : ι → Bool) (a : {i // m i = true} → ℝ) (i : ι) : ℝ :=
  if h : m i = true then a ⟨i, h⟩ else 0

/-- `of_mb`, lines 401-487.  `c` is `bkgpolarityconstraint`.  `np.squeeze(np.nonzero(..))` is
zero-dimensional when exactly one background is left, and `np.ix_` then raises `ValueError`
(line 434).  Returns the amplitudes, chi2 and low-frequency chi2. -/
noncomputable def ofMb (p : ZMod n → ℝ) (F : Filt n nb) (c : Fin nb → ℤ) (lf : ℕ) :
    Except Err ((Fin nb → ℝ) × ℝ × ℝ) :=
  let bsum : Fin nb → ℝ := fun i => (∑ f, qf F.phi p i.succ f).re
  let a0 := F.iB *ᵥ bsum
  let m : Fin nb → Bool := fun i => !disallowed a0 c i
  if ones m = 1 then .error .valueError
  else
    let Bm : Matrix {i // m i = true} {i // m i = true} ℝ := F.B.submatrix (·.1) (·.1)
    let a := expand m (pinv Bm *ᵥ fun i => bsum i.1)
    let r : ZMod n → ℝ := fun τ => p τ - ∑ i, F.sbt i.succ τ * a i
    .ok (a, residChi2 F.psddnu r, residChi2Lf F.psddnu r lf)

/-- The matrix assembled by `of_nsmb_getPt` for the templates in the mask, lines 162-173: first row
and column from `P` at the given delay if the signal is active, corners from `Pfs`. -/
def ptEntry (Pfs : Matrix (Fin (nb + 1)) (Fin (nb + 1)) ℝ)
    (P : Fin (nb + 1) → Fin (nb + 1) → ZMod n → ℝ) (t : ZMod n) (i j : Fin (nb + 1)) : ℝ :=
  if i = 0 ∧ j = 0 then Pfs i j
  else if i ≠ 0 ∧ j ≠ 0 then Pfs i j
  else if i = 0 then P i j t
  else P j i t

/-- `Pt_mask` of `of_nsmb_getPt`, lines 139-177.  With exactly one active template `indexbitmask`
is zero-dimensional and slicing it raises `IndexError`, again in the handler (lines 154-158). -/
def getPt (Pfs : Matrix (Fin (nb + 1)) (Fin (nb + 1)) ℝ)
    (P : Fin (nb + 1) → Fin (nb + 1) → ZMod n → ℝ) (t : ZMod n) (m : Fin (nb + 1) → Bool) :
    Except Err (Matrix {i // m i = true} {i // m i = true} ℝ) :=
  if ones m = 1 then .error .indexError
  else .ok (of fun i j => ptEntry Pfs P t i.1 j.1)

/-- Fit with the templates in the mask, expanded to all templates (lines 875-886). -/
noncomputable def maskFit (F : Filt n nb) (p : ZMod n → ℝ) (t : ZMod n) (m : Fin (nb + 1) → Bool) :
    Except Err (Fin (nb + 1) → ℝ) :=
  match getPt F.Pfs F.P t m with
  | .error e => .error e
  | .ok M => .ok (expand m (pinv M *ᵥ fun i => qt F.phi p t i.1))

/-- The matrix of the fit with every template floating (`combind = 2**nsb - 1`). -/
def fullPt (F : Filt n nb) (t : ZMod n) : Matrix (Fin (nb + 1)) (Fin (nb + 1)) ℝ :=
  of fun i j => ptEntry F.Pfs F.P t i j

/-- The templates that stay in the fit: those not (disallowed with the negative gradient at the
closest allowed point also disallowed), lines 849-871 and 893-907.  `a0` is the unconstrained
minimum, `a` the current amplitudes. -/
noncomputable def keep (M : Matrix (Fin (nb + 1)) (Fin (nb + 1)) ℝ) (c : Fin (nb + 1) → ℤ)
    (a0 a : Fin (nb + 1) → ℝ) (i : Fin (nb + 1)) : Bool :=
  let fz := disallowed a c
  let bd : Fin (nb + 1) → ℝ := fun i => if fz i then 0 else a i
  let neg : Fin (nb + 1) → ℝ := fun i => -(M *ᵥ (bd - a0)) i
  !(fz i && disallowed neg c i)

/-- The body of the polarity loop of `of_nsmb_con` for one delay, lines 833-942: three refits. -/
noncomputable def conStep (F : Filt n nb) (p : ZMod n → ℝ) (c : Fin (nb + 1) → ℤ) (t : ZMod n) :
    Except Err (Fin (nb + 1) → ℝ) :=
  if nb = 0 then .error .indexError
  else
    let M := fullPt F t
    let a0 := pinv M *ᵥ qt F.phi p t
    let m1 := keep M c a0 a0
    match maskFit F p t m1 with
    | .error e => .error e
    | .ok a1 =>
      let m2 := keep M c a0 a1
      match (if m1 = m2 then .ok a1 else maskFit F p t m2) with
      | .error e => .error e
      | .ok a2 =>
        let m3 : Fin (nb + 1) → Bool := fun i => !disallowed a2 c i
        if m2 = m3 then .ok a2 else maskFit F p t m3

/-- `chi2new[ii]`, lines 940-942: the sum over the templates left in the fit; the other amplitudes
are zero, so the sum over all templates is the same. -/
noncomputable def conChi2 (F : Filt n nb) (p : ZMod n → ℝ) (t : ZMod n) (a : Fin (nb + 1) → ℝ) : ℝ :=
  chi2base F.psddnu p - ∑ i, a i * qt F.phi p t i

/-- Parabola `z0 x^2 + z1 x + z2` through three points (`np.polyfit(x, y, 2)`). -/
noncomputable def polyfit3 (p q r : ℝ × ℝ) : ℝ × ℝ × ℝ :=
  let d1 := (q.2 - p.2) / (q.1 - p.1)
  let d2 := (r.2 - q.2) / (r.1 - q.1)
  let z0 := (d2 - d1) / (r.1 - p.1)
  let z1 := d1 - z0 * (p.1 + q.1)
  (z0, z1, p.2 - z1 * p.1 - z0 * p.1 ^ 2)

/-- `_interpchi2`, lines 1109-1128, on the list of `(time, chi2, amp)`.  An empty slice makes
`np.polyfit` raise `TypeError`.  Not modelled (`.nan`): slices of one or two points, repeated
abscissae and a vanishing quadratic coefficient.  Returns time, chi2 and amplitude. -/
noncomputable def interpchi2 (ind : ℤ) (pts : List (ℝ × ℝ × ℝ)) : Except Err (ℝ × ℝ × ℝ) :=
  match (pts.take (Np.clipIdx pts.length (ind + 2))).drop (Np.clipIdx pts.length (ind - 1)) with
  | [] => .error .typeError
  | [a, b, c] =>
    if a.1 = b.1 ∨ b.1 = c.1 ∨ a.1 = c.1 then .error .nan
    else
      let z := polyfit3 (a.1, a.2.1) (b.1, b.2.1) (c.1, c.2.1)
      if z.1 = 0 then .error .nan
      else
        let t := -z.2.1 / (2 * z.1)
        let za := polyfit3 (a.1, a.2.2) (b.1, b.2.2) (c.1, c.2.2)
        .ok (t, z.1 * t ^ 2 + z.2.1 * t + z.2.2, za.1 * t ^ 2 + za.2.1 * t + za.2.2)
  | _ => .error .nan

/-- The results of one further window (lines 990-1016). -/
structure WinFit where
  chi2 : ℝ
  asig : ℝ
  tdel : ℝ
  interp : Except Err (ℝ × ℝ × ℝ)

/-- One further window, lines 990-1016: indices count from the start of the trace, so `chi2` and
the amplitudes are rolled by `int(nt/2)`.  A one-element window is squeezed to zero dimensions and
`indwindow[ind]` raises `IndexError`. -/
noncomputable def winFit (chi2 asig : ZMod n → ℝ) (fs : ℝ) (win : List ℤ) : Except Err WinFit :=
  let h : ZMod n := ((n / 2 : ℕ) : ZMod n)
  let dt := 1 / fs
  match pickIdx (roll chi2 h) win with
  | .error e => .error e
  | .ok ind =>
    if win.length = 1 then .error .indexError
    else
      let sm := win.findIdx (· = ind)
      .ok { chi2 := roll chi2 h (ind : ZMod n), asig := roll asig h (ind : ZMod n), tdel := ind * dt,
            interp := if sm = 0 ∨ sm = win.length - 1 then
                .ok (ind * dt, roll chi2 h (ind : ZMod n), roll asig h (ind : ZMod n))
              else interpchi2 sm (win.map fun (i : ℤ) => ((i : ℝ) * dt, roll chi2 h (i : ZMod n),
                roll asig h (i : ZMod n))) }

/-- The values returned by `of_nsmb_con`.  `interp` holds time, chi2 and amplitude of the
interpolated minimum (`.nan` where the model does not follow numpy). -/
structure ConFit (n nb : ℕ) where
  amps : Fin (nb + 1) → ℝ
  tdelmin : ℝ
  chi2min : ℝ
  chi2minlf : ℝ
  residT : ZMod n → ℝ
  interp : Except Err (ℝ × ℝ × ℝ)
  wins : List WinFit

/-- First error of the loop over the delays `0 .. nt-1`. -/
noncomputable def firstErr (F : Filt n nb) (p : ZMod n → ℝ) (c : Fin (nb + 1) → ℤ) : Option Err :=
  (List.range n).findSome? fun (ii : ℕ) =>
    match conStep F p c (ii : ZMod n) with
    | .error e => some e
    | .ok _ => none

/-- `a_tsetnew[:,ii]`. -/
noncomputable def conAmps (F : Filt n nb) (p : ZMod n → ℝ) (c : Fin (nb + 1) → ℤ) (t : ZMod n) :
    Fin (nb + 1) → ℝ :=
  match conStep F p c t with
  | .ok a => a
  | .error _ => 0

/-- The window loop. -/
noncomputable def winFits (chi2 asig : ZMod n → ℝ) (fs : ℝ) : List (List ℤ) → Except Err (List WinFit)
  | [] => .ok []
  | w :: ws =>
    match winFit chi2 asig fs w with
    | .error e => .error e
    | .ok r =>
      match winFits chi2 asig fs ws with
      | .error e => .error e
      | .ok rs => .ok (r :: rs)

/-- `of_nsmb_con`, lines 768-1082.  `c` is the concatenated polarity constraint, `window` is
`indwindow_nsmb[0]`, `wins` the further windows.  The final gradient check only prints. -/
noncomputable def ofNsmbCon (p : ZMod n → ℝ) (F : Filt n nb) (fs : ℝ) (c : Fin (nb + 1) → ℤ)
    (window : List ℤ) (wins : List (List ℤ)) (lf : ℕ) : Except Err (ConFit n nb) :=
  match firstErr F p c with
  | some e => .error e
  | none =>
    let a := conAmps F p c
    let chi : ZMod n → ℝ := fun t => conChi2 F p t (a t)
    match pickIdx chi window with
    | .error e => .error e
    | .ok ind =>
      let dt := 1 / fs
      match interpchi2 ind ((List.range n).map fun (k : ℕ) =>
          ((k : ℝ) * dt, chi (k : ZMod n), a (k : ZMod n) 0)) with
      | .error .typeError => .error .typeError
      | it =>
        match winFits chi (fun t => a t 0) fs wins with
        | .error e => .error e
        | .ok ws =>
          let amin := a (ind : ZMod n)
          let td := tdel n fs ind
          let r := resid F.sbf fs p amin td
          .ok { amps := amin, tdelmin := td, chi2min := residChi2 F.psddnu r,
                chi2minlf := residChi2Lf F.psddnu r lf, residT := r,
                interp := match it with
                  | .ok (t, x, y) => .ok (t - n * dt * (if t > n * dt / 2 then 1 else 0), x, y)
                  | .error e => .error e,
                wins := ws }

end Verif.Nsmb
