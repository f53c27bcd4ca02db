import Verif.Dft
import Verif.Utils
import Mathlib.LinearAlgebra.Matrix.NonsingularInverse
import Mathlib.Analysis.SpecialFunctions.Trigonometric.Basic

/-!
Model of `/repo/qetpy/core/_noise.py`: `foldpsd`, `calc_psd`, `smooth_psd`, `gen_noise` and the
class `Noise` (constructor, slope removal, PSD, CSD, correlation coefficients, uncorrelated noise).

A two-sided array of length `n` is a function on `ZMod n`; a one-sided array (`rfft` layout, length
`n//2 + 1`) is a function on `Half n`.  Saving is not modelled; the
spreads of the CSD are in `NoiseCsd`, the plots in `NoisePlot`.
-/

namespace Verif.Noise
open Verif Verif.Dft

/-- Indices of the one-sided arrays. -/
abbrev Half (n : ℕ) := Fin (n / 2 + 1)

variable {n : ℕ} [NeZero n]

/-- Bin `k` of a one-sided array as a bin of the two-sided array. -/
def Half.bin (k : Half n) : ZMod n := ((k : ℕ) : ZMod n)

/-- `np.fft.rfft` of a real trace. -/
noncomputable def rfft (x : ZMod n → ℝ) (k : Half n) : ℂ := fftR x k.bin

/-- `np.fft.rfftfreq(n, d=1/fs)`. -/
noncomputable def rfftfreq (fs : ℝ) (k : Half n) : ℝ := ((k : ℕ) : ℝ) * fs / n

/-- `arr[lo:hi] *= c` on a one-sided array. -/
noncomputable def mulSlice (a : Half n → ℝ) (lo hi : ℕ) (c : ℝ) : Half n → ℝ :=
  fun k => if lo ≤ (k : ℕ) ∧ (k : ℕ) < hi then a k * c else a k

/-- `foldpsd`, second return value.  Lines 37-38. -/
noncomputable def foldpsd (psd : ZMod n → ℝ) : Half n → ℝ :=
  mulSlice (fun k => psd k.bin) 1 (n / 2 + n % 2) 2

/-- `foldpsd`, first return value.  Line 39. -/
noncomputable def foldpsdFreqs (fs : ℝ) : Half n → ℝ := rfftfreq fs

/-- `np.mean(..., axis=0)` over `m` traces. -/
noncomputable def avg {m : ℕ} (f : Fin m → ℝ) : ℝ := (∑ t, f t) / m

/-- `calc_psd(x, fs, folded_over=True)`, second return value, for `m` traces (one-dimensional
input is `m = 1`).  Lines 69-81. -/
noncomputable def calcPsdFolded {m : ℕ} (x : Fin m → ZMod n → ℝ) (fs : ℝ) : Half n → ℝ :=
  mulSlice (fun k => avg (fun t => ‖rfft (x t) k‖ ^ 2) / (fs * n)) 1 (n / 2 + 1 - (n + 1) % 2) 2

/-- `calc_psd(x, fs, folded_over=False)`, second return value.  Lines 69, 84-90. -/
noncomputable def calcPsdTwoSided {m : ℕ} (x : Fin m → ZMod n → ℝ) (fs : ℝ) : ZMod n → ℝ :=
  fun k => avg (fun t => ‖fftR (x t) k‖ ^ 2) / (fs * n)

/-! ### `smooth_psd` -/

/-- `f_inds`: frequencies `f >= 0`, plus the Nyquist bin for even length.  Lines 108-112. -/
def fInds (n : ℕ) (k : ℕ) : Bool :=
  (decide (k ≤ (n - 1) / 2)) || (n % 2 == 0 && k == n / 2)

/-- `smooth_psd` on an array of length `n`, as a list.  Lines 108-125.  `make_decreasing` gets
`x = np.arange(len)`; `none` marks an entry for which no interpolant exists. -/
noncomputable def smoothPsd (psd : List ℝ) : List (Option ℝ) :=
  let n := psd.length
  let sel := (psd.zipIdx.filter fun p => fInds n p.2).map Prod.fst
  let out := Utils.makeDecreasing (sel.zipIdx.map fun p => ((p.2 : ℝ), p.1))
  let rest := if n % 2 = 0 then (out.reverse.drop 1).dropLast else out.reverse.dropLast
  -- `psd_out[f_inds] = out; psd_out[~f_inds] = rest`: consecutive values to the selected bins
  (List.range n).map fun k =>
    if fInds n k then (out[((List.range k).filter fun j => fInds n j).length]?).join
    else (rest[((List.range k).filter fun j => ¬ fInds n j).length]?).join

/-! ### `gen_noise` -/

/-- `if np.isinf(psd[0]): psd[0] = 0` (this also changes the caller's array).  Lines 149-150. -/
noncomputable def genPsd (psd : ZMod n → WithTop ℝ) : ZMod n → WithTop ℝ :=
  fun k => if k = 0 ∧ psd 0 = ⊤ then 0 else psd k

/-- One noise trace from the normal draws `vals`, for a finite PSD.  Lines 152-156. -/
noncomputable def genNoise (psd : ZMod n → ℝ) (fs : ℝ) (vals : ZMod n → ℝ) : ZMod n → ℝ :=
  fun j => (ifft (fun k => fftR vals k * (Real.sqrt (psd k * fs) : ℂ)) j).re

/-! ### The class `Noise` -/

/-- The cross spectral densities stored by `calculate_csd`. -/
structure Csd (c n : ℕ) where
  csd : Fin c → Fin c → Half n → ℂ
  real : Fin c → Fin c → Half n → ℝ
  imag : Fin c → Fin c → Half n → ℝ

/-- The attributes of a `Noise` object with `m` traces of `c` channels.  Lines 242-269. -/
structure Obj (m c n : ℕ) where
  traces : Fin m → Fin c → ZMod n → ℝ
  fs : ℝ
  time : ZMod n → ℝ
  psd : Option (Fin c → Half n → ℝ)
  realPsd : Option (Fin c → Half n → ℝ)
  imagPsd : Option (Fin c → Half n → ℝ)
  csd : Option (Csd c n)
  corrcoeff : Option (Fin c → Fin c → Half n → Option ℝ)
  uncorr : Option (Fin c → Half n → ℝ)
  corr : Option (Fin c → Half n → ℝ)

variable {m c : ℕ}

/-- `Noise.__init__`.  Lines 234-269.  `ndim` is the number of dimensions of the given array;
`traces` is that array with the channel axis inserted for `ndim = 2`. -/
noncomputable def create (ndim : ℕ) (traces : Fin m → Fin c → ZMod n → ℝ) (fs : ℝ) (channames : List String)
    (tracegain : ℝ) (time : Option (ZMod n → ℝ)) : Except Err (Obj m c n) :=
  if ndim = 1 then .error .valueError
  else if channames.length ≠ c then .error .valueError
  else .ok
    { traces := fun t i j => traces t i j / tracegain
      fs := fs
      time := time.getD fun j => (j.val : ℝ) / fs
      psd := none, realPsd := none, imagPsd := none, csd := none, corrcoeff := none
      uncorr := none, corr := none }

/-- The array as the `Fin n`-indexed sequence used by the model of `slope`. -/
def seq (x : ZMod n → ℝ) : Fin n → ℝ := fun i => x ((i : ℕ) : ZMod n)

/-- One trace of `remove_trace_slope`.  Lines 279-280. -/
noncomputable def unslope (time x : ZMod n → ℝ) : ZMod n → ℝ :=
  fun j => x j - Utils.slope (seq time) (seq x) true * time j

/-- `remove_trace_slope`.  Lines 276-282. -/
noncomputable def removeTraceSlope (o : Obj m c n) : Obj m c n :=
  { o with traces := fun t i => unslope o.time (o.traces t i) }

/-- `psd` of `calculate_psd`.  Lines 302-308. -/
noncomputable def psdOf (traces : Fin m → Fin c → ZMod n → ℝ) (fs : ℝ) (i : Fin c) (k : Half n) : ℝ :=
  avg (fun t => ‖rfft (traces t i) k‖ ^ 2) * 2 / (n * fs)

/-- `real_psd` of `calculate_psd`.  Line 309. -/
noncomputable def realPsdOf (traces : Fin m → Fin c → ZMod n → ℝ) (fs : ℝ) (i : Fin c) (k : Half n) : ℝ :=
  avg (fun t => (rfft (traces t i) k).re ^ 2) * 2 / (n * fs)

/-- `imag_psd` of `calculate_psd`.  Line 310. -/
noncomputable def imagPsdOf (traces : Fin m → Fin c → ZMod n → ℝ) (fs : ℝ) (i : Fin c) (k : Half n) : ℝ :=
  avg (fun t => (rfft (traces t i) k).im ^ 2) * 2 / (n * fs)

/-- `calculate_psd`.  Lines 284-314. -/
noncomputable def calculatePsd (o : Obj m c n) : Obj m c n :=
  { o with
    psd := some (psdOf o.traces o.fs)
    realPsd := some (realPsdOf o.traces o.fs)
    imagPsd := some (imagPsdOf o.traces o.fs) }

/-- Unnormalised covariance of two samples. -/
noncomputable def cov (a b : Fin m → ℝ) : ℝ := ∑ t, (a t - avg a) * (b t - avg b)

open Classical in
/-- One entry of `np.corrcoef`; `none` is `nan` (no variance; in particular a single trace). -/
noncomputable def corrcoef (a b : Fin m → ℝ) : Option ℝ :=
  if cov a a = 0 ∨ cov b b = 0 then none
  else some (cov a b / (Real.sqrt (cov a a) * Real.sqrt (cov b b)))

/-- The correlation coefficients of a set of traces.  Lines 333-340.  The axes are swapped at the end, so entry `(i, j)` is
the coefficient computed for `(j, i)`. -/
noncomputable def corrcoeffOf (traces : Fin m → Fin c → ZMod n → ℝ) (i j : Fin c) (k : Half n) :
    Option ℝ :=
  corrcoef (fun t => ‖rfft (traces t j) k‖) (fun t => ‖rfft (traces t i) k‖)

/-- `calculate_corrcoeff`.  Lines 317-340. -/
noncomputable def calculateCorrcoeff (o : Obj m c n) : Except Err Unit × Obj m c n :=
  if c = 1 then (.error .valueError, o)
  else (.ok (), { o with corrcoeff := some (corrcoeffOf o.traces) })

/-- The periodic Hann window of `scipy.signal.csd`. -/
noncomputable def hann (n : ℕ) (j : ZMod n) : ℝ :=
  if n = 1 then 1 else 0.5 - 0.5 * Real.cos (2 * Real.pi * j.val / n)

/-- The windowed, mean-subtracted trace transformed by `scipy.signal.csd`. -/
noncomputable def segFft (x : ZMod n → ℝ) (k : Half n) : ℂ :=
  rfft (fun j => hann n j * (x j - (∑ i, x i) / n)) k

/-- The density scaling of `scipy.signal.csd`, doubled except at zero frequency and Nyquist. -/
noncomputable def csdScale (n : ℕ) [NeZero n] (fs : ℝ) (k : Half n) : ℝ :=
  1 / (fs * ∑ j, hann n j ^ 2) * (if 1 ≤ (k : ℕ) ∧ 2 * (k : ℕ) < n then 2 else 1)

/-- `scipy.signal.csd(x, y, fs=fs, nperseg=n, nfft=n)` on traces of length `n` (one segment). -/
noncomputable def csd1 (x y : ZMod n → ℝ) (fs : ℝ) (k : Half n) : ℂ :=
  starRingEnd ℂ (segFft x k) * segFft y k * (csdScale n fs k : ℂ)

/-- `fill_negatives` on a one-sided array. -/
noncomputable def fillNeg (a : Half n → ℝ) : Half n → ℝ :=
  fun k => ((Utils.fillNegatives (List.ofFn a))[(k : ℕ)]?).getD 0

/-- The CSD of a set of traces.  Lines 389-401. -/
noncomputable def csdOf (traces : Fin m → Fin c → ZMod n → ℝ) (fs : ℝ) : Csd c n :=
  { csd := fun i j k => (∑ t, csd1 (traces t i) (traces t j) fs k) / m
    real := fun i j => fillNeg fun k => avg fun t => (csd1 (traces t i) (traces t j) fs k).re
    imag := fun i j => fillNeg fun k => avg fun t => (csd1 (traces t i) (traces t j) fs k).im }

/-- `calculate_csd`.  Lines 362-406. -/
noncomputable def calculateCsd (o : Obj m c n) : Except Err Unit × Obj m c n :=
  if c = 1 then (.error .valueError, o)
  else (.ok (), { o with csd := some (csdOf o.traces o.fs) })

/-- The CSD matrix of one frequency bin. -/
def csdMat (d : Csd c n) (k : Half n) : Matrix (Fin c) (Fin c) ℂ := fun i j => d.csd i j k

/-- `uncorrnoise` from a CSD: `1 / |inv_csd[j][j]|`.  Line 356. -/
noncomputable def uncorrOf (d : Csd c n) (j : Fin c) (k : Half n) : ℝ :=
  1 / ‖(csdMat d k)⁻¹ j j‖

/-- `corrnoise` from a CSD.  Line 357. -/
noncomputable def corrOf (d : Csd c n) (j : Fin c) (k : Half n) : ℝ :=
  d.real j j k - 1 / ‖(csdMat d k)⁻¹ j j‖

open Classical in
/-- Lines 351-360: `np.linalg.inv` raises LinAlgError on a singular matrix. -/
noncomputable def storeUncorr (o : Obj m c n) (d : Csd c n) : Except Err Unit × Obj m c n :=
  if ∃ k, (csdMat d k).det = 0 then (.error .linAlgError, o)
  else (.ok (), { o with uncorr := some (uncorrOf d), corr := some (corrOf d) })

/-- `calculate_uncorr_noise`.  Lines 342-360: an existing CSD is reused. -/
noncomputable def calculateUncorrNoise (o : Obj m c n) : Except Err Unit × Obj m c n :=
  match o.csd with
  | some d => storeUncorr o d
  | none =>
    match calculateCsd o with
    | (.error e, o') => (.error e, o')
    | (.ok _, o') => storeUncorr o' (csdOf o.traces o.fs)

/-- A method call on the object. -/
inductive Op where
  | removeTraceSlope
  | calculatePsd
  | calculateCorrcoeff
  | calculateCsd
  | calculateUncorrNoise

/-- The object after a call (exceptions leave it as the method left it). -/
noncomputable def step (o : Obj m c n) : Op → Obj m c n
  | .removeTraceSlope => removeTraceSlope o
  | .calculatePsd => calculatePsd o
  | .calculateCorrcoeff => (calculateCorrcoeff o).2
  | .calculateCsd => (calculateCsd o).2
  | .calculateUncorrNoise => (calculateUncorrNoise o).2

/-- The object after a sequence of calls. -/
noncomputable def run (o : Obj m c n) (ops : List Op) : Obj m c n := ops.foldl step o

end Verif.Noise
