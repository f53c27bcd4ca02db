import Mathlib.Analysis.Fourier.ZMod
import Mathlib.Order.WithBot

/-!
Fourier-transform primitives shared by the optimum filters, the noise tools and the dI/dV fits.
They model numpy behaviour (DESIGN.md section 3).  An array of length `n ≠ 0` is a function on
`ZMod n`; entry `k` of the array is the value at the residue `k`, so numpy's negative indices and
`np.roll` are plain arithmetic.
-/

namespace Verif.Dft

variable {n : ℕ} [NeZero n]

/-- `np.fft.fft` of a real array: `∑ j, x j * exp (-2 π i j k / n)`. -/
noncomputable def fftR (x : ZMod n → ℝ) : ZMod n → ℂ := ZMod.dft fun j => (x j : ℂ)

/-- `np.fft.fft` of a complex array. -/
noncomputable def fft (x : ZMod n → ℂ) : ZMod n → ℂ := ZMod.dft x

/-- `np.fft.ifft`: `1/n * ∑ k, x k * exp (2 π i j k / n)`. -/
noncomputable def ifft (x : ZMod n → ℂ) : ZMod n → ℂ := ZMod.dft.symm x

/-- `np.roll(x, m)`. -/
def roll {α : Type*} (x : ZMod n → α) (m : ZMod n) : ZMod n → α := fun i => x (i - m)

/-- The integer frequency index of `np.fft.fftfreq`: `0 .. (n-1)//2` then `-(n//2) .. -1`. -/
def freqIdx (k : ZMod n) : ℤ := if k.val ≤ (n - 1) / 2 then (k.val : ℤ) else (k.val : ℤ) - n

/-- `np.fft.fftfreq(n, d=1/fs)`. -/
noncomputable def fftfreq (fs : ℝ) (k : ZMod n) : ℝ := (freqIdx k : ℝ) * fs / n

/-- `1/psd` for one PSD bin, where the bin may be `np.inf`. -/
noncomputable def recip : WithTop ℝ → ℝ
  | ⊤ => 0
  | (x : ℝ) => 1 / x

end Verif.Dft
