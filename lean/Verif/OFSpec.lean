import Verif.Dft

/-!
Specification of optimum filtering, stated on traces and independent of the filter algebra used
by the code.
-/

namespace Verif.OF
open Verif Verif.Dft

variable {n : ℕ} [NeZero n]

/-- The inverse noise power per bin: `1/psd`, where AC coupling discards the zero-frequency bin
and infinite bins carry no information. -/
noncomputable def weight (psd : ZMod n → WithTop ℝ) (ac : Bool) (k : ZMod n) : ℝ :=
  if ac ∧ k = 0 then 0 else recip (psd k)

/-- The noise-weighted chi-square of a trace `r`: `∑ₖ |r̃(fₖ)|² / J(fₖ) df` with
`r̃ = fft(r) / fs` the amplitude density and `df = fs / n`. -/
noncomputable def traceChi2 (fs : ℝ) (wt : ZMod n → ℝ) (r : ZMod n → ℝ) : ℝ :=
  ∑ k, ‖fftR r k / (fs : ℂ)‖ ^ 2 * wt k * (fs / n)

/-- The residual trace after subtracting a pulse of height `a` delayed (circularly) by `m` bins. -/
def resid (x T : ZMod n → ℝ) (a : ℝ) (m : ZMod n) : ZMod n → ℝ := fun j => x j - a * roll T m j

/-- The residual trace after subtracting two pulses. -/
def resid2 (x T : ZMod n → ℝ) (a1 : ℝ) (m1 : ZMod n) (a2 : ℝ) (m2 : ZMod n) : ZMod n → ℝ :=
  fun j => x j - a1 * roll T m1 j - a2 * roll T m2 j

/-- The residual trace after subtracting a pulse and a constant baseline. -/
def residB (x T : ZMod n → ℝ) (a : ℝ) (m : ZMod n) (b : ℝ) : ZMod n → ℝ :=
  fun j => x j - a * roll T m j - b

end Verif.OF
