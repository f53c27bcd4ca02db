import Verif.Dft
import Mathlib.Data.Real.Basic

/-!
Specification of the multi-template fit: what "the noise-weighted resTrace of these amplitudes at
this delay" means, in the time domain and independently of the filter matrices of the code.
-/

namespace Verif.Nsmb.Spec

open Verif.Dft

variable {n : ℕ} [NeZero n] {nb : ℕ}

/-- Noise power per frequency bin; the DC bin uses the noise of the first frequency. -/
noncomputable def noise (psd : ZMod n → ℝ) (fs : ℝ) (f : ZMod n) : ℝ :=
  (if f = 0 then psd 1 else psd f) * (fs / n)

/-- The templates with the signal template (number `0`) delayed circularly by `t` bins. -/
def delayed (T : Fin (nb + 1) → ZMod n → ℝ) (t : ZMod n) (i : Fin (nb + 1)) : ZMod n → ℝ :=
  if i = 0 then roll (T i) t else T i

/-- The trace minus the templates with amplitudes `a`. -/
def resTrace (p : ZMod n → ℝ) {ι : Type*} [Fintype ι] (S : ι → ZMod n → ℝ) (a : ι → ℝ) :
    ZMod n → ℝ := fun τ => p τ - ∑ i, a i * S i τ

/-- Noise-weighted power of a trace, `∑ |r_f / n|² / J_f`. -/
noncomputable def power (J : ZMod n → ℝ) (r : ZMod n → ℝ) : ℝ := ∑ f, ‖fftR r f / n‖ ^ 2 / J f

/-- The chi2 of amplitudes `a` at delay `t`. -/
noncomputable def chi2 (J : ZMod n → ℝ) (p : ZMod n → ℝ) (T : Fin (nb + 1) → ZMod n → ℝ)
    (t : ZMod n) (a : Fin (nb + 1) → ℝ) : ℝ := power J (resTrace p (delayed T t) a)

/-- An amplitude obeys a polarity constraint: `1` demands non-negative, `-1` non-positive. -/
def Obeys (c : ℤ) (a : ℝ) : Prop := (c = 1 → 0 ≤ a) ∧ (c = -1 → a ≤ 0)

end Verif.Nsmb.Spec
