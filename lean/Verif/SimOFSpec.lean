import Verif.Noise
import Verif.Dft

/-! Specification of the inputs on which the resolution of `energy_res_estimate` and the one of the optimum filter are
compared. -/

namespace Verif.Sim
open Verif Verif.Dft

variable {n : ℕ} [NeZero n]

/-- The template has the power that `energy_res_estimate` assumes: that of an exponential pulse of time
constant `tau` collected with efficiency `eff`. -/
def Collected (fs tau eff : ℝ) (T : ZMod n → ℝ) : Prop :=
  ∀ k, ‖fftR T k / (fs : ℂ)‖ ^ 2 = eff ^ 2 / (1 + (2 * Real.pi * fftfreq fs k * tau) ^ 2)

/-- A physical two-sided PSD: positive, and the same at `f` and `-f`. -/
def TwoSided (J : ZMod n → ℝ) : Prop := (∀ k, 0 < J k) ∧ ∀ k, J (-k) = J k

/-- The one-sided PSD, twice the two-sided one at every frequency from zero to Nyquist. -/
noncomputable def doubled (fs : ℝ) (J : ZMod n → ℝ) : List (ℝ × ℝ) :=
  (List.range (n / 2 + 1)).map fun k : ℕ => ((k : ℝ) * fs / n, 2 * J (k : ℕ))

/-- The one-sided PSD as `foldpsd` returns it. -/
noncomputable def folded (fs : ℝ) (J : ZMod n → ℝ) : List (ℝ × ℝ) :=
  (List.finRange (n / 2 + 1)).map fun k => (Noise.foldpsdFreqs (n := n) fs k, Noise.foldpsd J k)

end Verif.Sim
