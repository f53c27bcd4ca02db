import Verif.Noise

/-! Specification of the uncorrelated noise: what is left of a channel after the best prediction from the
other channels. -/

namespace Verif.Noise
open Verif Verif.Dft

variable {n m c : ℕ} [NeZero n]

/-- The spectral density at bin `k` of the combination of the channels with the weights `w`, which may
depend on the frequency. -/
noncomputable def combined (traces : Fin m → Fin c → ZMod n → ℝ) (fs : ℝ) (k : Half n) (w : Fin c → ℂ) : ℝ :=
  csdScale n fs k * avg fun t => ‖∑ i, w i * segFft (traces t i) k‖ ^ 2

/-- The channel `∑ a i · (channel i)`. -/
def mixed (traces : Fin m → Fin c → ZMod n → ℝ) (a : Fin c → ℝ) : Fin m → Fin 1 → ZMod n → ℝ :=
  fun t _ s => ∑ i, a i * traces t i s

end Verif.Noise
