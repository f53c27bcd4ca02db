import Verif.Noise

/-!
The standard deviations of the CSD, `/repo/qetpy/core/_noise.py` lines 386-387, 398-399 and 405-406.
-/

namespace Verif.Noise
open Verif Verif.Dft

variable {m c n : ℕ} [NeZero n]

/-- `np.std(..., axis=0)` over `m` traces. -/
noncomputable def std (f : Fin m → ℝ) : ℝ := Real.sqrt (avg fun t => (f t - avg f) ^ 2)

/-- `real_csd_std` of `calculate_csd`.  Line 398. -/
noncomputable def realCsdStd (traces : Fin m → Fin c → ZMod n → ℝ) (fs : ℝ) (i j : Fin c) : Half n → ℝ :=
  fillNeg fun k => std fun t => (csd1 (traces t i) (traces t j) fs k).re

/-- `imag_csd_std` of `calculate_csd`.  Line 399. -/
noncomputable def imagCsdStd (traces : Fin m → Fin c → ZMod n → ℝ) (fs : ℝ) (i j : Fin c) : Half n → ℝ :=
  fillNeg fun k => std fun t => (csd1 (traces t i) (traces t j) fs k).im

end Verif.Noise
