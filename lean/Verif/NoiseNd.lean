import Verif.Noise

/-!
Model of `calc_psd` (`/repo/qetpy/core/_noise.py` lines 44-91) for arrays with three or more axes: `m`
events, `c` channels, further axes `ι` (`Unit` for three axes), and the trace.  Arrays with one or two axes are in
`Noise`.
-/

namespace Verif.Noise
open Verif Verif.Dft

variable {n : ℕ} [NeZero n] {m c : ℕ} {ι : Type*}

/-- `np.mean(np.abs(rfft(x))**2.0, axis=0)/norm`.  Line 77. -/
noncomputable def meanSpectrum (x : Fin m → Fin c → ι → ZMod n → ℝ) (fs : ℝ) (i : Fin c) (l : ι) (k : Half n) : ℝ :=
  avg (fun t => ‖rfft (x t i l) k‖ ^ 2) / (fs * n)

/-- `calc_psd(x, fs, folded_over=True)`, second return value.  Lines 69-82.  `psd[1:b] *= 2.0` acts on the first axis of
`psd`, which is the channel. -/
noncomputable def calcPsdFoldedNd (x : Fin m → Fin c → ι → ZMod n → ℝ) (fs : ℝ) (i : Fin c) (l : ι) (k : Half n) : ℝ :=
  if 1 ≤ (i : ℕ) ∧ (i : ℕ) < n / 2 + 1 - (n + 1) % 2 then meanSpectrum x fs i l k * 2
  else meanSpectrum x fs i l k

/-- `calc_psd(x, fs, folded_over=False)`, second return value.  Lines 84-91. -/
noncomputable def calcPsdTwoSidedNd (x : Fin m → Fin c → ι → ZMod n → ℝ) (fs : ℝ) (i : Fin c) (l : ι) (k : ZMod n) : ℝ :=
  avg (fun t => ‖fftR (x t i l) k‖ ^ 2) / (fs * n)

end Verif.Noise
