import Verif.OFMiscProps

/-!
Specification for C124: a change of the units in which signal, template, noise and time are given.
-/

namespace Verif.OF
open Verif Verif.Dft

variable {n : ℕ} [NeZero n]

/-- A change of units: the factors of the signal, of the template, of the noise power spectral density
and of the sample rate. -/
structure Units where
  signal : ℝ
  template : ℝ
  noise : ℝ
  rate : ℝ

/-- The factors are not zero; those of the spectrum and of the sample rate are positive. -/
structure Units.Proper (u : Units) : Prop where
  signal : u.signal ≠ 0
  template : u.template ≠ 0
  noise : 0 < u.noise
  rate : 0 < u.rate

/-- The factor of the amplitudes.  A template that is normalised to its integral has no units, and the
integral of the signal has the units of the signal times time. -/
noncomputable def Units.amp (u : Units) (integralnorm : Bool) : ℝ :=
  if integralnorm then u.signal / u.rate else u.signal / u.template

/-- The factor of the chi-squares. -/
noncomputable def Units.chi (u : Units) : ℝ := u.signal ^ 2 / (u.noise * u.rate)

/-- The factor of the inverse variance of the amplitude. -/
noncomputable def Units.weight (u : Units) (integralnorm : Bool) : ℝ := u.chi / u.amp integralnorm ^ 2

/-- The fit of the trace `x` in other units. -/
noncomputable def Units.fit (u : Units) (x T : ZMod n → ℝ) (psd : ZMod n → WithTop ℝ) (fs : ℝ)
    (ac b : Bool) : State n :=
  init (fun j => u.signal * x j) (fun j => u.template * T j) (scalePsd u.noise psd) (u.rate * fs) ac b

/-- Amplitude, delay and chi-square in other units. -/
noncomputable def Units.res (u : Units) (b : Bool) : Except Err (ℝ × ℝ × ℝ) → Except Err (ℝ × ℝ × ℝ)
  | .error e => .error e
  | .ok (a, t, c) => .ok (u.amp b * a, t / u.rate, u.chi * c)

/-- Two amplitudes, delay and chi-square in other units. -/
noncomputable def Units.res2 (u : Units) (b : Bool) :
    Except Err (ℝ × ℝ × ℝ × ℝ) → Except Err (ℝ × ℝ × ℝ × ℝ)
  | .error e => .error e
  | .ok (a1, a2, t, c) => .ok (u.amp b * a1, u.amp b * a2, t / u.rate, u.chi * c)

/-- A pulse direction in other units. -/
noncomputable def Units.dir (u : Units) (b : Bool) (d : ℤ) : ℤ := if 0 < u.amp b then d else -d

end Verif.OF
