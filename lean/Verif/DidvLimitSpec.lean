import Verif.DeviceNoiseSpec
import Verif.OFLimitSpec
import Verif.DidvWaveSpec

/-! Vocabulary of property C145: dI/dV measurements with ever more traces. -/

namespace Verif.Device
open Verif Verif.Dft Verif.Didv MeasureTheory

/-- The object made with the first `m` of the traces. -/
def first (o : Obj) (trace : ℕ → ℕ → ℝ) (m : ℕ) : Obj := { o with raw := (List.range m).map trace }

/-- What the code divides by in a bin: the transform of the drive, but zero in the middle bin. -/
noncomputable def drive (o : Obj) {n : ℕ} [NeZero n] (k : ZMod n) : ℂ :=
  if k.val = n / 2 then 0 else sqWave (1 / o.fs) o.sgamp o.rsh o.sgfreq o.duty k

/-- Traces of `n` bins, in units of the gain a response `tr` with the spectrum `W` at the bins with drive, plus
independent noise of one distribution.  In no trace a bin vanishes exactly, and no driven bin exceeds `10¹⁶` times the
drive (these are the traces and bins which the code throws away). -/
structure Campaign {Ω : Type*} [MeasurableSpace Ω] (μ : Measure Ω) (o : Obj) {n : ℕ} [NeZero n] (tr : ZMod n → ℝ)
    (W : ZMod n → ℂ) (trace : ℕ → Ω → ℕ → ℝ) (noise : ℕ → Ω → ZMod n → ℝ) (R : ZMod n → ℝ) : Prop where
  bins : nBins o.nraw o.fs o.sgfreq = n
  two : 2 ≤ n
  response : ∀ k, drive o k ≠ 0 → fftR tr k = drive o k * W k
  split : ∀ i ω (j : ZMod n), trace i ω j.val / o.gain = tr j + noise i ω j
  run : OF.Run μ noise R
  valid : ∀ᵐ ω ∂μ, ∀ i k, fftR (fun j => tr j + noise i ω j) k ≠ 0 ∧
    (drive o k ≠ 0 → ‖fftR (fun j => tr j + noise i ω j) k‖ ≤ 10 ^ 16 * ‖drive o k‖)

end Verif.Device
