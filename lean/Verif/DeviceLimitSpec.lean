import Verif.DidvLimitSpec

/-! Vocabulary of property C146: small signal parameters near those of a device. -/

namespace Verif.Device
open Verif Verif.Didv

/-- An optimiser which, started within its bounds, returns a point within its bounds and reports half the sum of
squares there. -/
def Sound (ls : LS) : Prop := ∀ res p0 bounds r0, List.Forall₂ inB p0 bounds → res p0 = .ok r0 →
  ∃ r, List.Forall₂ inB (ls res p0 bounds).x bounds ∧ res (ls res p0 bounds).x = .ok r ∧
    (ls res p0 bounds).cost = (r.map fun v => v ^ 2).sum / 2

/-- Small signal parameters which are all within `ε` of those of the device, followed by a time shift which is within
`ε` periods (of frequency `f0`) of `dt`, up to whole periods. -/
def Found (ε f0 dt : ℝ) (device ssp : List ℝ) : Prop :=
  ∃ s dt', ssp = s ++ [dt'] ∧ List.Forall₂ (fun a b => |a - b| < ε) s device ∧ ∃ m : ℤ, |f0 * (dt' - dt) - m| < ε

/-- The spectrum `W` is the response `Y`, delayed by `dt`, in every bin. -/
def Delayed (fs : ℝ) {n : ℕ} [NeZero n] (W : ZMod n → ℂ) (Y : ℝ → Except Err ℂ) (dt : ℝ) : Prop :=
  ∀ k : ZMod n, (Y (Dft.fftfreq fs k)).map
    (fun y => y * Complex.exp (-2 * Complex.I * Real.pi * Dft.fftfreq fs k * dt)) = .ok (W k)

/-- The first `N` odd harmonics of `f0` are frequencies of bins with drive. -/
def Driven (o : Obj) (n : ℕ) [NeZero n] (f0 : ℝ) (N : ℕ) : Prop :=
  f0 ≠ 0 ∧ ∀ j : ℕ, j < N → ∃ k : ZMod n, drive o k ≠ 0 ∧ Dft.fftfreq o.fs k = (2 * j + 1) * f0

end Verif.Device
