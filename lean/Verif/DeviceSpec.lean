import Verif.DidvObj

/-! Vocabulary of property C138: noise-free measurements of a device. -/

namespace Verif.Device
open Verif Verif.Didv

/-- A bin used by a fit with cut-off `c`, and its frequency. -/
def Fitted (o : Obj) (p : Proc) (c : Option ℝ) (f : ℝ) (k : ℕ) : Prop :=
  k < p.nbins ∧ f = freqAt p.nbins o.fs k ∧ ∀ v ∈ c, |f| < v

/-- The averages in the bins used by the fit are the response `Y`, delayed by `dt`. -/
def Measured (o : Obj) (p : Proc) (c : Option ℝ) (Y : ℝ → Except Err ℂ) (dt : ℝ) : Prop :=
  ∀ f k, Fitted o p c f k →
    (Y f).map (fun y => y * Complex.exp (-2 * Complex.I * Real.pi * f * dt)) = .ok (p.didvmean k)

/-- The first `n` odd harmonics of `f0` are among the fitted frequencies. -/
def Harmonics (o : Obj) (p : Proc) (c : Option ℝ) (f0 : ℝ) (n : ℕ) : Prop :=
  f0 ≠ 0 ∧ ∀ j < n, ∃ k, Fitted o p c ((2 * j + 1) * f0) k

/-- The arguments of `complexadmittance` for a device in transition. -/
def transition (rsh rp r0 beta l L tau0 : ℝ) : Args :=
  { rsh := some rsh, rp := some rp, r0 := some r0, beta := some beta, l := some l, L := some L, tau0 := some tau0 }

/-- The same with a second heat capacity. -/
def twoBodies (rsh rp r0 beta l L tau0 gratio tau3 : ℝ) : Args :=
  { transition rsh rp r0 beta l L tau0 with gratio := some gratio, tau3 := some tau3 }

/-- A detector: resistances, `beta`, loop gain, inductance and time constant have physical values. -/
structure Physical (rload r0 beta l L tau0 : ℝ) : Prop where
  hrload : 0 < rload
  hr0 : 0 < r0
  hbeta : -1 ≤ beta
  hl : 0 < l
  hl1 : l ≠ 1
  hL : 0 ≤ L
  htau0 : 0 < tau0

end Verif.Device
