import Verif.DeviceSpec

/-! Vocabulary of property C140: distances between responses, in units of the error bars. -/

namespace Verif.Device
open Verif Verif.Didv

open Classical in
/-- The distance between two sets of values at the fitted bins, in units of the error bars of the averages. -/
noncomputable def distance (o : Obj) (p : Proc) (c : Option ℝ) (Y Z : ℕ → ℂ) : ℝ :=
  Real.sqrt (∑ k ∈ (Finset.range p.nbins).filter fun k => ∃ f, Fitted o p c f k,
    (((Y k - Z k).re / (p.didvstd k).re) ^ 2 + ((Y k - Z k).im / (p.didvstd k).im) ^ 2))

/-- An optimiser which, started within its bounds, reports half the sum of squares of the point it returns. -/
def Honest (ls : LS) : Prop := ∀ res p0 bounds r0, List.Forall₂ inB p0 bounds → res p0 = .ok r0 →
  ∃ r, res (ls res p0 bounds).x = .ok r ∧ (ls res p0 bounds).cost = (r.map fun v => v ^ 2).sum / 2

/-- The values of a response delayed by `dt` at the fitted bins. -/
def Values (o : Obj) (p : Proc) (c : Option ℝ) (Y : ℝ → Except Err ℂ) (dt : ℝ) (V : ℕ → ℂ) : Prop :=
  ∀ f k, Fitted o p c f k →
    (Y f).map (fun y => y * Complex.exp (-2 * Complex.I * Real.pi * f * dt)) = .ok (V k)

end Verif.Device
