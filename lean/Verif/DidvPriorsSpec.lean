import Verif.DidvPriors
import Verif.DidvSpec
import Verif.DidvObjSpec

/-! Specification vocabulary for the fit with priors. -/

namespace Verif.Didv
open Verif

/-- Every point is where the admittance `Y` is. -/
def Fits (pts : List Pt) (Y : ℝ → ℂ) : Prop := ∀ p ∈ pts, p.y = Y p.f

/-- No point has a vanishing error. -/
def Weighted (pts : List Pt) : Prop := ∀ p ∈ pts, p.err.re ≠ 0 ∧ p.err.im ≠ 0

/-- The number of parameters of the models: `(rsh, rp, L, dt)`, `(rsh, rp, r0, beta, l, L, tau0, dt)` and
`(rsh, rp, r0, beta, l, L, tau0, gratio, tau3, dt)`. -/
def Shape (k : ℤ) (d : ℕ) : Prop := k = 1 ∧ d = 4 ∨ k = 2 ∧ d = 8 ∨ k = 3 ∧ d = 10

/-- One fit with priors. -/
structure PCall where
  poles : ℤ
  priors : List ℝ
  cov : Cov
  fcut : Option ℝ

/-- The object after a history of fits. -/
noncomputable def runP (x : Ext) (mn : Minimiser) (o : PObj) (h : List PCall) : PObj :=
  h.foldl (fun o c => (dofitP x mn o c.poles c.priors c.cov c.fcut).2) o

end Verif.Didv
