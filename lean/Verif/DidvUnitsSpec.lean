import Verif.DidvPriors

/-! Specification vocabulary for the dependence of the dI/dV results on the units of resistance and of
time. -/

namespace Verif.Didv
open Verif

/-- New units: one old unit of resistance is `s` new ones, one old unit of time is `τ` new ones. -/
structure Units where
  s : ℝ
  τ : ℝ
  hs : 0 < s
  hτ : 0 < τ

namespace Units
variable (u : Units)

/-- The dimensions of the fit parameters: `A, tau2, dt`, `A, B, tau1, tau2, dt` and
`A, B, C, tau1, tau2, tau3, dt`. -/
def fitFactors : ℕ → List ℝ
  | 3 => [u.s, u.τ, u.τ]
  | 5 => [u.s, u.s, u.τ, u.τ, u.τ]
  | 7 => [u.s, u.s, 1, u.τ, u.τ, u.τ, u.τ]
  | k => List.replicate k 1

/-- The dimensions of the small signal parameters: `rsh, rp, L, dt`, `rsh, rp, r0, beta, l, L, tau0, dt`
and `rsh, rp, r0, beta, l, L, tau0, gratio, tau3, dt`.  An inductance is a resistance times a time. -/
def tesFactors : ℕ → List ℝ
  | 4 => [u.s, u.s, u.s * u.τ, u.τ]
  | 8 => [u.s, u.s, u.s, 1, 1, u.s * u.τ, u.τ, u.τ]
  | 10 => [u.s, u.s, u.s, 1, 1, u.s * u.τ, u.τ, 1, u.τ, u.τ]
  | k => List.replicate k 1

/-- Fit parameters in the new units. -/
def fit (p : List ℝ) : List ℝ := List.zipWith (· * ·) (u.fitFactors p.length) p

/-- Small signal parameters in the new units. -/
def tes (p : List ℝ) : List ℝ := List.zipWith (· * ·) (u.tesFactors p.length) p

/-- Keyword arguments in the new units. -/
def args (a : Args) : Args where
  rsh := a.rsh.map (u.s * ·)
  rp := a.rp.map (u.s * ·)
  r0 := a.r0.map (u.s * ·)
  beta := a.beta
  l := a.l
  L := a.L.map (u.s * u.τ * ·)
  tau0 := a.tau0.map (u.τ * ·)
  gratio := a.gratio
  tau3 := a.tau3.map (u.τ * ·)

/-- A measured admittance in the new units. -/
noncomputable def pt (q : Pt) : Pt := ⟨q.f / u.τ, q.y / u.s, q.err / u.s⟩

/-- A measured admittance scaled by the shunt resistance is a number: only its frequency has a unit. -/
noncomputable def ptScaled (q : Pt) : Pt := ⟨q.f / u.τ, q.y, q.err⟩

/-- A covariance matrix of the small signal parameters in the new units. -/
def cov (c : Cov) : Cov :=
  ⟨c.d, fun i j => (u.tesFactors c.d).getD i 1 * (u.tesFactors c.d).getD j 1 * c.m i j⟩

/-- The covariance of the priors is symmetric, and a combination of parameters it leaves without an
uncertainty involves only parameters without a prior (row and column zero). -/
def _root_.Verif.Didv.Separated (c : Cov) : Prop :=
  c.m.IsSymm ∧ ∀ x, c.m.mulVec x = 0 → ∀ i, x i ≠ 0 → ∀ j, c.m i j = 0

/-- The result of a fit in the new units: the covariance and the fall times are those given. -/
noncomputable def result (r : Result) (cov : List (List ℝ)) (falltimes : List ℝ) : Result where
  params := u.fit r.params
  cov := cov
  falltimes := falltimes
  cost := r.cost
  ssp := u.tes r.ssp
  didv0 := r.didv0 / u.s

/-- The processed data with time in the new unit. -/
def timeProc (p : Proc) : Proc := { p with time := fun i => u.τ * p.time i }

/-- The object with time in the new unit: sample rate, signal frequency, time offset, processed data. -/
noncomputable def timeObj (o : Obj) : Obj :=
  { o with fs := o.fs / u.τ, sgfreq := o.sgfreq / u.τ, dt0 := u.τ * o.dt0, proc := o.proc.map u.timeProc }

end Units
end Verif.Didv
