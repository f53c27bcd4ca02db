import Verif.Cut
import Mathlib.MeasureTheory.Integral.IntervalIntegral.Basic
import Mathlib.Analysis.SpecialFunctions.Exp
import Mathlib.Analysis.Real.Pi.Bounds

/-!
Model of `_UnbiasedEstimators` (`/repo/qetpy/cut/_cut.py` lines 52-147) and of
`iterstat(..., return_unbiased_estimates=True)` (lines 213-215).
`optimize.fsolve` is a parameter: any function from the equations and the start to a result.
-/

namespace Verif.Trunc
open Verif

/-- The standard normal density. -/
noncomputable def φ (z : ℝ) : ℝ := Real.exp (-(z ^ 2) / 2) / Real.sqrt (2 * Real.pi)

/-- The standard normal distribution function. -/
noncomputable def Φ (z : ℝ) : ℝ := 1 / 2 + ∫ u in (0 : ℝ)..z, φ u

/-- `stats.norm.pdf(x, loc=mu, scale=std)` for a positive scale. -/
noncomputable def pdf (x μ σ : ℝ) : ℝ := φ ((x - μ) / σ) / σ

/-- `stats.norm.cdf(x, loc=mu, scale=std)` for a positive scale. -/
noncomputable def cdf (x μ σ : ℝ) : ℝ := Φ ((x - μ) / σ)

/-- `self._x`, lines 87-92. -/
noncomputable def select (x : List ℝ) (lwr upr : ℝ) : List ℝ :=
  x.filter fun v => decide (lwr ≤ v) && decide (v ≤ upr)

/-- `mu_eqn` of `_equations`, lines 130-132, for the selected data. -/
noncomputable def muEqn (x : List ℝ) (lwr upr μ σ : ℝ) : ℝ :=
  x.sum - x.length * μ +
    x.length / (cdf upr μ σ - cdf lwr μ σ) * (pdf upr μ σ - pdf lwr μ σ)

/-- `std_eqn` of `_equations`, lines 134-136, for the selected data. -/
noncomputable def stdEqn (x : List ℝ) (lwr upr μ σ : ℝ) : ℝ :=
  (x.map fun v => v ^ 2).sum - 2 * μ * x.sum + x.length * μ ^ 2 - x.length * σ ^ 2 +
    x.length * σ ^ 2 / (cdf upr μ σ - cdf lwr μ σ) *
      ((upr - μ) * pdf upr μ σ - (lwr - μ) * pdf lwr μ σ)

/-- The solver: equations, start, result. -/
abbrev Solver := (ℝ × ℝ → ℝ × ℝ) → ℝ × ℝ → ℝ × ℝ

/-- `_UnbiasedEstimators(x, lwrbnd, uprbnd)`: `mu` and `std`.  Lines 87-101 and 145.  Without data
the start is `nan` and so is the result (`none`). -/
noncomputable def unbiased (solve : Solver) (x : List ℝ) (lwr upr : ℝ) : Option (ℝ × ℝ) :=
  let s := select x lwr upr
  if s = [] then none
  else some (solve (fun p => (muEqn s lwr upr p.1 p.2, stdEqn s lwr upr p.1 p.2))
    (Cut.avg s, Cut.std s))

/-- The loop of `iterstat` with `return_unbiased_estimates=True` on non-empty data.  Lines 187-215: the
fallback of lines 189-198 returns the plain mean and standard deviation. -/
noncomputable def isLoopU (solve : Solver) (data : List ℝ) (cut : ℝ) (cutoff : WithTop ℝ) :
    ℕ → ℝ → ℝ → ℕ → Option Cut.Stat
  | 0, _, _, _ => none
  | fuel + 1, meanlast, stdlast, nstable =>
    let mask := Cut.isMask data cut meanlast stdlast
    if mask.count true ≤ 1 then
      some ⟨some (Cut.avg data), some (Cut.std data), List.replicate data.length true⟩
    else
      let meanthis := Cut.avg (Cut.sel data mask)
      let stdthis := Cut.std (Cut.sel data mask)
      let nstable' :=
        open Classical in
        if cutoff < ((|meanthis - meanlast| : ℝ) : WithTop ℝ) ∨
            cutoff < ((|stdthis - stdlast| : ℝ) : WithTop ℝ) then 0 else nstable + 1
      if nstable' ≥ 3 then
        let r := unbiased solve (Cut.sel data mask) (meanthis - cut * stdthis)
          (meanthis + cut * stdthis)
        some ⟨r.map (·.1), r.map (·.2), mask⟩
      else isLoopU solve data cut cutoff fuel meanthis stdthis nstable'

/-- `iterstat(data, cut, precision, return_unbiased_estimates=True)`.  Lines 179-217. -/
noncomputable def iterstatU (solve : Solver) (fuel : ℕ) (data : List ℝ) (cut precision : ℝ) :
    Option Cut.Stat :=
  if data = [] then some ⟨none, none, []⟩
  else isLoopU solve data cut (Cut.stdcutoff data precision) fuel (Cut.avg data) (Cut.std data) 0

end Verif.Trunc
