import Verif.Ibis
import Verif.IvSpec

/-! Specification vocabulary for IBIS. -/

namespace Verif.Ibis
open Verif LineFit

/-- `e` is the first-order error of `f` at `p` for independent errors `σ` of its arguments: the partial
derivatives `g` exist and `e² = Σ (gᵢ σᵢ)²`. -/
def Propagates {k : ℕ} (f : (Fin k → ℝ) → ℝ) (p σ : Fin k → ℝ) (e : ℝ) : Prop :=
  ∃ g : Fin k → ℝ, (∀ i, HasDerivAt (fun u => f (Function.update p i u)) (g i) (p i)) ∧
    0 ≤ e ∧ e ^ 2 = ∑ i, (g i * σ i) ^ 2

/-- TES resistance from Kirchhoff's law: `p = (ibias, ibias_off, dites, ioff, rsh, rp)`. -/
noncomputable def resistance (p : Fin 6 → ℝ) : ℝ := (p 0 - p 1) * p 4 / (p 2 - p 3) - (p 4 + p 5)

/-- TES power: current squared times resistance. -/
noncomputable def power (p : Fin 6 → ℝ) : ℝ :=
  (p 0 - p 1) * p 4 * (p 2 - p 3) - (p 4 + p 5) * (p 2 - p 3) ^ 2

/-- Abscissa of the crossing of two lines: `p = (b₁, m₁, b₂, m₂)`. -/
noncomputable def crossX (p : Fin 4 → ℝ) : ℝ := (p 0 - p 2) / (p 3 - p 1)

/-- Ordinate of the crossing. -/
noncomputable def crossY (p : Fin 4 → ℝ) : ℝ := p 1 * ((p 0 - p 2) / (p 3 - p 1)) + p 0

/-- The selected readings follow the bias circuit with total series resistance `R`: the measured current
is the offset `ioff` plus the part of the true bias current which the shunt `rsh` leaves to the
TES branch. -/
def FollowsCircuit (o : Obj) (t c : ℕ) (inds : List ℤ) (ioff ibiasOff R : ℝ) : Prop :=
  ∀ l, Iv.NormalPts ((o.row t c).map pt) (some inds) l →
    ∀ p ∈ l, p.y = ioff + (p.x - ibiasOff) * o.rsh / R

/-- The points selected by `inds` determine a line in every row: valid indices and readings, non-zero error
bars, two different bias currents, and a best line which is not flat. -/
def Fittable (o : Obj) (inds : List ℤ) : Prop :=
  ∀ t < o.data.n0, ∀ c < o.data.n1, ∃ l b m, Iv.NormalPts ((o.row t c).map pt) (some inds) l ∧
    (∀ p ∈ l, p.σ ≠ 0) ∧ (∃ p ∈ l, ∃ q ∈ l, p.x ≠ q.x) ∧ IsBestLine l b m ∧ m ≠ 0

end Verif.Ibis
