import Verif.Iv
import Verif.LineFitSpec
import Mathlib.Analysis.Calculus.Deriv.Basic

/-! Specification vocabulary for the IV curve. -/

namespace Verif.Iv
open Verif LineFit

/-- The load resistance the documentation assigns to temperature `t`, channel `c`, bias point `i`. -/
def RLoad.documented (r : RLoad) (t c i : ℕ) : Option ValErr :=
  match r with
  | .scalar v => some v
  | .array (.d1 a) => some (a.get c)
  | .array (.d2 a) => some (a.get t c)
  | .array (.d3 a) => some (a.get t c i)
  | .array .other => none

/-- The shapes the documentation lists for data of shape `(ntemps, nch, niters)`. -/
def RLoad.HasShape (r : RLoad) (ntemps nch niters : ℕ) : Prop :=
  match r with
  | .scalar _ => True
  | .array (.d1 a) => a.n0 = nch
  | .array (.d2 a) => a.n0 = ntemps ∧ a.n1 = nch
  | .array (.d3 a) => a.n0 = ntemps ∧ a.n1 = nch ∧ a.n2 = niters
  | .array .other => False

/-- The first `j` points contain no `nan` and the best line through them has a reduced chi-square of at
most `tol`. -/
def Linear (pts : List (Option Pt)) (tol : ℝ) (j : ℕ) : Prop :=
  ∃ l b m, pts.take j = l.map some ∧ IsBestLine l b m ∧ Chi2 l b m ≤ tol * (j - 2)

/-- The normal points: those the user lists (negative indices count from the end), or an initial
stretch. -/
def NormalPts (pts : List (Option Pt)) (normalinds : Option (List ℤ)) (l : List Pt) : Prop :=
  match normalinds with
  | none => ∃ k, l.map some = pts.take k ∧ ∀ j, 3 ≤ j → j ≤ k → Linear pts 10 j
  | some inds => List.Forall₂ (fun (i : ℤ) p =>
      (0 ≤ i ∧ pts[i.toNat]? = some (some p)) ∨
      (i < 0 ∧ 0 ≤ i + pts.length ∧ pts[(i + pts.length).toNat]? = some (some p))) inds l

/-- `e` is the first-order error of `f(x, y, z)` for independent errors of the arguments. -/
def FirstOrder (f : ℝ → ℝ → ℝ → ℝ) (x y z ex ey ez e : ℝ) : Prop :=
  ∃ fx fy fz, HasDerivAt (fun u => f u y z) fx x ∧ HasDerivAt (fun u => f x u z) fy y ∧
    HasDerivAt (fun u => f x y u) fz z ∧ 0 ≤ e ∧
    e ^ 2 = (fx * ex) ^ 2 + (fy * ey) ^ 2 + (fz * ez) ^ 2

/-- The entry of the data for a temperature, a channel and a bias point: a one-dimensional array holds the bias
points of one channel at one temperature, a two-dimensional array one row per channel. -/
def Nd.entry {α : Type} (d : Nd α) (t c i : ℕ) : Option α :=
  match d with
  | .d1 a => if t < 1 ∧ c < 1 ∧ i < a.n0 then some (a.get i) else none
  | .d2 a => if t < 1 ∧ c < a.n0 ∧ i < a.n1 then some (a.get c i) else none
  | .d3 a => if t < a.n0 ∧ c < a.n1 ∧ i < a.n2 then some (a.get t c i) else none
  | .other => none

/-- The entry of a three-dimensional array within its shape. -/
def A3.entry {α : Type} (a : A3 α) (t c i : ℕ) : Option α :=
  if t < a.n0 ∧ c < a.n1 ∧ i < a.n2 then some (a.get t c i) else none

end Verif.Iv
