import Verif.NonLin

/-! Specification for property C134: an optimiser which finds the best point within its bounds. -/

namespace Verif.NonLin
open Verif

/-- A point within bounds. -/
def Within (b : List EReal × List EReal) (x : List ℝ) : Prop :=
  List.Forall₂ (fun (l : EReal) (v : ℝ) => l ≤ v) b.1 x ∧ List.Forall₂ (fun (u : EReal) (v : ℝ) => (v : EReal) ≤ u) b.2 x

/-- A point within the bounds where the residuals are defined and have the smallest sum of squares. -/
def IsBest (res : List ℝ → Except Err (List ℝ)) (b : List EReal × List EReal) (x : List ℝ) : Prop :=
  Within b x ∧ ∃ r, res x = .ok r ∧
    ∀ x' r', Within b x' → res x' = .ok r' → (r.map (· ^ 2)).sum ≤ (r'.map (· ^ 2)).sum

/-- An optimiser which, if there is a best point within the bounds, returns one. -/
def Finds {n : ℕ} (res : List ℝ → Except Err (List ℝ)) (solve : List ℝ → List EReal × List EReal → Lsq n) : Prop :=
  ∀ p0 b, (∃ x, IsBest res b x) → IsBest res b (solve p0 b).x

/-- Within a factor of the guess. -/
def Near (f g x : ℝ) : Prop := g / f ≤ x ∧ x ≤ g * f

/-- Within thirty samples of the guess. -/
def NearTime (fs s t : ℝ) : Prop := s - 30 / fs ≤ t ∧ t ≤ s + 30 / fs

/-- The function which `fitmuontail` gives to the optimiser. -/
noncomputable def muonRes {n : ℕ} [NeZero n] (o : Muon n) : List ℝ → Except Err (List ℝ)
  | [A, τ] => .ok (o.residuals A τ)
  | _ => .error .typeError

end Verif.NonLin
