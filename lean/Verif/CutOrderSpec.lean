import Verif.CutAuto

/-!
Specification for C123: a selection that does not depend on the order of the events.

`l` and `l'` hold the same events in different orders.  In both orders the call ends in the same way,
and if it returns, one rule `keep` decides for every event, wherever it is stored.
-/

namespace Verif.Cut
open Verif

/-- The outcomes of a cut on `l` and on `l'` agree. -/
inductive SameSelection {α : Type*} (l l' : List α) : Comp (List Bool) → Comp (List Bool) → Prop
  | running : SameSelection l l' none none
  | raised (e : Err) : SameSelection l l' (some (.error e)) (some (.error e))
  | kept (keep : α → Bool) :
      SameSelection l l' (some (.ok (l.map keep))) (some (.ok (l'.map keep)))

/-- A cut does not depend on the order of the events. -/
def OrderFree {α : Type*} (f : List α → Comp (List Bool)) : Prop :=
  ∀ l l' : List α, l.Perm l' → SameSelection l l' (f l) (f l')

/-- The same for what `iterstat` returns: the statistics are equal as well. -/
inductive SameStat (l l' : List ℝ) : Option Stat → Option Stat → Prop
  | running : SameStat l l' none none
  | stat (m s : Option ℝ) (keep : ℝ → Bool) :
      SameStat l l' (some ⟨m, s, l.map keep⟩) (some ⟨m, s, l'.map keep⟩)

/-- The same for `itercov`, whose events are the rows of a table: mean, covariance and number of
passes are equal as well. -/
inductive SameCov (l l' : List (List ℝ)) :
    Option (Except Err ((d : ℕ) × CovStat d × ℕ)) →
      Option (Except Err ((d : ℕ) × CovStat d × ℕ)) → Prop
  | running : SameCov l l' none none
  | raised (e : Err) : SameCov l l' (some (.error e)) (some (.error e))
  | stat {d : ℕ} (m : Option (Fin d → ℝ)) (c : Option (Matrix (Fin d) (Fin d) ℝ)) (p : ℕ)
      (keep : List ℝ → Bool) :
      SameCov l l' (some (.ok ⟨d, ⟨m, c, l.map keep⟩, p⟩)) (some (.ok ⟨d, ⟨m, c, l'.map keep⟩, p⟩))

end Verif.Cut
