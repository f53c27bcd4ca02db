import Verif.DidvObj

/-! Specification for property C133: an optimiser which finds an optimum whenever there is one. -/

namespace Verif.Didv
open Verif

/-- The sum of squares which a least-squares fit minimises. -/
def sumSq (r : List ℝ) : ℝ := (r.map fun v => v ^ 2).sum

/-- An optimiser which, started at a point within its bounds, returns a point within its bounds and half the sum of
squares there, and which finds a smallest sum of squares if one is attained within the bounds. -/
def Finds (ls : LS) : Prop := ∀ res p0 bounds r0, List.Forall₂ inB p0 bounds → res p0 = .ok r0 →
  (∃ r, List.Forall₂ inB (ls res p0 bounds).x bounds ∧ res (ls res p0 bounds).x = .ok r ∧
    (ls res p0 bounds).cost = sumSq r / 2) ∧
  ∀ x r, List.Forall₂ inB x bounds → res x = .ok r →
    (∀ x' r', List.Forall₂ inB x' bounds → res x' = .ok r' → sumSq r ≤ sumSq r') →
    (ls res p0 bounds).cost = sumSq r / 2

end Verif.Didv
