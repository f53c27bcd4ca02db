import Verif.NoisePlot

/-! Specification vocabulary for the plots of `Noise` objects. -/

namespace Verif.NoisePlot

/-- `t` is the name `s` with underscores in the place of the spaces. -/
def Underscored (s t : String) : Prop :=
  List.Forall₂ (fun a b => (a = ' ' ∧ b = '_') ∨ (a ≠ ' ' ∧ b = a)) s.toList t.toList

/-- The label asks for the channels with the numbers `i` and `j`: its first two characters are these digits. -/
def Asks (l : Label) (i j : ℕ) : Prop :=
  ∃ x y rest, l = .str (x :: y :: rest) ∧ x.isDigit = true ∧ y.isDigit = true ∧ i = x.toNat - 48 ∧ j = y.toNat - 48

/-- The label is refused with a message: it is no string, or one of the channels does not exist. -/
def Refused (c : ℕ) (l : Label) : Prop := l = .other ∨ ∃ i j, Asks l i j ∧ (c ≤ i ∨ c ≤ j)

end Verif.NoisePlot
