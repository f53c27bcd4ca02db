import Verif.IbisSpec

/-! Specification vocabulary for C130: the same bias points in another order. -/

namespace Verif.Ibis
open Verif
open Verif.Iv (A3 Nd ValErr)

/-- `inds'` are the points of `inds` after the reordering `π` (the new point `i` is the old point `π i`), in any order. -/
def SamePoints (n2 : ℕ) (π : ℕ → ℕ) (inds inds' : List ℤ) : Prop :=
  ∃ l l' : List ℕ, inds = l.map (fun i : ℕ => (i : ℤ)) ∧ inds' = l'.map (fun i : ℕ => (i : ℤ)) ∧ (∀ i ∈ l, i < n2) ∧
    (∀ i ∈ l', i < n2) ∧ (l'.map π).Perm l

/-- `o'` is the measurement `o` with its bias points reordered, and the same points are called normal and superconducting. -/
structure Reordered (π : ℕ → ℕ) (o o' : Obj) : Prop where
  n0 : o'.data.n0 = o.data.n0
  n1 : o'.data.n1 = o.data.n1
  n2 : o'.data.n2 = o.data.n2
  data : ∀ t c, ∀ i < o.data.n2, o'.data.get t c i = o.data.get t c (π i)
  rsh : o'.rsh = o.rsh
  rshErr : o'.rshErr = o.rshErr
  fitsc : o'.fitsc = o.fitsc
  rp : o'.rp = o.rp
  normal : SamePoints o.data.n2 π o.normalinds o'.normalinds
  sc : o.fitsc = true → ∃ inds inds', o.scinds = some inds ∧ o'.scinds = some inds' ∧ SamePoints o.data.n2 π inds inds'

/-- Offsets given by the user do not differ between the bias points. -/
def Flat : Off → Prop
  | .array a => ∀ t c i, a.get t c i = a.get t c 0
  | _ => True

end Verif.Ibis
