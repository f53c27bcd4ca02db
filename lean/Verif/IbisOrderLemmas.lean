import Verif.IbisOrderSpec
import Verif.IbisUnitsLemmas

/-! Lemmas for the order of the bias points in C130. -/

namespace Verif.Ibis
open Verif LineFit
open Verif.Iv (A3 Nd ValErr fancy fancy_nat)

theorem fits_order {π : ℕ → ℕ} {o o' : Obj} (h : Reordered π o o') {inds inds' : List ℤ}
    (hi : SamePoints o.data.n2 π inds inds') : o'.fits inds' = o.fits inds := by
  obtain ⟨l, l', rfl, rfl, hl, hl', hp⟩ := hi
  rw [fits_eq, fits_eq, h.n0, h.n1]
  congr 1
  funext t
  congr 1
  funext c
  unfold rowFit Obj.row
  rw [h.n2]
  simp only [List.map_map]
  rw [fancy_nat _ hl, fancy_nat _ hl']
  simp only
  have hq : (l'.map (pt ∘ fun i => o'.data.get t c i)).Perm (l.map (pt ∘ fun i => o.data.get t c i)) := by
    rw [List.map_congr_left (g := (pt ∘ fun i => o.data.get t c i) ∘ π) (fun i hi => by
      simp only [Function.comp_apply, h.data t c i (hl' i hi)]), ← List.map_map]
    exact hp.map _
  rw [curveFit_perm hq]

theorem scFits_order {π : ℕ → ℕ} {o o' : Obj} (h : Reordered π o o') (nf : List (List Fit)) :
    o'.scFits nf = o.scFits nf := by
  unfold Obj.scFits
  rw [h.fitsc]
  cases hf : o.fitsc with
  | false => rw [if_neg (by simp), if_neg (by simp), h.rp]
  | true =>
    obtain ⟨i, i', e, e', hp⟩ := h.sc hf
    simp only [e, e', fits_order h hp, h.n0, h.n1, h.rsh, h.rshErr, if_true]

end Verif.Ibis
