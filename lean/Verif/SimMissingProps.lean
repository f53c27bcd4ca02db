import Verif.SimPriorsProps

/-!
Property C55: `loadfromdidv` of an object which was not fitted.
-/

namespace Verif.Sim
open Verif

/-- Without a fit with one pole, or with two poles, `loadfromdidv` of a `DIDV` object raises KeyError. -/
theorem load_missing (o : Didv.Obj) (a : LoadArgs) (rnormal : Option ℝ) :
    ((∀ r, Didv.fitresult o 1 ≠ .found r) →
      loadfromdidv o a rnormal ⟨"superconducting", true⟩ = .error .keyError) ∧
    ((∀ r, Didv.fitresult o 2 ≠ .found r) →
      loadfromdidv o a rnormal ⟨"transition", true⟩ = .error .keyError) := by
  constructor
  · intro h
    have h1 : Didv.fitresult o 1 = .empty := by
      unfold Didv.fitresult at h ⊢
      cases hf : o.res1 <;> simp_all
    unfold loadfromdidv loadWith
    rw [if_pos (by decide)]
    simp only [h1, sspOf]
  · intro h
    have h1 : Didv.fitresult o 2 = .empty := by
      unfold Didv.fitresult at h ⊢
      cases hf : o.res2 <;> simp_all
    unfold loadfromdidv loadWith
    rw [if_neg (by decide), if_neg (by decide), if_pos (by decide)]
    simp only [h1, sspOf]

/-- A new object. -/
example (o : Didv.Obj) (h : Didv.Fresh o) (r : Didv.Result) : Didv.fitresult o 1 ≠ .found r ∧ Didv.fitresult o 2 ≠ .found r := by
  rw [Didv.fitresult_fresh h, Didv.fitresult_fresh h]
  simp

end Verif.Sim
