import Verif.IbisOrderLemmas

/-! Property C130: the order of the bias points of an IBIS measurement. -/

namespace Verif.Ibis
open Verif
open Verif.Iv (A3 Nd ValErr)

/-- The order of the bias points does not matter: the same measurement with its bias points in another order (the new point `i` is the
old point `π i`), the same points being called normal and superconducting in any order, fails exactly as before or gives the same
offsets and resistances, and the same current, voltage, resistance and power for every bias point, all with the same errors. -/
theorem ibis_bias_order {π : ℕ → ℕ} {o o' : Obj} (h : Reordered π o o') {yoff xoff : Off} (hy : Flat yoff) (hx : Flat xoff) :
    (∀ x, analyze o yoff xoff = .error x → analyze o' yoff xoff = .error x) ∧
    ∀ res, analyze o yoff xoff = .ok res → ∃ res', analyze o' yoff xoff = .ok res' ∧
      (∀ t c, res'.slopeN t c = res.slopeN t c ∧ res'.intN t c = res.intN t c ∧ res'.slopeSc t c = res.slopeSc t c ∧
        res'.intSc t c = res.intSc t c ∧ res'.ioff t c = res.ioff t c ∧ res'.ibiasOff t c = res.ibiasOff t c ∧
        res'.rfit t c = res.rfit t c ∧ res'.rp t c = res.rp t c ∧ res'.rnorm t c = res.rnorm t c) ∧
      ∀ t c, ∀ i < o.data.n2, res'.ites t c i = res.ites t c (π i) ∧ res'.ibiasTrue t c i = res.ibiasTrue t c (π i) ∧
        res'.vb t c i = res.vb t c (π i) ∧ res'.r0 t c i = res.r0 t c (π i) ∧ res'.ptes t c i = res.ptes t c (π i) := by
  unfold analyze
  rw [fits_order h h.normal]
  cases o.fits o.normalinds with
  | error e => exact ⟨fun x hx => hx, fun res hr => by cases hr⟩
  | ok nf =>
  simp only [scFits_order h]
  cases o.scFits nf with
  | error e => exact ⟨fun x hx => hx, fun res hr => by cases hr⟩
  | ok s =>
  obtain ⟨sf, src⟩ := s
  simp only [h.fitsc]
  cases ho : offsets o.fitsc (fitAt nf) (fitAt sf) yoff xoff with
  | error e => exact ⟨fun x hx => hx, fun res hr => by cases hr⟩
  | ok p =>
  obtain ⟨y, x⟩ := p
  simp only
  cases rpValues (fitAt sf) src with
  | error e => exact ⟨fun x hx => hx, fun res hr => by cases hr⟩
  | ok rp =>
  refine ⟨fun x hx => (by cases hx), fun res hr => ?_⟩
  simp only [Except.ok.injEq] at hr
  subst hr
  have hc : (∀ t c i, y t c i = y t c 0) ∧ ∀ t c i, x t c i = x t c 0 := by
    unfold offsets at ho
    cases yoff <;> cases xoff <;> simp only [Except.ok.injEq, Prod.mk.injEq, reduceCtorEq] at ho <;> obtain ⟨rfl, rfl⟩ := ho <;>
      first
      | exact ⟨fun _ _ _ => rfl, fun _ _ _ => rfl⟩
      | exact ⟨hy, hx⟩
      | exact ⟨hy, fun _ _ _ => rfl⟩
      | exact ⟨fun _ _ _ => rfl, hx⟩
  refine ⟨_, rfl, fun t c => ?_, fun t c i hi => ?_⟩
  · simp only [assemble, h.rsh, h.rshErr, and_self]
  · simp only [assemble, h.rsh, h.rshErr, h.data t c i hi, hc.1 t c i, hc.1 t c (π i), hc.2 t c i, hc.2 t c (π i), and_self]

/-- Non-vacuity: the points of `demo` in reverse order, with both branches named in yet another order. -/
example : ∃ res', analyze { demo true none with
      data := ⟨1, 1, 6, fun _ _ i => (demo true none).data.get 0 0 (5 - i)⟩, normalinds := [4, 3, 5], scinds := some [0, 2, 1] }
      .none .none = .ok res' ∧ res'.rfit 0 0 = ⟨2, 8⟩ ∧ res'.rp 0 0 = ⟨0, 1 / 2⟩ := by
  obtain ⟨res, h, -, -, -, -, -, -, h7, h8⟩ := demo_sc none
  have hr : Reordered (fun i => 5 - i) (demo true none) { demo true none with
      data := ⟨1, 1, 6, fun _ _ i => (demo true none).data.get 0 0 (5 - i)⟩, normalinds := [4, 3, 5], scinds := some [0, 2, 1] } :=
    { n0 := rfl, n1 := rfl, n2 := rfl, data := fun _ _ _ _ => rfl, rsh := rfl, rshErr := rfl, fitsc := rfl, rp := rfl
      normal := ⟨[0, 1, 2], [4, 3, 5], rfl, rfl, by simp [demo], by simp [demo], by decide⟩
      sc := fun _ => ⟨[3, 4, 5], [0, 2, 1], rfl, rfl, [3, 4, 5], [0, 2, 1], rfl, rfl, by simp [demo], by simp [demo], by decide⟩ }
  obtain ⟨res', h', h1, -⟩ := (ibis_bias_order hr (yoff := .none) (xoff := .none) trivial trivial).2 res h
  obtain ⟨-, -, -, -, -, -, e7, e8, -⟩ := h1 0 0
  exact ⟨res', h', e7.trans h7, e8.trans h8⟩

end Verif.Ibis
