import Verif.IbisIvSpec
import Verif.IbisProps
import Verif.IvProps

/-! Lemmas for comparing the two IV analyses. -/

namespace Verif.Ibis
open Verif LineFit
open Verif.Iv (A1 A2 A3 Nd ValErr fancy)

/-- The abscissa shifted and rescaled. -/
def aff (x0 r : ℝ) (p : Pt) : Pt := ⟨(p.x - x0) * r, p.y, p.σ⟩

theorem wsum_aff (x0 r : ℝ) (pts : List Pt) :
    wsum (fun _ => 1) (pts.map (aff x0 r)) = wsum (fun _ => 1) pts ∧
    wsum (fun p => p.x) (pts.map (aff x0 r)) = r * (wsum (fun p => p.x) pts - x0 * wsum (fun _ => 1) pts) ∧
    wsum (fun p => p.x ^ 2) (pts.map (aff x0 r)) = r ^ 2 * (wsum (fun p => p.x ^ 2) pts -
      2 * x0 * wsum (fun p => p.x) pts + x0 ^ 2 * wsum (fun _ => 1) pts) ∧
    wsum (fun p => p.y) (pts.map (aff x0 r)) = wsum (fun p => p.y) pts ∧
    wsum (fun p => p.x * p.y) (pts.map (aff x0 r)) =
      r * (wsum (fun p => p.x * p.y) pts - x0 * wsum (fun p => p.y) pts) := by
  induction pts with
  | nil => simp [wsum_nil]
  | cons p l ih =>
    obtain ⟨h1, h2, h3, h4, h5⟩ := ih
    simp only [List.map_cons, wsum_cons, h1, h2, h3, h4, h5, aff]
    refine ⟨trivial, ?_, ?_, trivial, ?_⟩ <;> ring

theorem det_aff (x0 r : ℝ) (pts : List Pt) : det (pts.map (aff x0 r)) = r ^ 2 * det pts := by
  obtain ⟨h1, h2, h3, _, _⟩ := wsum_aff x0 r pts
  unfold det
  rw [h1, h2, h3]
  ring

theorem solve_aff {x0 r : ℝ} (hr : r ≠ 0) {pts : List Pt} (hd : det pts ≠ 0) :
    (solve (pts.map (aff x0 r))).b = (solve pts).b + (solve pts).m * x0 ∧
    (solve (pts.map (aff x0 r))).m = (solve pts).m / r := by
  obtain ⟨h1, h2, h3, h4, h5⟩ := wsum_aff x0 r pts
  simp only [solve, det_aff, h1, h2, h3, h4, h5]
  constructor
  · rw [div_eq_iff (mul_ne_zero (pow_ne_zero 2 hr) hd)]
    field_simp
    ring
  · field_simp
    ring

theorem toIv_row (o : Obj) (res : Result) (e1 e2 : ℝ) (t c : ℕ) :
    ((toIv o res e1 e2).row t c).map Iv.pt =
      ((o.row t c).map pt).map (Option.map (aff (res.ibiasOff t c).val o.rsh)) := by
  unfold Iv.Obj.row Obj.row
  simp only [toIv, List.map_map]
  refine List.map_congr_left fun i _ => ?_
  simp only [Function.comp_apply, Iv.pt, pt, Option.map_map]
  cases o.data.get t c i <;> rfl

/-- The fits of the IV object are those of the IBIS object. -/
theorem toIv_rowFit {o : Obj} {res : Result} (h : analyze o .none .none = .ok res) (hr : o.rsh ≠ 0)
    (e1 e2 : ℝ) {t c : ℕ} (ht : t < o.data.n0) (hc : c < o.data.n1) :
    ∃ f, Iv.rowFit ((toIv o res e1 e2).row t c) (some o.normalinds) = .ok f ∧
      f.ioff = (res.ioff t c).val ∧ f.rfit = (res.rfit t c).val := by
  have hrow := toIv_row o res e1 e2 t c
  obtain ⟨nf, sf, src, ioff, ibo, rp, h1, h2, h3, h4, rfl⟩ := analyze_ok h
  obtain ⟨ln, hn, hlen, hσ, hd, en, hm⟩ := fits_ok h1 ht hc
  unfold offsets at h3
  cases h3
  simp only [assemble] at hrow ⊢
  set x0 := intX o.fitsc (fitAt nf t c) (fitAt sf t c) with hx0
  have hf : fancy (((o.row t c).map pt).map (Option.map (aff x0 o.rsh))) o.normalinds =
      .ok ((ln.map (aff x0 o.rsh)).map some) := by
    refine fancy_of ?_
    rw [List.forall₂_map_right_iff, List.forall₂_map_right_iff]
    have hn' : List.Forall₂ _ o.normalinds ln := hn
    refine hn'.imp fun i p hip => ?_
    simp only [List.length_map, List.getElem?_map] at hip ⊢
    rcases hip with ⟨h0, e⟩ | ⟨h0, h0', e⟩
    · left
      refine ⟨h0, ?_⟩
      rw [e]
      rfl
    · right
      refine ⟨h0, h0', ?_⟩
      rw [e]
      rfl
  have hd' : det (ln.map (aff x0 o.rsh)) ≠ 0 := by
    rw [det_aff]
    exact mul_ne_zero (pow_ne_zero 2 hr) hd
  have hc' := curveFit_of (l := ln.map (aff x0 o.rsh)) (by
    intro p hp
    obtain ⟨q, hq, rfl⟩ := List.mem_map.1 hp
    exact hσ q hq) (by rw [List.length_map]; exact hlen) hd'
  obtain ⟨sb, sm⟩ := solve_aff (x0 := x0) hr hd
  have hm' : (solve ln).m ≠ 0 := by rw [← en]; exact hm
  unfold Iv.rowFit
  simp only [hrow, hf, hc']
  rw [if_neg (by rw [sm]; exact div_ne_zero hm' hr)]
  refine ⟨_, rfl, ?_, ?_⟩
  · simp only [sb, intY, en]
    split_ifs with hs
    · rw [hx0, en]
      simp only [hs]
      ring
    · rw [hx0]
      simp only [intX, hs, Bool.false_eq_true, if_false]
      ring
  · simp only [sm, en]
    field_simp

end Verif.Ibis
