import Verif.AlignNoiseSpec
import Verif.TemplateLemmas
import Mathlib.Algebra.Order.BigOperators.Ring.Finset
import Mathlib.Analysis.SpecialFunctions.Sqrt
import Mathlib.Algebra.BigOperators.Field
import Mathlib.Tactic.IntervalCases

/-! Auxiliary lemmas of property C166. -/

namespace Verif.Template
open Verif

theorem ext_div (l : List ℝ) (b : ℝ) (j : ℤ) : ext (l.map fun y => y / b) j = ext l j / b := by
  unfold ext
  split_ifs
  · rw [List.getD_eq_getElem?_getD, List.getD_eq_getElem?_getD, List.getElem?_map]
    cases l[j.toNat]? <;> simp
  · simp

theorem ext_ne_mem {l : List ℝ} {j : ℤ} (h : ext l j ≠ 0) : ∃ y ∈ l, y ≠ 0 := by
  unfold ext at h
  split_ifs at h
  · rw [List.getD_eq_getElem?_getD] at h
    cases hl : l[j.toNat]? with
    | none => simp [hl] at h
    | some y =>
      rw [hl] at h
      exact ⟨y, List.mem_of_getElem? hl, by simpa using h⟩
  · exact absurd rfl h

theorem centred_sum {l : List ℝ} (h : l ≠ []) : (centred l).sum = 0 := by
  have hp : (0 : ℝ) < l.length := by exact_mod_cast List.length_pos_iff.2 h
  have e : ∀ (l : List ℝ) (m : ℝ), (l.map fun y => y - m).sum = l.sum - l.length * m := by
    intro l m
    induction l with
    | nil => simp
    | cons a l ih =>
      simp only [List.map_cons, List.sum_cons, ih, List.length_cons, Nat.cast_add, Nat.cast_one]
      ring
  unfold centred
  rw [e]
  field_simp
  ring

/-- The conditioned trace is the filtered and centred one, scaled by a positive number. -/
theorem condition_scaled {filt : ℝ → ℝ → List ℝ → List ℝ} {nCut : ℤ} {x : List ℝ}
    (h : ∃ y ∈ centred (filt 5000 625000 (Np.sliceTo x nCut)), y ≠ 0) :
    ∃ b : ℝ, 0 < b ∧ condition filt nCut x = some ((centred (filt 5000 625000 (Np.sliceTo x nCut))).map fun y => y / b) := by
  unfold condition
  simp only
  generalize filt 5000 625000 (Np.sliceTo x nCut) = f at h ⊢
  obtain ⟨y, hy, hy0⟩ := h
  have hf : f ≠ [] := by
    rintro rfl
    simp [centred] at hy
  have hm : Np.mean f = some (f.sum / f.length) := by rw [Np.mean, if_neg hf]
  rw [hm]
  simp only
  have hc : centred f ≠ [] := List.ne_nil_of_mem hy
  obtain ⟨b, hb⟩ := max?_defined hc
  have hb' := max?_spec hb
  have hpos : 0 < b := by
    by_contra hcon
    rw [not_lt] at hcon
    have hle : ∀ z ∈ centred f, z ≤ 0 := fun z hz => (hb'.2 z hz).trans hcon
    have key : ∀ l : List ℝ, (∀ z ∈ l, z ≤ 0) → l.sum ≤ 0 ∧ (l.sum = 0 → ∀ z ∈ l, z = 0) := by
      intro l
      induction l with
      | nil => simp
      | cons a l ih =>
        intro hl
        obtain ⟨h1, h2⟩ := ih fun z hz => hl z (List.mem_cons_of_mem _ hz)
        have h3 := hl a List.mem_cons_self
        rw [List.sum_cons]
        refine ⟨by linarith, fun h0 z hz => ?_⟩
        rcases List.mem_cons.1 hz with rfl | hz
        · linarith
        · exact h2 (by linarith) z hz
    exact hy0 ((key _ hle).2 (centred_sum hf) y hy)
  refine ⟨b, hpos, ?_⟩
  have hb2 : (f.map fun y => y - f.sum / f.length).max? = some b := hb
  rw [hb2]
  simp only
  rw [if_neg hpos.ne']
  rfl

theorem corr_scaled {v u : List ℝ} {n : ℕ} (hv : v.length = n) (hu : u.length = n) (a b : ℝ) (k : ℕ) :
    corr (v.map fun y => y / a) (u.map fun y => y / b) k = corr v u k / (a * b) := by
  rw [corr_eq (by simpa using hv) (by simpa using hu), corr_eq hv hu, Finset.sum_div]
  refine Finset.sum_congr rfl fun j _ => ?_
  rw [ext_div, ext_div, div_mul_div_comm]

theorem window_sum (f : ℤ → ℝ) (n : ℕ) {s : ℤ} (h1 : -(n : ℤ) ≤ s) (h2 : s ≤ n) :
    ∑ j ∈ Finset.range n, f (j + s) ^ 2 ≤ ∑ m ∈ Finset.Ico (-(n : ℤ)) (2 * n), f m ^ 2 := by
  have e : ∑ j ∈ Finset.range n, f (j + s) ^ 2 = ∑ m ∈ (Finset.range n).image (fun j : ℕ => (j : ℤ) + s), f m ^ 2 := by
    rw [Finset.sum_image]
    intro a _ b _ h
    simpa using h
  rw [e]
  refine Finset.sum_le_sum_of_subset_of_nonneg ?_ fun _ _ _ => sq_nonneg _
  intro m hm
  obtain ⟨j, hj, rfl⟩ := Finset.mem_image.1 hm
  rw [Finset.mem_range] at hj
  rw [Finset.mem_Ico]
  omega

/-- The correlation with a delayed and disturbed copy. -/
theorem corr_disturbed {v u : List ℝ} (hl : u.length = v.length) (d : ℤ) {k : ℕ} (hk : k < v.length + u.length - 1) :
    |corr v u k - overlap v ((v.length : ℤ) - 1 - k - d)| ≤ Real.sqrt (overlap v 0 * disturbance v u d) := by
  set s : ℤ := (v.length : ℤ) - 1 - k with hs
  have e : corr v u k - overlap v (s - d) =
      ∑ j ∈ Finset.range v.length, ext v j * (ext u (j + s) - ext v (j + s - d)) := by
    rw [corr_eq rfl hl, overlap, ← Finset.sum_sub_distrib]
    refine Finset.sum_congr rfl fun j _ => ?_
    rw [← hs, show (j : ℤ) + (s - d) = j + s - d by ring]
    ring
  rw [e]
  refine Real.abs_le_sqrt ((Finset.sum_mul_sq_le_sq_mul_sq _ _ _).trans ?_)
  have h0 : overlap v 0 = ∑ j ∈ Finset.range v.length, ext v j ^ 2 := by
    unfold overlap
    refine Finset.sum_congr rfl fun j _ => ?_
    rw [add_zero, sq]
  rw [h0]
  refine mul_le_mul_of_nonneg_left ?_ (Finset.sum_nonneg fun _ _ => sq_nonneg _)
  exact window_sum (fun m => ext u m - ext v (m - d)) v.length (by omega) (by omega)

theorem overlap_zero_nonneg (v : List ℝ) : 0 ≤ overlap v 0 :=
  Finset.sum_nonneg fun j _ => by rw [add_zero]; exact mul_self_nonneg _

theorem disturbance_nonneg (v u : List ℝ) (d : ℤ) : 0 ≤ disturbance v u d := Finset.sum_nonneg fun _ _ => sq_nonneg _

/-- A trace which is a lightly disturbed copy is not zero. -/
theorem copy_varies {v u : List ℝ} {d : ℤ} (hd : |d| < v.length)
    (hgap : ∀ e : ℤ, e ≠ 0 → 2 * Real.sqrt (overlap v 0 * disturbance v u d) < overlap v 0 - overlap v e) : ∃ j, ext u j ≠ 0 := by
  by_contra hcon
  push Not at hcon
  have hn : (0 : ℤ) < v.length := (abs_nonneg d).trans_lt hd
  have h1 : overlap v (v.length : ℤ) = 0 := by
    refine Finset.sum_eq_zero fun j _ => ?_
    rw [ext_zero (l := v) (j := (j : ℤ) + v.length) (by omega), mul_zero]
  have h2 := hgap v.length hn.ne'
  rw [h1, sub_zero] at h2
  have h3 : overlap v 0 ≤ disturbance v u d := by
    have h4 := window_sum (fun m => ext v (m - d)) v.length (s := d) (by rw [abs_lt] at hd; omega) (by rw [abs_lt] at hd; omega)
    have e1 : ∑ j ∈ Finset.range v.length, (fun m => ext v (m - d)) ((j : ℤ) + d) ^ 2 = overlap v 0 := by
      unfold overlap
      refine Finset.sum_congr rfl fun j _ => ?_
      simp only [add_sub_cancel_right, add_zero]
      ring
    rw [e1] at h4
    refine h4.trans (le_of_eq ?_)
    unfold disturbance
    refine Finset.sum_congr rfl fun m _ => ?_
    rw [hcon m]
    ring
  have h0 := overlap_zero_nonneg v
  have h5 : overlap v 0 ≤ Real.sqrt (overlap v 0 * disturbance v u d) :=
    Real.le_sqrt_of_sq_le (by rw [sq]; exact mul_le_mul_of_nonneg_left h3 h0)
  linarith

/-- Conditioning removes a positive factor and an offset. -/
theorem condition_affine {filt : ℝ → ℝ → List ℝ → List ℝ}
    (hf : ∀ (c fs : ℝ) (l : List ℝ) (a b : ℝ), 0 < a → filt c fs (l.map fun y => a * y + b) = (filt c fs l).map fun y => a * y + b)
    (nCut : ℤ) (x : List ℝ) {a b : ℝ} (ha : 0 < a) : condition filt nCut (x.map fun y => a * y + b) = condition filt nCut x := by
  have hs : Np.sliceTo (x.map fun y => a * y + b) nCut = (Np.sliceTo x nCut).map fun y => a * y + b := by
    simp [Np.sliceTo, Np.clipIdx, List.map_take]
  unfold condition
  simp only
  rw [hs, hf _ _ _ _ _ ha]
  generalize filt 5000 625000 (Np.sliceTo x nCut) = f
  by_cases h0 : f = []
  · subst h0
    simp [Np.mean]
  · have hp : (0 : ℝ) < f.length := by exact_mod_cast List.length_pos_iff.2 h0
    have hsum : ∀ l : List ℝ, (l.map fun y => a * y + b).sum = a * l.sum + l.length * b := by
      intro l
      induction l with
      | nil => simp
      | cons y l ih =>
        simp only [List.map_cons, List.sum_cons, ih, List.length_cons, Nat.cast_add, Nat.cast_one]
        ring
    have e1 : Np.mean f = some (f.sum / f.length) := by rw [Np.mean, if_neg h0]
    have e2 : Np.mean (f.map fun y => a * y + b) = some (a * (f.sum / f.length) + b) := by
      rw [Np.mean, if_neg (by simpa using h0), hsum, List.length_map]
      congr 1
      field_simp
    rw [e1, e2]
    simp only
    set m := f.sum / f.length
    have e3 : (f.map fun y => a * y + b).map (fun y => y - (a * m + b)) = (f.map fun y => y - m).map fun y => a * y := by
      rw [List.map_map, List.map_map]
      apply List.map_congr_left
      intro y _
      simp only [Function.comp]
      ring
    rw [e3]
    obtain ⟨M, hM⟩ := max?_defined (l := f.map fun y => y - m) (by simpa using h0)
    have hM' := max?_spec hM
    have e4 : ((f.map fun y => y - m).map fun y => a * y).max? = some (a * M) := by
      refine List.max?_eq_some_iff.2 ⟨List.mem_map_of_mem hM'.1, fun z hz => ?_⟩
      obtain ⟨y, hy, rfl⟩ := List.mem_map.1 hz
      exact mul_le_mul_of_nonneg_left (hM'.2 y hy) ha.le
    rw [hM, e4]
    simp only
    by_cases hz : M = 0
    · rw [if_pos hz, if_pos (by rw [hz, mul_zero])]
    · rw [if_neg hz, if_neg (mul_ne_zero ha.ne' hz), List.map_map]
      congr 1
      apply List.map_congr_left
      intro y _
      simp only [Function.comp]
      exact mul_div_mul_left _ _ ha.ne'

/-- The overlaps of a pulse of two bins. -/
theorem overlap_pulse : overlap [0, 3, -3, 0] 0 = 18 ∧ ∀ e : ℤ, e ≠ 0 → overlap [0, 3, -3, 0] e ≤ 0 := by
  have t2 : Int.toNat 2 = 2 := rfl
  have t3 : Int.toNat 3 = 3 := rfl
  have t4 : Int.toNat 4 = 4 := rfl
  have t5 : Int.toNat 5 = 5 := rfl
  have t6 : Int.toNat 6 = 6 := rfl
  refine ⟨by norm_num [overlap, Finset.sum_range_succ, ext], fun e he => ?_⟩
  by_cases h3 : -4 < e ∧ e < 4
  · obtain ⟨h4, h5⟩ := h3
    interval_cases e <;> first | exact absurd rfl he | norm_num [overlap, Finset.sum_range_succ, ext, t2, t3, t4, t5, t6]
  · refine Finset.sum_nonpos fun j hj => ?_
    have hj4 : j < 4 := by simpa using hj
    rw [ext_zero (l := [0, 3, -3, 0]) (j := (j : ℤ) + e) (by simp only [List.length_cons, List.length_nil]; omega), mul_zero]

end Verif.Template
