import Verif.CutOutLemmas

/-! Auxiliary lemmas of property C163. -/

namespace Verif.Cut
open Verif

variable {d : ℕ}

theorem list_sum_swap {α ι : Type*} (l : List α) (s : Finset ι) (f : ι → α → ℝ) :
    (l.map fun x => ∑ i ∈ s, f i x).sum = ∑ i ∈ s, (l.map (f i)).sum := by
  induction l with
  | nil => simp
  | cons a l ih => simp only [List.map_cons, List.sum_cons, ih, Finset.sum_add_distrib]

theorem list_sum_mul {α : Type*} (l : List α) (c : ℝ) (f : α → ℝ) : (l.map fun x => c * f x).sum = c * (l.map f).sum := by
  rw [List.sum_map_mul_left]

theorem sum_vdev {ev : List (Fin d → ℝ)} (hev : ev ≠ []) (i : Fin d) : (ev.map fun x => x i - vmean ev i).sum = 0 := by
  have h : (0 : ℝ) < ev.length := by exact_mod_cast List.length_pos_iff.2 hev
  have e : (ev.map fun x => x i - vmean ev i).sum = (ev.map fun x => x i).sum - ev.length * vmean ev i := by
    generalize vmean ev i = c
    clear h hev
    induction ev with
    | nil => simp
    | cons a l ih =>
      simp only [List.map_cons, List.sum_cons, ih, List.length_cons, Nat.cast_add, Nat.cast_one]
      ring
  rw [e, vmean, avg, List.length_map]
  field_simp
  ring

/-- The scatter of a projection. -/
theorem proj_sq {ev : List (Fin d → ℝ)} (h2 : 2 ≤ ev.length) (u : Fin d → ℝ) :
    (ev.map fun x => (∑ i, u i * (x i - vmean ev i)) ^ 2).sum = (ev.length - 1) * ∑ i, ∑ j, u i * (vcov ev i j * u j) := by
  have hN : (ev.length : ℝ) - 1 ≠ 0 := by
    have : (2 : ℝ) ≤ ev.length := by exact_mod_cast h2
    linarith
  have e : ∀ x : Fin d → ℝ, (∑ i, u i * (x i - vmean ev i)) ^ 2 =
      ∑ i, ∑ j, u i * u j * ((x i - vmean ev i) * (x j - vmean ev j)) := by
    intro x
    rw [sq, Finset.sum_mul_sum]
    exact Finset.sum_congr rfl fun i _ => Finset.sum_congr rfl fun j _ => by ring
  simp_rw [e]
  rw [list_sum_swap, Finset.mul_sum]
  refine Finset.sum_congr rfl fun i _ => ?_
  rw [list_sum_swap, Finset.mul_sum]
  refine Finset.sum_congr rfl fun j _ => ?_
  rw [list_sum_mul, vcov]
  field_simp

theorem proj_bound {ev : List (Fin d → ℝ)} (h2 : 2 ≤ ev.length) (u : Fin d → ℝ) {x : Fin d → ℝ} (hx : x ∈ ev) :
    ev.length * (∑ i, u i * (x i - vmean ev i)) ^ 2 ≤ (ev.length - 1) ^ 2 * ∑ i, ∑ j, u i * (vcov ev i j * u j) := by
  have hev : ev ≠ [] := List.ne_nil_of_mem hx
  have hp : (0 : ℝ) < ev.length := by exact_mod_cast List.length_pos_iff.2 hev
  have ha : avg (ev.map fun x => ∑ i, u i * (x i - vmean ev i)) = 0 := by
    rw [avg, list_sum_swap]
    simp_rw [list_sum_mul, sum_vdev hev]
    simp
  have h := samuelson (data := ev.map fun x => ∑ i, u i * (x i - vmean ev i)) (List.mem_map.2 ⟨x, hx, rfl⟩)
  rw [ha, sub_zero, moment, ha, List.map_map, avg, List.length_map, List.length_map] at h
  have e : (ev.map ((fun x => (x - 0) ^ 2) ∘ fun x => ∑ i, u i * (x i - vmean ev i))).sum =
      (ev.length - 1) * ∑ i, ∑ j, u i * (vcov ev i j * u j) := by
    rw [← proj_sq h2 u]
    simp [Function.comp_def]
  rw [e] at h
  have := mul_le_mul_of_nonneg_left h hp.le
  refine this.trans_eq ?_
  field_simp

/-- No event is further from the mean, in the metric of the covariance. -/
theorem chi2_bound {ev : List (Fin d → ℝ)} (h2 : 2 ≤ ev.length) (hd : (vcov ev).det ≠ 0) {x : Fin d → ℝ} (hx : x ∈ ev) :
    ev.length * (∑ i, (x i - vmean ev i) * ((vcov ev)⁻¹.mulVec fun j => x j - vmean ev j) i) ≤ (ev.length - 1) ^ 2 := by
  have hp : (0 : ℝ) < ev.length := by exact_mod_cast List.length_pos_iff.2 (List.ne_nil_of_mem hx)
  set u := (vcov ev)⁻¹.mulVec fun j => x j - vmean ev j with hu
  have hb := proj_bound h2 u hx
  have hcu : (vcov ev).mulVec u = fun j => x j - vmean ev j := by
    rw [hu, Matrix.mulVec_mulVec, Matrix.mul_nonsing_inv _ (isUnit_iff_ne_zero.2 hd), Matrix.one_mulVec]
  have e1 : ∑ i, ∑ j, u i * (vcov ev i j * u j) = ∑ i, u i * (x i - vmean ev i) := by
    refine Finset.sum_congr rfl fun i _ => ?_
    rw [← Finset.mul_sum]
    have := congrFun hcu i
    simp only [Matrix.mulVec, dotProduct] at this
    rw [this]
  rw [e1] at hb
  have e2 : ∑ i, (x i - vmean ev i) * u i = ∑ i, u i * (x i - vmean ev i) := Finset.sum_congr rfl fun i _ => mul_comm _ _
  rw [e2]
  set q := ∑ i, u i * (x i - vmean ev i)
  rcases le_or_gt q 0 with h | h
  · exact (mul_nonpos_of_nonneg_of_nonpos hp.le h).trans (sq_nonneg _)
  · refine le_of_mul_le_mul_right ?_ h
    linarith

theorem vcov_diag_pos {ev : List (Fin d → ℝ)} (h2 : 2 ≤ ev.length) (hd : (vcov ev).det ≠ 0) (i : Fin d) : 0 < vcov ev i i := by
  have hN : (0 : ℝ) < ev.length - 1 := by
    have : (2 : ℝ) ≤ ev.length := by exact_mod_cast h2
    linarith
  have h0 : ∀ t ∈ ev.map (fun x => (x i - vmean ev i) * (x i - vmean ev i)), (0 : ℝ) ≤ t := by
    intro t ht
    obtain ⟨x, -, rfl⟩ := List.mem_map.1 ht
    exact mul_self_nonneg _
  have h1 : 0 ≤ vcov ev i i := div_nonneg (List.sum_nonneg h0) hN.le
  refine lt_of_le_of_ne h1 fun h => hd ?_
  have hs : (ev.map fun x => (x i - vmean ev i) * (x i - vmean ev i)).sum = 0 := by
    rw [vcov] at h
    rcases div_eq_zero_iff.1 h.symm with h | h
    · exact h
    · exact absurd h hN.ne'
  have hz : ∀ x ∈ ev, x i - vmean ev i = 0 := by
    intro x hx
    have h3 : (x i - vmean ev i) * (x i - vmean ev i) ≤ 0 :=
      (List.single_le_sum h0 _ (List.mem_map.2 ⟨x, hx, rfl⟩)).trans_eq hs
    exact mul_self_eq_zero.1 (le_antisymm h3 (mul_self_nonneg _))
  refine Matrix.det_eq_zero_of_row_eq_zero i fun j => ?_
  rw [vcov]
  have : (ev.map fun x => (x i - vmean ev i) * (x j - vmean ev j)) = ev.map fun _ => (0 : ℝ) :=
    List.map_congr_left fun x hx => by rw [hz x hx, zero_mul]
  rw [this]
  simp

/-- If the first pass keeps everything, everything is kept. -/
theorem cov_kept_all {ev : List (Fin d → ℝ)} {mc thr : ℝ} (hk : covMask ev (vmean ev) (vcov ev) mc thr = List.replicate ev.length true)
    {mi : ℤ} {em : Fin d → ℝ} {ec : ℝ} {f : ℕ} {ns jj : ℕ} {s : CovStat d} {p : ℕ}
    (h : covLoop ev mc thr mi em ec f (vmean ev) (vcov ev) ns jj = some (.ok (s, p))) :
    s = ⟨some (vmean ev), some (vcov ev), List.replicate ev.length true⟩ := by
  induction f generalizing ns jj with
  | zero => simp [covLoop] at h
  | succ f ih =>
    rw [covLoop] at h
    by_cases h1 : (vcov ev).det = 0
    · rw [if_pos h1] at h
      simp at h
    rw [if_neg h1, hk] at h
    simp only [sel_replicate] at h
    split_ifs at h
    all_goals first
      | exact ih h
      | (simp only [Option.some.injEq, Except.ok.injEq, Prod.mk.injEq] at h; exact h.1.symm)

theorem cov_kept_ok {ev : List (Fin d → ℝ)} (hd : (vcov ev).det ≠ 0) {mc thr : ℝ}
    (hk : covMask ev (vmean ev) (vcov ev) mc thr = List.replicate ev.length true) {mi : ℤ} {em : Fin d → ℝ} {ec : ℝ} {f : ℕ} {ns jj : ℕ}
    {e : Err} : covLoop ev mc thr mi em ec f (vmean ev) (vcov ev) ns jj ≠ some (.error e) := by
  induction f generalizing ns jj with
  | zero => simp [covLoop]
  | succ f ih =>
    rw [covLoop, if_neg hd, hk]
    simp only [sel_replicate]
    split_ifs
    all_goals first
      | exact ih
      | simp

/-- The first pass keeps every one of few enough events. -/
theorem cov_few {ev : List (Fin d → ℝ)} {mc thr : ℝ} (h2 : 2 ≤ ev.length) (hd : (vcov ev).det ≠ 0) (ht : 0 < thr)
    (h3 : ((ev.length : ℝ) - 1) ^ 2 < ev.length * mc) (h4 : ((ev.length : ℝ) - 1) ^ 2 < ev.length * thr ^ 2) :
    covMask ev (vmean ev) (vcov ev) mc thr = List.replicate ev.length true := by
  have hp : (0 : ℝ) < ev.length := by
    have : 0 < ev.length := by omega
    exact_mod_cast this
  unfold covMask
  rw [List.eq_replicate_iff]
  refine ⟨by simp, fun b hb => ?_⟩
  obtain ⟨x, hx, rfl⟩ := List.mem_map.1 hb
  rw [Bool.and_eq_true, decide_eq_true_eq, decide_eq_true_eq]
  constructor
  · exact lt_of_mul_lt_mul_left ((chi2_bound h2 hd hx).trans_lt h3) hp.le
  · intro i
    have hc := vcov_diag_pos h2 hd i
    have hb := proj_bound h2 (Pi.single i 1) hx
    simp only [Pi.single_apply, ite_mul, one_mul, zero_mul, mul_ite, mul_one, mul_zero, Finset.sum_ite_eq', Finset.mem_univ,
      if_true] at hb
    refine abs_lt_of_sq_lt_sq ?_ (mul_nonneg (Real.sqrt_nonneg _) ht.le)
    rw [mul_pow, Real.sq_sqrt hc.le]
    refine lt_of_mul_lt_mul_left (hb.trans_lt ?_) hp.le
    calc _ < ev.length * thr ^ 2 * vcov ev i i := by
          convert mul_lt_mul_of_pos_right h4 hc using 2
      _ = _ := by ring

end Verif.Cut
