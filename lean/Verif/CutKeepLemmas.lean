import Verif.CutScaleProps

/-! Lemmas about the median and one pass of `removeoutliers` on finite data. -/

namespace Verif.Cut
open Verif

theorem sorted_mergeSort (l : List ℝ) :
    (l.mergeSort fun a b => decide (a ≤ b)).Pairwise (· ≤ ·) := by
  have := List.pairwise_mergeSort (le := fun a b : ℝ => decide (a ≤ b))
    (fun a b c h1 h2 => by
      simp only [decide_eq_true_iff] at *
      exact le_trans h1 h2)
    (fun a b => by
      simp only [Bool.or_eq_true, decide_eq_true_iff]
      exact le_total a b) l
  exact this.imp fun h => of_decide_eq_true h

/-- The median is the midpoint of the two middle entries. -/
theorem median_mid {l : List ℝ} (h : l ≠ []) :
    ∃ lo hi : ℝ, lo ∈ l ∧ hi ∈ l ∧ lo ≤ hi ∧ median l = (lo + hi) / 2 ∧
      (∀ v, (∀ y ∈ l, v ≤ y) → 2 * l.count v < l.length → v < lo) ∧
      (∀ v, (∀ y ∈ l, y ≤ v) → 2 * l.count v < l.length → hi < v) := by
  classical
  set s := l.mergeSort fun a b => decide (a ≤ b) with hs
  have hperm : s.Perm l := List.mergeSort_perm l _
  have hlen : s.length = l.length := hperm.length_eq
  have hpos : 0 < l.length := List.length_pos_iff.2 h
  have hsort := List.pairwise_iff_getElem.1 (sorted_mergeSort l)
  have k1 : (l.length - 1) / 2 < s.length := by omega
  have k2 : l.length / 2 < s.length := by omega
  have hle : ∀ i j (hi : i < s.length) (hj : j < s.length), i ≤ j → s[i] ≤ s[j] := by
    intro i j hi hj hij
    rcases hij.eq_or_lt with rfl | hlt
    · exact le_rfl
    · exact hsort i j hi hj hlt
  refine ⟨s[(l.length - 1) / 2], s[l.length / 2], hperm.subset (List.getElem_mem k1),
    hperm.subset (List.getElem_mem k2), hle _ _ _ _ (by omega), ?_, ?_, ?_⟩
  · unfold median
    simp only [← hs]
    split_ifs with ho
    · rw [List.getD_eq_getElem?_getD, List.getElem?_eq_getElem k2, Option.getD_some]
      have : (l.length - 1) / 2 = l.length / 2 := by omega
      simp only [this]
      ring
    · have e : l.length / 2 - 1 = (l.length - 1) / 2 := by omega
      rw [e, List.getD_eq_getElem?_getD, List.getElem?_eq_getElem k1, List.getD_eq_getElem?_getD,
        List.getElem?_eq_getElem k2, Option.getD_some, Option.getD_some]
  · intro v hv hc
    by_contra hcon
    rw [not_lt] at hcon
    have hall : ∀ y ∈ s.take ((l.length - 1) / 2 + 1), v = y := by
      intro y hy
      obtain ⟨j, hj, rfl⟩ := List.getElem_of_mem hy
      rw [List.getElem_take]
      rw [List.length_take] at hj
      refine le_antisymm (hv _ (hperm.subset (List.getElem_mem _))) ?_
      exact (hle j ((l.length - 1) / 2) (by omega) k1 (by omega)).trans hcon
    have h1 : (s.take ((l.length - 1) / 2 + 1)).count v = (s.take ((l.length - 1) / 2 + 1)).length :=
      List.count_eq_length.2 hall
    have h2 := (List.take_sublist ((l.length - 1) / 2 + 1) s).count_le v
    rw [h1, List.length_take, hperm.count_eq] at h2
    omega
  · intro v hv hc
    by_contra hcon
    rw [not_lt] at hcon
    have hall : ∀ y ∈ s.drop (l.length / 2), v = y := by
      intro y hy
      obtain ⟨j, hj, rfl⟩ := List.getElem_of_mem hy
      rw [List.getElem_drop]
      rw [List.length_drop] at hj
      refine le_antisymm ?_ (hv _ (hperm.subset (List.getElem_mem _)))
      exact hcon.trans (hle (l.length / 2) _ k2 (by omega) (by omega))
    have h1 : (s.drop (l.length / 2)).count v = (s.drop (l.length / 2)).length :=
      List.count_eq_length.2 hall
    have h2 := (List.drop_sublist (l.length / 2) s).count_le v
    rw [h1, List.length_drop, hperm.count_eq] at h2
    omega

theorem finite_sel_coe (x : List ℝ) (m : List Bool) :
    finite (sel (x.map fun v => ((v : ℝ) : WithTop ℝ)) m) = sel x m := by
  rw [sel_map_left]
  unfold finite
  rw [List.filterMap_map]
  exact List.filterMap_some

theorem sel_and {α : Type*} (p : α → Bool) (x : List α) :
    ∀ m : List Bool, sel x (List.zipWith (fun b v => b && p v) m x) = (sel x m).filter p := by
  simp only [sel_eq_selected]
  induction x with
  | nil => intro m; cases m <;> rfl
  | cons a x ih =>
    intro m
    rcases m with _ | ⟨_ | _, m⟩
    · rfl
    · exact ih m
    · rw [List.zipWith_cons_cons, Bool.true_and, Selected, List.filter_cons]
      cases p a
      · exact ih m
      · exact congrArg (a :: ·) (ih m)

theorem roPass_real {x : List ℝ} {lo hi : ℝ} (hlo : x.min? = some lo) (hhi : x.max? = some hi)
    (inds : List Bool) :
    roPass (x.map fun v => ((v : ℝ) : WithTop ℝ)) inds =
      .ok (List.zipWith (fun b v => b && decide (|v - median (sel x inds)| <
        min |lo - median (sel x inds)| |hi - median (sel x inds)|)) inds x) := by
  unfold roPass
  simp only [finite_sel_coe]
  set med := median (sel x inds)
  have hd : (x.map fun v => ((v : ℝ) : WithTop ℝ)).map (WithTop.map fun v => v - med) =
      x.map fun v => ((v - med : ℝ) : WithTop ℝ) := by
    rw [List.map_map]
    rfl
  have hmono : Monotone fun v : ℝ => ((v - med : ℝ) : WithTop ℝ) := by
    intro u v huv
    exact WithTop.coe_le_coe.2 (by linarith)
  rw [hd, min?_map hmono, max?_map hmono, hlo, hhi]
  simp only [Option.map_some, WithTop.map_coe]
  rw [List.zipWith_map_right]
  congr 2
  funext b v
  refine congrArg (b && ·) (decide_eq_decide.2 ?_)
  rw [WithTop.map_coe, ← WithTop.coe_min, WithTop.coe_lt_coe]

/-- The invariant: something is selected, and it is either everything or strictly inside. -/
def Inner (x : List ℝ) (lo hi : ℝ) (inds : List Bool) : Prop :=
  sel x inds ≠ [] ∧ (sel x inds = x ∨ ∀ v ∈ sel x inds, lo < v ∧ v < hi)

theorem roPass_inner {x : List ℝ} {lo hi : ℝ} (hlo : x.min? = some lo) (hhi : x.max? = some hi)
    (h1 : 2 * x.count lo < x.length) (h2 : 2 * x.count hi < x.length) {inds inds' : List Bool}
    (hI : Inner x lo hi inds)
    (h : roPass (x.map fun v => ((v : ℝ) : WithTop ℝ)) inds = .ok inds') :
    Inner x lo hi inds' := by
  rw [roPass_real hlo hhi] at h
  cases h
  obtain ⟨hne, hI⟩ := hI
  obtain ⟨a, b, ha, hb, hab, hmed, hmin, hmax⟩ := median_mid hne
  have hin : lo < a ∧ b < hi := by
    rcases hI with e | hI
    · rw [e] at hmin hmax
      exact ⟨hmin lo (fun y hy => (List.min?_eq_some_iff.1 hlo).2 y hy) h1,
        hmax hi (fun y hy => (List.max?_eq_some_iff.1 hhi).2 y hy) h2⟩
    · exact ⟨(hI a ha).1, (hI b hb).2⟩
  set med := median (sel x inds)
  have d1 : |lo - med| = med - lo := by
    rw [abs_of_neg (by linarith [hin.1])]
    ring
  have d2 : |hi - med| = hi - med := abs_of_pos (by linarith [hin.2])
  unfold Inner
  rw [sel_and, d1, d2]
  constructor
  · apply List.ne_nil_of_mem (a := a)
    rw [List.mem_filter, decide_eq_true_iff]
    refine ⟨ha, ?_⟩
    rw [abs_of_nonpos (by linarith), lt_min_iff]
    constructor <;> linarith [hin.1, hin.2]
  · right
    intro v hv
    rw [List.mem_filter, decide_eq_true_iff, lt_min_iff, abs_lt, abs_lt] at hv
    constructor <;> linarith [hv.2.1.1, hv.2.2.2]

end Verif.Cut
