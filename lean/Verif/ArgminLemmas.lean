import Verif.ArgminSpec
import Mathlib.Tactic.Linarith

/-! Helper lemmas for `ArgminProps.lean`. -/

namespace Verif.OF

theorem mem_arange (a b i : ℤ) : i ∈ arange a b ↔ a ≤ i ∧ i < b := by
  unfold arange
  simp only [List.mem_map, List.mem_range]
  constructor
  · rintro ⟨k, hk, rfl⟩; omega
  · rintro ⟨h1, h2⟩; exact ⟨(i - a).toNat, by omega, by omega⟩

theorem arange_sorted (a b : ℤ) : (arange a b).Pairwise (· < ·) := by
  unfold arange
  rw [List.pairwise_map]
  exact List.pairwise_lt_range.imp (by intro x y h; omega)

theorem argminGo_spec (f : ℤ → ℝ) : ∀ (l : List ℤ) (best : ℤ),
    (argminGo f best l = best ∨ argminGo f best l ∈ l) ∧
    f (argminGo f best l) ≤ f best ∧ (∀ j ∈ l, f (argminGo f best l) ≤ f j)
  | [], best => by simp [argminGo]
  | a :: l, best => by
    unfold argminGo
    split_ifs with h
    · obtain ⟨h1, h2, h3⟩ := argminGo_spec f l a
      refine ⟨Or.inr ?_, h2.trans h.le, ?_⟩
      · rcases h1 with h1 | h1
        · rw [h1]; simp
        · simp [h1]
      · intro j hj
        rcases List.mem_cons.1 hj with rfl | hj
        · exact h2
        · exact h3 j hj
    · obtain ⟨h1, h2, h3⟩ := argminGo_spec f l best
      refine ⟨?_, h2, ?_⟩
      · rcases h1 with h1 | h1
        · exact Or.inl h1
        · right; simp [h1]
      · intro j hj
        rcases List.mem_cons.1 hj with rfl | hj
        · exact h2.trans (not_lt.1 h)
        · exact h3 j hj

theorem argminGo_first (f : ℤ → ℝ) : ∀ (l : List ℤ) (best : ℤ),
    (best :: l).Pairwise (· < ·) → ∀ j ∈ best :: l, j < argminGo f best l →
      f (argminGo f best l) < f j
  | [], best, _, j, hj, hlt => by
    simp at hj; subst hj; simp [argminGo] at hlt
  | a :: l, best, hs, j, hj, hlt => by
    have hba := (List.pairwise_cons.1 hs).1
    have hs' := (List.pairwise_cons.1 hs).2
    unfold argminGo at hlt ⊢
    split_ifs at hlt ⊢ with h
    · rcases List.mem_cons.1 hj with rfl | hj'
      · exact lt_of_le_of_lt (argminGo_spec f l a).2.1 h
      · exact argminGo_first f l a hs' j hj' hlt
    · have hs'' : (best :: l).Pairwise (· < ·) :=
        List.pairwise_cons.2 ⟨fun b hb => hba b (by simp [hb]), (List.pairwise_cons.1 hs').2⟩
      rcases List.mem_cons.1 hj with rfl | hj'
      · exact argminGo_first f l j hs'' j (by simp) hlt
      · rcases List.mem_cons.1 hj' with rfl | hj''
        · -- `j = a`, and the winner is neither `a` nor before it, hence strictly better than best
          have hb := argminGo_first f l best hs'' best (by simp) (lt_trans (hba j (by simp)) hlt)
          exact lt_of_lt_of_le hb (not_lt.1 h)
        · exact argminGo_first f l best hs'' j (by simp [hj'']) hlt

theorem argminOn_none (f : ℤ → ℝ) (l : List ℤ) : argminOn f l = none ↔ l = [] := by
  cases l <;> simp [argminOn]

theorem argminOn_spec (f : ℤ → ℝ) (l : List ℤ) (hs : l.Pairwise (· < ·)) (i : ℤ)
    (h : argminOn f l = some i) :
    i ∈ l ∧ (∀ j ∈ l, f i ≤ f j) ∧ (∀ j ∈ l, j < i → f i < f j) := by
  cases l with
  | nil => simp [argminOn] at h
  | cons a l =>
    simp only [argminOn, Option.some.injEq] at h
    subst h
    obtain ⟨h1, h2, h3⟩ := argminGo_spec f l a
    refine ⟨?_, ?_, argminGo_first f l a hs⟩
    · rcases h1 with h1 | h1
      · rw [h1]; simp
      · simp [h1]
    · intro j hj
      rcases List.mem_cons.1 hj with rfl | hj
      · exact h2
      · exact h3 j hj

theorem mem_winInds (n : ℕ) (nc wc i : ℤ) (outside : Bool) (hnc : 0 < nc)
    (h1 : -((n : ℤ) / 2) ≤ wc) (h2 : wc ≤ (n : ℤ) / 2 - ((n : ℤ) + 1) % 2) :
    i ∈ winInds n nc outside wc ↔
      0 ≤ i ∧ i < n ∧ (if outside then ¬ InWindow n nc wc i else InWindow n nc wc i) := by
  unfold winInds InWindow
  cases outside
  · simp only [Bool.false_eq_true, if_false, List.mem_filter, mem_arange]
    simp only [decide_eq_true_eq]
    omega
  · simp only [if_true, List.mem_map, List.mem_append, mem_arange]
    constructor
    · rintro ⟨j, hj, rfl⟩
      split_ifs <;> omega
    · rintro ⟨ha, hb, hc⟩
      by_cases h : i < (n : ℤ) / 2 - nc / 2 + wc
      · exact ⟨i, Or.inl ⟨ha, h⟩, by rw [if_neg (by omega)]⟩
      · refine ⟨i - n, Or.inr (by omega), by rw [if_pos (by omega)]; omega⟩

theorem winInds_sorted (n : ℕ) (nc wc : ℤ) (outside : Bool) (hnc : 0 < nc) :
    (winInds n nc outside wc).Pairwise (· < ·) := by
  unfold winInds
  cases outside
  · simp only [Bool.false_eq_true, if_false]
    exact (arange_sorted _ _).filter _
  · simp only [if_true, List.map_append]
    rw [List.pairwise_append]
    refine ⟨?_, ?_, ?_⟩
    · rw [List.pairwise_map]
      refine List.Pairwise.imp_of_mem ?_ (arange_sorted _ _)
      intro a b ha hb hab
      rw [mem_arange] at ha hb
      rw [if_neg (by omega), if_neg (by omega)]; exact hab
    · rw [List.pairwise_map]
      refine List.Pairwise.imp_of_mem ?_ (arange_sorted _ _)
      intro a b ha hb hab
      rw [mem_arange] at ha hb
      rw [if_pos (by omega), if_pos (by omega)]; omega
    · intro a ha b hb
      simp only [List.mem_map, mem_arange] at ha hb
      obtain ⟨a', ha, rfl⟩ := ha
      obtain ⟨b', hb, rfl⟩ := hb
      rw [if_neg (by omega), if_pos (by omega)]; omega

/-- The search always runs over an increasing list of exactly the admissible bins. -/
theorem argminChi2_search (n : ℕ) (chi2 : ℤ → ℝ) (nconstrain : Option ℤ) (outside : Bool)
    (mask : Option (ℤ → Bool)) (wc : ℤ) (r : Option ℤ)
    (h : argminChi2 n chi2 nconstrain outside mask wc = .ok r) :
    ∃ l : List ℤ, r = argminOn chi2 l ∧ l.Pairwise (· < ·) ∧
      ∀ i, i ∈ l ↔ Admissible n nconstrain outside mask wc i := by
  unfold argminChi2 at h
  split_ifs at h with hwc
  cases nconstrain with
  | none =>
    cases mask with
    | none =>
      simp only [Except.ok.injEq] at h
      refine ⟨_, h.symm, arange_sorted _ _, fun i => ?_⟩
      simp [mem_arange, Admissible]
    | some m =>
      simp only [Except.ok.injEq] at h
      refine ⟨_, h.symm, (arange_sorted _ _).filter _, fun i => ?_⟩
      simp [mem_arange, Admissible, and_assoc]
  | some k =>
    simp only at h
    split_ifs at h with hk hk2
    · -- capped
      simp only [Except.ok.injEq] at h
      have hn : 0 < (n : ℤ) := by omega
      have hmem := fun i => mem_winInds n n wc i outside hn hwc.1 hwc.2
      have hsort := winInds_sorted n n wc outside hn
      have hmin : min k (n : ℤ) = n := by omega
      cases mask with
      | none =>
        refine ⟨_, h.symm, hsort, fun i => ?_⟩
        simp [hmem, Admissible, hmin]
      | some m =>
        refine ⟨_, h.symm, hsort.filter _, fun i => ?_⟩
        simp [hmem, Admissible, hmin, and_assoc]
    · simp only [Except.ok.injEq] at h
      have hk0 : 0 < k := by omega
      have hmem := fun i => mem_winInds n k wc i outside hk0 hwc.1 hwc.2
      have hsort := winInds_sorted n k wc outside hk0
      have hmin : min k (n : ℤ) = k := by omega
      cases mask with
      | none =>
        refine ⟨_, h.symm, hsort, fun i => ?_⟩
        simp [hmem, Admissible, hmin]
      | some m =>
        refine ⟨_, h.symm, hsort.filter _, fun i => ?_⟩
        simp [hmem, Admissible, hmin, and_assoc]

/-- Without a mask the bins searched are the admissible ones. -/
theorem mem_searched (n : ℕ) (chi2 : ℤ → ℝ) (nconstrain : Option ℤ) (outside : Bool) (wc : ℤ) (r : Option ℤ)
    (h : argminChi2 n chi2 nconstrain outside none wc = .ok r) (i : ℤ) :
    i ∈ searchedBins n nconstrain outside wc ↔ Admissible n nconstrain outside none wc i := by
  unfold argminChi2 at h
  split_ifs at h with hwc
  cases nconstrain with
  | none => simp [searchedBins, mem_arange, Admissible]
  | some k =>
    simp only at h
    split_ifs at h with hk hk2
    · have hn : 0 < (n : ℤ) := by omega
      have hmin : min k (n : ℤ) = n := by omega
      simp [searchedBins, hk2, mem_winInds n n wc i outside hn hwc.1 hwc.2, Admissible, hmin]
    · have hk0 : 0 < k := by omega
      have hmin : min k (n : ℤ) = k := by omega
      simp [searchedBins, hk2, mem_winInds n k wc i outside hk0 hwc.1 hwc.2, Admissible, hmin]

end Verif.OF
