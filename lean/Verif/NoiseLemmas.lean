import Verif.Noise
import Verif.DftLemmas
import Verif.UtilsProps
import Mathlib.Algebra.BigOperators.Intervals
import Mathlib.Algebra.BigOperators.Fin

/-! Helper lemmas for the noise tools. -/

namespace Verif.Noise
open Verif Verif.Dft

variable {n : ℕ} [NeZero n] {m c : ℕ}

omit [NeZero n] in
theorem fold_stop : n / 2 + 1 - (n + 1) % 2 = n / 2 + n % 2 := by omega

/-- A sum over all bins as a sum over `0 .. n-1`. -/
theorem sum_zmod (p : ZMod n → ℝ) : ∑ k, p k = ∑ k ∈ Finset.range n, p (k : ZMod n) := by
  rw [Finset.sum_range]
  refine (Fintype.sum_bijective (fun i : Fin n => ((i : ℕ) : ZMod n)) ?_ _ _ fun i => rfl).symm
  constructor
  · intro a b h
    have h' : ((a : ℕ) : ZMod n) = ((b : ℕ) : ZMod n) := h
    rw [ZMod.natCast_eq_natCast_iff'] at h'
    rw [Nat.mod_eq_of_lt a.2, Nat.mod_eq_of_lt b.2] at h'
    exact Fin.ext h'
  · intro k
    exact ⟨⟨k.val, ZMod.val_lt k⟩, ZMod.natCast_zmod_val k⟩

/-- Sum of a symmetric two-sided array. -/
theorem sum_fold (p : ZMod n → ℝ) (hs : ∀ k, p (-k) = p k) :
    ∑ k : Half n, foldpsd p k = ∑ k, p k := by
  rw [sum_zmod]
  unfold foldpsd mulSlice Half.bin
  rw [Finset.sum_fin_eq_sum_range]
  have e1 : ∑ i ∈ Finset.range (n / 2 + 1), (if h : i < n / 2 + 1 then
      (if 1 ≤ ((⟨i, h⟩ : Half n) : ℕ) ∧ ((⟨i, h⟩ : Half n) : ℕ) < n / 2 + n % 2 then
        p ((((⟨i, h⟩ : Half n) : ℕ)) : ZMod n) * 2 else p ((((⟨i, h⟩ : Half n) : ℕ)) : ZMod n)) else 0) =
      ∑ i ∈ Finset.range (n / 2 + 1), (p (i : ZMod n) +
        if 1 ≤ i ∧ i < n / 2 + n % 2 then p (i : ZMod n) else 0) := by
    refine Finset.sum_congr rfl fun i hi => ?_
    rw [Finset.mem_range] at hi
    rw [dif_pos hi]
    simp only
    split_ifs <;> ring
  rw [e1, Finset.sum_add_distrib, ← Finset.sum_filter]
  have e2 : Finset.filter (fun i => 1 ≤ i ∧ i < n / 2 + n % 2) (Finset.range (n / 2 + 1)) =
      Finset.Ico 1 (n / 2 + n % 2) := by
    ext i
    simp only [Finset.mem_filter, Finset.mem_range, Finset.mem_Ico]
    omega
  rw [e2, ← Finset.sum_range_add_sum_Ico _ (show n / 2 + 1 ≤ n by have := NeZero.pos n; omega)]
  congr 1
  have h := Finset.sum_Ico_reflect (fun i => p (i : ZMod n)) (m := n / 2 + n % 2) (n := n) 1 (by omega)
  rw [show n + 1 - (n / 2 + n % 2) = n / 2 + 1 by omega, show n + 1 - 1 = n by omega] at h
  rw [← h]
  refine Finset.sum_congr rfl fun i hi => ?_
  rw [Finset.mem_Ico] at hi
  have hle : i ≤ n := by omega
  rw [Nat.cast_sub hle, ZMod.natCast_self, zero_sub, hs]

/-! ### `smooth_psd` -/

theorem fInds_iff (n k : ℕ) (hk : k < n) : fInds n k = true ↔ k ≤ n / 2 := by
  unfold fInds
  simp only [Bool.or_eq_true, decide_eq_true_eq, Bool.and_eq_true, beq_iff_eq]
  omega

theorem filter_le_length (k h : ℕ) : ((List.range k).filter fun j => decide (j ≤ h)).length =
    min k (h + 1) := by
  induction k with
  | zero => simp
  | succ k ih =>
    rw [List.range_succ, List.filter_append, List.length_append, ih]
    by_cases hk : k ≤ h
    · rw [List.filter_cons_of_pos (by simpa using hk)]; simp; omega
    · rw [List.filter_cons_of_neg (by simpa using hk)]; simp; omega

theorem filter_gt_length (k h : ℕ) : ((List.range k).filter fun j => decide (¬ j ≤ h)).length =
    k - (h + 1) := by
  induction k with
  | zero => simp
  | succ k ih =>
    rw [List.range_succ, List.filter_append, List.length_append, ih]
    by_cases hk : k ≤ h
    · rw [List.filter_cons_of_neg (by simpa using hk)]; simp; omega
    · rw [List.filter_cons_of_pos (by simpa using hk)]; simp; omega

/-- The selected half of the array. -/
theorem sel_eq (psd : List ℝ) :
    (psd.zipIdx.filter fun p => fInds psd.length p.2).map Prod.fst = psd.take (psd.length / 2 + 1) := by
  have h1 : psd.zipIdx.filter (fun p => fInds psd.length p.2) =
      psd.zipIdx.filter (fun p => decide (p.2 < psd.length / 2 + 1)) := by
    apply List.filter_congr
    intro p hp
    have hlt : p.2 < psd.length := by
      have := List.mem_zipIdx hp
      omega
    rw [Bool.eq_iff_iff, fInds_iff _ _ hlt]
    simp
  rw [h1]
  generalize psd.length / 2 + 1 = h
  have : ∀ (l : List ℝ) (s h : ℕ), ((l.zipIdx s).filter (fun p => decide (p.2 < s + h))).map Prod.fst
      = l.take h := by
    intro l
    induction l with
    | nil => simp
    | cons a l ih =>
      intro s h
      cases h with
      | zero =>
        simp only [List.take_zero, List.map_eq_nil_iff, List.filter_eq_nil_iff]
        intro p hp
        have := List.mem_zipIdx hp
        simp; omega
      | succ h =>
        rw [List.zipIdx_cons, List.filter_cons_of_pos (by simp), List.map_cons, List.take_succ_cons]
        congr 1
        rw [← ih (s + 1) h]
        congr 2
        funext p
        congr 2
        omega
  simpa using this psd 0 h

/-- The points handed to `make_decreasing`. -/
noncomputable def halfPts (psd : List ℝ) : List (ℝ × ℝ) :=
  (psd.take (psd.length / 2 + 1)).zipIdx.map fun p => ((p.2 : ℝ), p.1)

theorem halfPts_length (psd : List ℝ) (h : psd ≠ []) : (halfPts psd).length = psd.length / 2 + 1 := by
  have := List.length_pos_iff.2 h
  simp [halfPts]; omega

theorem incX_zipIdx (l : List ℝ) (s : ℕ) :
    Utils.IncX ((l.zipIdx s).map fun p => ((p.2 : ℝ), p.1)) := by
  induction l generalizing s with
  | nil => simp [Utils.IncX]
  | cons a l ih =>
    unfold Utils.IncX at *
    rw [List.zipIdx_cons, List.map_cons, List.pairwise_cons]
    refine ⟨?_, ih (s + 1)⟩
    intro q hq
    rw [List.mem_map] at hq
    obtain ⟨p, hp, rfl⟩ := hq
    have := List.mem_zipIdx hp
    simp only
    exact_mod_cast (by omega : s < p.2)

/-- Every bin of the smoothed PSD is the smoothed value at its absolute frequency. -/
theorem smoothPsd_get (psd : List ℝ) (k : ℕ) (hk : k < psd.length) :
    (smoothPsd psd)[k]? = some ((Utils.makeDecreasing (halfPts psd))[min k (psd.length - k)]?).join := by
  have hne : psd ≠ [] := List.ne_nil_of_length_pos (by omega)
  unfold smoothPsd
  simp only [sel_eq]
  set out := Utils.makeDecreasing (halfPts psd) with hout
  have hl : out.length = psd.length / 2 + 1 := by
    rw [hout]; simp [Utils.makeDecreasing, halfPts_length psd hne]
  rw [List.getElem?_map, List.getElem?_range hk]
  simp only [Option.map_some, Option.some.injEq]
  have hf : ∀ j ∈ List.range k, fInds psd.length j = decide (j ≤ psd.length / 2) := by
    intro j hj
    rw [Bool.eq_iff_iff, fInds_iff _ _ (by simp at hj; omega)]
    simp
  change (if fInds psd.length k then _ else _) = _
  rw [show Utils.makeDecreasing ((psd.take (psd.length / 2 + 1)).zipIdx.map
    fun p => ((p.2 : ℝ), p.1)) = out from rfl]
  by_cases h : k ≤ psd.length / 2
  · rw [if_pos ((fInds_iff _ _ hk).2 h), List.filter_congr hf, filter_le_length]
    congr 2
    omega
  · rw [if_neg (by rw [fInds_iff _ _ hk]; exact h),
      List.filter_congr (q := fun j => decide (¬ j ≤ psd.length / 2))
        (by intro j hj; rw [hf j hj]; simp), filter_gt_length]
    rw [show min k (psd.length - k) = psd.length - k by omega]
    split_ifs with he
    · rw [List.getElem?_dropLast, List.length_drop, List.length_reverse, hl, if_pos (by omega),
        List.getElem?_drop, List.getElem?_reverse (by rw [hl]; omega), hl]
      congr 2; omega
    · rw [List.getElem?_dropLast, List.length_reverse, hl, if_pos (by omega),
        List.getElem?_reverse (by rw [hl]; omega), hl]
      congr 2; omega

end Verif.Noise
