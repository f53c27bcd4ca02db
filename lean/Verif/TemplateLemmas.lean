import Verif.Template
import Verif.TemplateSpec
import Verif.UtilsLemmas
import Mathlib.Algebra.Order.BigOperators.Group.Finset
import Mathlib.Data.Int.Interval
import Mathlib.Tactic.Linarith
import Mathlib.Tactic.FieldSimp
import Mathlib.Tactic.NormNum
import Mathlib.Tactic.Positivity

/-! Helper lemmas for `make_template` and `align_traces`. -/

namespace Verif.Template
open Verif

theorem pulse_nonneg {τr τf t : ℝ} (hr : 0 < τr) (h : τr ≤ τf) (ht : 0 ≤ t) : 0 ≤ pulse τr τf t := by
  unfold pulse
  rw [sub_nonneg, Real.exp_le_exp, neg_div, neg_div, neg_le_neg_iff]
  exact div_le_div_of_nonneg_left ht hr h

theorem pulse_pos {τr τf t : ℝ} (hr : 0 < τr) (h : τr < τf) (ht : 0 < t) : 0 < pulse τr τf t := by
  unfold pulse
  rw [sub_pos, Real.exp_lt_exp, neg_div, neg_div, neg_lt_neg_iff]
  exact div_lt_div_of_pos_left ht hr h

theorem pulse_swap (τr τf t : ℝ) : pulse τr τf t = -pulse τf τr t := by
  unfold pulse; ring

/-- An integer shift, entry by entry. -/
theorem shift_entry (l : List ℝ) (k : ℤ) (fill : ℝ) {i : ℕ} (hi : i < l.length) :
    (Utils.shift l k fill)[i]? = if 0 ≤ (i : ℤ) - k ∧ (i : ℤ) - k < l.length then
      l[((i : ℤ) - k).toNat]? else some fill := by
  unfold Utils.shift
  simp only [Int.floor_intCast, if_true]
  exact Utils.shiftInt_getElem? _ _ _ _ hi

theorem shift_len (l : List ℝ) (k : ℤ) (fill : ℝ) : (Utils.shift l k fill).length = l.length := by
  unfold Utils.shift
  simp [Utils.shiftInt_length]

/-- Members of a shifted list. -/
theorem mem_shift {l : List ℝ} {k : ℤ} {fill x : ℝ} (h : x ∈ Utils.shift l k fill) :
    x = fill ∨ x ∈ l := by
  obtain ⟨i, hi, rfl⟩ := List.getElem_of_mem h
  have hl := shift_len l k fill
  have := shift_entry l k fill (i := i) (by omega)
  rw [List.getElem?_eq_getElem hi] at this
  split_ifs at this with hc
  · right
    rw [List.getElem?_eq_getElem (by omega), Option.some_inj] at this
    rw [this]
    exact List.getElem_mem _
  · left
    exact Option.some_inj.1 this

theorem max?_spec {l : List ℝ} {m : ℝ} (h : l.max? = some m) : m ∈ l ∧ ∀ x ∈ l, x ≤ m :=
  List.max?_eq_some_iff.1 h

theorem max?_defined {l : List ℝ} (h : l ≠ []) : ∃ m, l.max? = some m := by
  cases l with
  | nil => exact absurd rfl h
  | cons a t => exact ⟨_, rfl⟩

/-! ### Correlations -/

theorem ext_nat (l : List ℝ) (j : ℕ) : ext l j = l.getD j 0 := by simp [ext]

theorem ext_zero {l : List ℝ} {j : ℤ} (h : j < 0 ∨ (l.length : ℤ) ≤ j) : ext l j = 0 := by
  unfold ext
  rcases h with h | h
  · rw [if_neg (by omega)]
  · rw [if_pos (by omega)]
    rw [List.getD_eq_getElem?_getD, List.getElem?_eq_none (by omega), Option.getD_none]

/-- The convolution is a correlation. -/
theorem corr_eq {t1 t2 : List ℝ} {n : ℕ} (h1 : t1.length = n) (h2 : t2.length = n) (k : ℕ) :
    corr t1 t2 k = ∑ j ∈ Finset.range n, ext t1 j * ext t2 (j + ((n : ℤ) - 1 - k)) := by
  unfold corr
  rw [h1, h2, Finset.sum_range]
  rw [← List.sum_ofFn]
  congr 1
  apply List.ext_getElem (by simp)
  intro j hj _
  simp only [List.length_map, List.length_range] at hj
  simp only [List.getElem_map, List.getElem_range, List.getElem_ofFn]
  split_ifs with hc
  · rw [ext_nat]
    congr 1
    unfold ext
    rw [if_pos (by omega)]
    congr 1
    omega
  · rw [ext_zero (l := t2) (by omega), mul_zero]

/-- The squares of a shifted stretch. -/
theorem sum_shift_le (f : ℤ → ℝ) (n : ℕ) (hf : ∀ j, j < 0 ∨ (n : ℤ) ≤ j → f j = 0) (e : ℤ) :
    ∑ j ∈ Finset.range n, f (j + e) ^ 2 ≤ ∑ j ∈ Finset.range n, f j ^ 2 := by
  have h1 : ∑ j ∈ Finset.range n, f (j + e) ^ 2 =
      ∑ i ∈ (Finset.range n).image (fun j : ℕ => (j : ℤ) + e), f i ^ 2 := by
    rw [Finset.sum_image]
    intro a _ b _ h
    simpa using h
  have h2 : ∑ j ∈ Finset.range n, f j ^ 2 =
      ∑ i ∈ (Finset.range n).image (fun j : ℕ => (j : ℤ)), f i ^ 2 := by
    rw [Finset.sum_image]
    intro a _ b _ h
    simpa using h
  rw [h1, h2]
  rw [← Finset.sum_filter_ne_zero]
  refine Finset.sum_le_sum_of_subset_of_nonneg ?_ fun _ _ _ => sq_nonneg _
  intro i hi
  have hne := (Finset.mem_filter.1 hi).2
  rw [Finset.mem_image]
  by_contra hc
  apply hne
  rw [hf i, zero_pow two_ne_zero]
  by_contra hi
  exact hc ⟨i.toNat, Finset.mem_range.2 (by omega), by omega⟩

/-- The correlation of a finite signal with itself is largest at lag zero, and only there. -/
theorem autocorr_lt (f : ℤ → ℝ) (n : ℕ) (hf : ∀ j, j < 0 ∨ (n : ℤ) ≤ j → f j = 0)
    (hne : ∃ j, f j ≠ 0) {e : ℤ} (he : e ≠ 0) :
    ∑ j ∈ Finset.range n, f j * f (j + e) < ∑ j ∈ Finset.range n, f j ^ 2 := by
  classical
  -- a sample where the signal and its shifted copy differ
  have hex : ∃ j : ℕ, j < n ∧ f j ≠ f (j + e) := by
    let S := (Finset.range n).filter fun j : ℕ => f j ≠ 0
    have hS : S.Nonempty := by
      obtain ⟨j, hj⟩ := hne
      have : ¬ (j < 0 ∨ (n : ℤ) ≤ j) := fun h => hj (hf j h)
      refine ⟨j.toNat, Finset.mem_filter.2 ⟨Finset.mem_range.2 (by omega), ?_⟩⟩
      rwa [Int.toNat_of_nonneg (by omega)]
    rcases lt_or_gt_of_ne he with hneg | hpos
    · refine ⟨S.min' hS, ?_, ?_⟩
      · exact Finset.mem_range.1 (Finset.mem_filter.1 (S.min'_mem hS)).1
      · have hm := (Finset.mem_filter.1 (S.min'_mem hS)).2
        have : f ((S.min' hS : ℕ) + e) = 0 := by
          by_contra hc
          have hr : ¬ (((S.min' hS : ℕ) : ℤ) + e < 0 ∨ (n : ℤ) ≤ (S.min' hS : ℕ) + e) :=
            fun h => hc (hf _ h)
          have hmem : ((((S.min' hS : ℕ) : ℤ) + e).toNat) ∈ S := by
            refine Finset.mem_filter.2 ⟨Finset.mem_range.2 (by omega), ?_⟩
            rwa [Int.toNat_of_nonneg (by omega)]
          have := S.min'_le _ hmem
          omega
        rw [this]; exact hm
    · refine ⟨S.max' hS, ?_, ?_⟩
      · exact Finset.mem_range.1 (Finset.mem_filter.1 (S.max'_mem hS)).1
      · have hm := (Finset.mem_filter.1 (S.max'_mem hS)).2
        have : f ((S.max' hS : ℕ) + e) = 0 := by
          by_contra hc
          have hr : ¬ (((S.max' hS : ℕ) : ℤ) + e < 0 ∨ (n : ℤ) ≤ (S.max' hS : ℕ) + e) :=
            fun h => hc (hf _ h)
          have hmem : ((((S.max' hS : ℕ) : ℤ) + e).toNat) ∈ S := by
            refine Finset.mem_filter.2 ⟨Finset.mem_range.2 (by omega), ?_⟩
            rwa [Int.toNat_of_nonneg (by omega)]
          have := S.le_max' _ hmem
          omega
        rw [this]; exact hm
  obtain ⟨j0, hj0, hd⟩ := hex
  have hpos : 0 < ∑ j ∈ Finset.range n, (f j - f (j + e)) ^ 2 := by
    refine Finset.sum_pos' (fun _ _ => sq_nonneg _) ⟨j0, Finset.mem_range.2 hj0, ?_⟩
    have : f j0 - f (j0 + e) ≠ 0 := sub_ne_zero.2 hd
    positivity
  have hexp : ∑ j ∈ Finset.range n, (f j - f (j + e)) ^ 2 = ∑ j ∈ Finset.range n, f j ^ 2 -
      2 * (∑ j ∈ Finset.range n, f j * f (j + e)) + ∑ j ∈ Finset.range n, f (j + e) ^ 2 := by
    rw [Finset.mul_sum, ← Finset.sum_sub_distrib, ← Finset.sum_add_distrib]
    exact Finset.sum_congr rfl fun _ _ => by ring
  have := sum_shift_le f n hf e
  linarith

/-- The first maximum found by `argmaxGo`. -/
theorem argmaxGo_max (l : List ℝ) : ∀ (best i : ℕ) (bv : ℝ) (g : ℕ → ℝ), g best = bv → best < i →
    (∀ j < i, g j ≤ bv) → (∀ j, (h : j < l.length) → g (i + j) = l[j]) →
    Utils.argmaxGo best bv i l < i + l.length ∧
      ∀ j < i + l.length, g j ≤ g (Utils.argmaxGo best bv i l) := by
  induction l with
  | nil =>
    intro best i bv g hb hi hj _
    simp only [Utils.argmaxGo, List.length_nil, add_zero]
    exact ⟨hi, fun j h => hb ▸ hj j h⟩
  | cons a t ih =>
    intro best i bv g hb hi hj hg
    have ha : g i = a := hg 0 (by simp)
    have hg' : ∀ j, (h : j < t.length) → g (i + 1 + j) = t[j] := by
      intro j h
      have := hg (j + 1) (by simpa using h)
      simpa [add_assoc, add_comm 1] using this
    unfold Utils.argmaxGo
    rw [List.length_cons]
    split_ifs with hlt
    · have := ih i (i + 1) a g ha (by omega) (by
        intro j h
        rcases Nat.lt_succ_iff_lt_or_eq.1 h with h | rfl
        · exact (hj j h).trans hlt.le
        · exact ha.le) hg'
      exact ⟨by omega, fun j h => this.2 j (by omega)⟩
    · have := ih best (i + 1) bv g hb (by omega) (by
        intro j h
        rcases Nat.lt_succ_iff_lt_or_eq.1 h with h | rfl
        · exact hj j h
        · rw [ha]; exact not_lt.1 hlt) hg'
      exact ⟨by omega, fun j h => this.2 j (by omega)⟩

/-- The peak of two non-empty signals. -/
theorem peak_max {a b : List ℝ} (h : 0 < a.length + b.length - 1) :
    ∃ p : ℕ, peak (some a) (some b) = p ∧ p < a.length + b.length - 1 ∧
      ∀ k < a.length + b.length - 1, corr a b k ≤ corr a b p := by
  unfold peak
  simp only
  obtain ⟨m, hm⟩ : ∃ m, a.length + b.length - 1 = m + 1 := ⟨a.length + b.length - 1 - 1, by omega⟩
  rw [hm, List.range_succ_eq_map, List.map_cons]
  simp only
  have := argmaxGo_max (List.map (corr a b) (List.map Nat.succ (List.range m))) 0 1 (corr a b 0)
    (corr a b) rfl one_pos (by intro j hj; rw [Nat.lt_one_iff.1 hj]) (by
      intro j hj
      simp [add_comm])
  simp only [List.length_map, List.length_range] at this
  exact ⟨_, rfl, by omega, fun k hk => this.2 k (by omega)⟩

/-- The peak is where a delayed copy says. -/
theorem peak_delayed {a b : List ℝ} {n : ℕ} (ha : a.length = n) (hb : b.length = n)
    (hne : ∃ j, ext a j ≠ 0) {d : ℤ} (hd : ∀ j, ext b j = ext a (j - d)) :
    peak (some a) (some b) = (n : ℤ) - 1 - d := by
  have hout : ∀ j, j < 0 ∨ (n : ℤ) ≤ j → ext a j = 0 := fun j hj => ext_zero (by omega)
  obtain ⟨j0, hj0⟩ := hne
  have hj0r : 0 ≤ j0 ∧ j0 < n := by
    by_contra hc
    exact hj0 (hout j0 (by omega))
  have hj1r : 0 ≤ j0 + d ∧ j0 + d < n := by
    by_contra hc
    have := hd (j0 + d)
    rw [ext_zero (by omega)] at this
    rw [add_sub_cancel_right] at this
    exact hj0 this.symm
  obtain ⟨p, hp, hlt, hmax⟩ := peak_max (a := a) (b := b) (by omega)
  rw [hp]
  by_contra hc
  have hc1 : corr a b ((n : ℤ) - 1 - d).toNat = ∑ j ∈ Finset.range n, ext a j ^ 2 := by
    rw [corr_eq ha hb]
    refine Finset.sum_congr rfl fun j _ => ?_
    rw [hd, sq]
    congr 2
    omega
  have hc2 : corr a b p < ∑ j ∈ Finset.range n, ext a j ^ 2 := by
    rw [corr_eq ha hb]
    have := autocorr_lt (ext a) n hout ⟨j0, hj0⟩ (e := (n : ℤ) - 1 - p - d) (by omega)
    refine lt_of_eq_of_lt (Finset.sum_congr rfl fun j _ => ?_) this
    rw [hd]
    congr 2
    omega
  have := hmax ((n : ℤ) - 1 - d).toNat (by omega)
  rw [hc1] at this
  linarith

/-- A conditioned trace is not zero: its largest value is one. -/
theorem condition_one {filt : ℝ → ℝ → List ℝ → List ℝ} {nCut : ℤ} {x a : List ℝ}
    (h : condition filt nCut x = some a) : 1 ∈ a ∧ a.length = (filt 5000 625000 (Np.sliceTo x nCut)).length := by
  unfold condition at h
  simp only at h
  split at h
  · cases h
  · split at h
    · cases h
    · rename_i m _ M hM
      split_ifs at h with h0
      cases h
      refine ⟨List.mem_map.2 ⟨M, (max?_spec hM).1, div_self h0⟩, by simp⟩

theorem ext_ne_of_mem {a : List ℝ} {x : ℝ} (hx : x ∈ a) (h0 : x ≠ 0) : ∃ j, ext a j ≠ 0 := by
  obtain ⟨i, hi, rfl⟩ := List.getElem_of_mem hx
  refine ⟨i, ?_⟩
  rw [ext_nat]
  simpa [List.getD_eq_getElem?_getD, List.getElem?_eq_getElem hi] using h0

/-- Conditioning of a whole trace of mean zero by an ideal filter. -/
theorem condition_whole {x : List ℝ} {n : ℤ} {M : ℝ} (hn : n = x.length) (hx : x ≠ [])
    (hs : x.sum = 0) (hM : M ∈ x) (hmax : ∀ y ∈ x, y ≤ M) (h0 : M ≠ 0) :
    condition (fun _ _ l => l) n x = some (x.map fun y => y / M) := by
  have h1 : Np.sliceTo x n = x := by
    subst hn
    simp [Np.sliceTo, Np.clipIdx]
  have h2 : (x.map fun y => y - 0) = x := by simp
  have h3 : x.max? = some M := List.max?_eq_some_iff.2 ⟨hM, hmax⟩
  unfold condition
  simp only [h1, Np.mean, if_neg hx, hs, zero_div, h2, h3]
  rw [if_neg h0]

end Verif.Template
