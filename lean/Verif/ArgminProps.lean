import Verif.ArgminLemmas
import Mathlib.Tactic.Linarith
import Mathlib.Tactic.NormNum

/-!
Properties C25-C27 of the delay search.
-/

namespace Verif.OF

/-! ## C25: the window -/

/-- The search raises `ValueError` exactly when the requested centre is not a bin of the trace or
the window is not positive. -/
theorem argmin_error_iff (n : ℕ) (chi2 : ℤ → ℝ) (nconstrain : Option ℤ) (outside : Bool)
    (mask : Option (ℤ → Bool)) (wc : ℤ) :
    argminChi2 n chi2 nconstrain outside mask wc = .error .valueError ↔
      ¬ (0 ≤ (n : ℤ) / 2 + wc ∧ (n : ℤ) / 2 + wc < n) ∨ ∃ k, nconstrain = some k ∧ k ≤ 0 := by
  unfold argminChi2
  split_ifs with hwc
  · cases nconstrain with
    | none =>
      cases mask <;> simp <;> omega
    | some k =>
      simp only
      split_ifs with hk
      · simp only [true_iff]; right; exact ⟨k, rfl, hk.1⟩
      all_goals simp; constructor <;> omega
  · simp only [true_iff]; left; omega

/-- ... and raises nothing else. -/
theorem argmin_only_valueError (n : ℕ) (chi2 : ℤ → ℝ) (nconstrain : Option ℤ) (outside : Bool)
    (mask : Option (ℤ → Bool)) (wc : ℤ) (e : Err)
    (h : argminChi2 n chi2 nconstrain outside mask wc = .error e) : e = .valueError := by
  unfold argminChi2 at h
  split_ifs at h with hwc
  · cases nconstrain with
    | none => cases mask <;> simp at h
    | some k =>
      simp only at h
      split_ifs at h
      · simpa using h.symm
  · simpa using h.symm

/-- A window of `k` bins that fits in the trace contains exactly `k` bins. -/
theorem window_card (n : ℕ) (k wc : ℤ) (hk : 0 < k) (h1 : 0 ≤ (n : ℤ) / 2 + wc - k / 2)
    (h2 : (n : ℤ) / 2 + wc + k / 2 + k % 2 ≤ n) :
    ((winInds n k false wc).length : ℤ) = k := by
  unfold winInds
  simp only [Bool.false_eq_true, if_false]
  rw [List.filter_eq_self.2]
  · simp only [arange, List.length_map, List.length_range]
    omega
  · intro i hi
    rw [mem_arange] at hi
    simp only [decide_eq_true_eq]
    omega

/-- Inside and outside windows partition the trace. -/
theorem window_partition (n : ℕ) (k wc i : ℤ) (mask) (hi : 0 ≤ i) (hn : i < n)
    (hm : ∀ m, mask = some m → m i = true) :
    Admissible n (some k) true mask wc i ↔ ¬ Admissible n (some k) false mask wc i := by
  unfold Admissible
  simp only [Option.some.injEq, forall_eq', hi, hn, true_and, if_true, Bool.false_eq_true, if_false]
  constructor
  · rintro ⟨h, _⟩ ⟨h', _⟩; exact h h'
  · intro h; exact ⟨fun h' => h ⟨h', hm⟩, hm⟩

/-- A window at least as long as the trace, centred, imposes nothing. -/
theorem window_full (n : ℕ) (k i : ℤ) (mask) (hk : n ≤ k) :
    Admissible n (some k) false mask 0 i ↔ Admissible n none false mask 0 i := by
  unfold Admissible InWindow
  simp only [Option.some.injEq, forall_eq', Bool.false_eq_true, if_false]
  have : min k (n : ℤ) = n := by omega
  rw [this]
  constructor
  · rintro ⟨a, b, _, d⟩; exact ⟨a, b, by simp, d⟩
  · rintro ⟨a, b, _, d⟩; exact ⟨a, b, by omega, d⟩

example : winInds 8 3 false 1 = [4, 5, 6] := by decide
example : winInds 7 4 true (-1) = [4, 5, 6] := by decide
example : winInds 7 3 true (-1) = [0, 4, 5, 6] := by decide

/-! ## C26: first minimiser -/

/-- `nan` is returned exactly when no bin is admissible. -/
theorem argmin_none_iff (n : ℕ) (chi2 : ℤ → ℝ) (nconstrain : Option ℤ) (outside : Bool)
    (mask : Option (ℤ → Bool)) (wc : ℤ) (r : Option ℤ)
    (h : argminChi2 n chi2 nconstrain outside mask wc = .ok r) :
    r = none ↔ ∀ i, ¬ Admissible n nconstrain outside mask wc i := by
  obtain ⟨l, hr, _, hmem⟩ := argminChi2_search n chi2 nconstrain outside mask wc r h
  rw [hr, argminOn_none, List.eq_nil_iff_forall_not_mem]
  simp only [hmem]

/-- A returned index is admissible, attains the minimum of `chi2` over the admissible bins, and is
the earliest admissible bin to do so. -/
theorem argmin_ok_admissible (n : ℕ) (chi2 : ℤ → ℝ) (nconstrain : Option ℤ) (outside : Bool)
    (mask : Option (ℤ → Bool)) (wc i : ℤ)
    (h : argminChi2 n chi2 nconstrain outside mask wc = .ok (some i)) :
    Admissible n nconstrain outside mask wc i ∧
      (∀ j, Admissible n nconstrain outside mask wc j → chi2 i ≤ chi2 j) ∧
      (∀ j, Admissible n nconstrain outside mask wc j → j < i → chi2 i < chi2 j) := by
  obtain ⟨l, hr, hs, hmem⟩ := argminChi2_search n chi2 nconstrain outside mask wc _ h
  obtain ⟨h1, h2, h3⟩ := argminOn_spec chi2 l hs i hr.symm
  exact ⟨(hmem i).1 h1, fun j hj => h2 j ((hmem j).2 hj), fun j hj => h3 j ((hmem j).2 hj)⟩

/-- Conversely the search is complete: legal arguments always give a result. -/
theorem argmin_total (n : ℕ) (chi2 : ℤ → ℝ) (nconstrain : Option ℤ) (outside : Bool)
    (mask : Option (ℤ → Bool)) (wc : ℤ) (hwc : 0 ≤ (n : ℤ) / 2 + wc ∧ (n : ℤ) / 2 + wc < n)
    (hk : ∀ k, nconstrain = some k → 0 < k) :
    ∃ r, argminChi2 n chi2 nconstrain outside mask wc = .ok r := by
  cases h : argminChi2 n chi2 nconstrain outside mask wc with
  | ok r => exact ⟨r, rfl⟩
  | error e =>
    have he := argmin_only_valueError _ _ _ _ _ _ _ h
    rw [he, argmin_error_iff] at h
    rcases h with h | ⟨k, hk1, hk2⟩
    · exact absurd hwc h
    · have := hk k hk1; omega

/-- Ties go to the earlier bin, and the constraint mask can change the answer. -/
example : argminChi2 4 (fun i => if i = 1 ∨ i = 3 then 0 else 1) none false none 0 = .ok (some 1) := by
  have : arange 0 ((4 : ℕ) : ℤ) = [0, 1, 2, 3] := by decide
  simp only [argminChi2, this]
  simp [argminOn, argminGo]
example : argminChi2 4 (fun i => if i = 1 ∨ i = 3 then 0 else 1) none false
    (some fun i => decide (i ≠ 1)) 0 = .ok (some 3) := by
  have : (arange 0 (4 : ℕ)).filter (fun i => decide (i ≠ 1)) = [0, 2, 3] := by decide
  simp only [argminChi2, this]
  simp [argminOn, argminGo]

/-! ## C27: pulse direction -/

/-- Only -1, 0 and 1 are accepted. -/
theorem direction_error_iff (amps : ℤ → ℝ) (dir : ℤ) :
    directionMask amps dir = .error .valueError ↔ dir ≠ -1 ∧ dir ≠ 0 ∧ dir ≠ 1 := by
  unfold directionMask
  split_ifs with h h0
  · simp; tauto
  · simp; tauto
  · simp; tauto

/-- `0` imposes nothing; `±1` admits exactly the bins whose amplitude has that strict sign. -/
theorem direction_admissible (n : ℕ) (nconstrain outside) (amps : ℤ → ℝ) (dir : ℤ) (mask) (wc i : ℤ)
    (h : directionMask amps dir = .ok mask) :
    Admissible n nconstrain outside mask wc i ↔
      Admissible n nconstrain outside none wc i ∧ (dir = 1 → 0 < amps i) ∧ (dir = -1 → amps i < 0) := by
  unfold directionMask at h
  split_ifs at h with h1 h0
  · simp only [Except.ok.injEq] at h
    subst h0 h
    simp
  · simp only [Except.ok.injEq] at h
    subst h
    unfold Admissible
    simp only [Option.some.injEq, forall_eq', gt_iff_lt, decide_eq_true_eq, reduceCtorEq,
      false_implies, implies_true, and_true]
    have hd : dir = -1 ∨ dir = 1 := by omega
    rcases hd with rfl | rfl
    · simp only [Int.cast_neg, Int.cast_one, neg_mul, one_mul]
      constructor
      · rintro ⟨a, b, c, d⟩; exact ⟨⟨a, b, c⟩, by omega, fun _ => by linarith⟩
      · rintro ⟨⟨a, b, c⟩, _, d⟩; exact ⟨a, b, c, by linarith [d trivial]⟩
    · simp only [Int.cast_one, one_mul]
      constructor
      · rintro ⟨a, b, c, d⟩; exact ⟨⟨a, b, c⟩, fun _ => d, by omega⟩
      · rintro ⟨⟨a, b, c⟩, d, _⟩; exact ⟨a, b, c, d trivial⟩

end Verif.OF
