import Verif.NsmbTtl
import Verif.ArgminLemmas
import Verif.IbisLemmas

/-! Lemmas about the TTL templates. -/

namespace Verif.Nsmb

open Verif Verif.Dft

variable {n : ℕ} [NeZero n]

theorem rint_near (x : ℝ) : |(rint x : ℝ) - x| ≤ 1 / 2 := by
  have h1 := Int.floor_le x
  have h2 := Int.lt_floor_add_one x
  unfold rint
  rw [abs_le]
  split_ifs <;> push_cast <;> constructor <;> linarith

theorem ttlShift_zero (bins : ℝ) : ttlShift bins 0 = 0 := by
  unfold ttlShift rint
  simp

theorem ttlShift_pos {bins : ℝ} (hb : 1 ≤ bins) {k : ℕ} (hk : k ≠ 0) : 0 < ttlShift bins k := by
  have h := abs_le.1 (rint_near (bins * k))
  have hk1 : (1 : ℝ) ≤ k := by exact_mod_cast Nat.one_le_iff_ne_zero.2 hk
  have : (1 : ℝ) ≤ bins * k := by nlinarith
  have h2 : (0 : ℝ) < (ttlShift bins k : ℝ) := by unfold ttlShift; linarith [h.1]
  exact_mod_cast h2

theorem ttlShift_tiny {bins : ℝ} (h0 : 0 < bins) (hb : bins ≤ 1 / 2) : ttlShift bins 1 = 0 := by
  unfold ttlShift rint
  have hf : ⌊bins * ((1 : ℕ) : ℝ)⌋ = 0 := by
    rw [Nat.cast_one, mul_one, Int.floor_eq_zero_iff]
    exact ⟨h0.le, by linarith⟩
  rw [hf]
  split_ifs with h1 h2
  · rfl
  · exfalso
    simp only [Nat.cast_one, mul_one, Int.cast_zero, sub_zero] at h2
    linarith
  · rfl
  · rename_i h3; exact absurd (by norm_num) h3

omit [NeZero n] in
theorem ttlCol_ok {first : ZMod n → ℝ} {bins : ℝ} {k : ℕ} {c : ZMod n → ℝ}
    (h : ttlCol first bins k = .ok c) : c = fun τ => if (τ.val : ℤ) < ttlShift bins k then 0
      else first (τ - (ttlShift bins k : ZMod n)) := by
  unfold ttlCol at h
  by_cases hk : k = 0
  · rw [if_pos hk] at h
    cases h
    subst hk
    funext τ
    rw [ttlShift_zero, if_neg (by omega)]
    simp
  · rw [if_neg hk] at h
    simp only at h
    split_ifs at h
    cases h
    rfl

omit [NeZero n] in
theorem ttlCol_defined (first : ZMod n → ℝ) {bins : ℝ} (hb : 1 ≤ bins) (k : ℕ) :
    ∃ c, ttlCol first bins k = .ok c := by
  unfold ttlCol
  by_cases hk : k = 0
  · rw [if_pos hk]; exact ⟨_, rfl⟩
  · rw [if_neg hk]
    simp only
    rw [if_neg (not_le.2 (ttlShift_pos hb hk))]
    exact ⟨_, rfl⟩

theorem mem_ttlRestrict {m : ℕ} {bins : ℝ} {N : ℕ} {notch j : ℤ} :
    j ∈ ttlRestrict m bins N notch ↔ ∃ k < N, ∃ i, ttlShift bins k - notch ≤ i ∧
      i ≤ ttlShift bins k + notch ∧ j = if i < 0 then m + i else i := by
  unfold ttlRestrict
  simp only [List.mem_map, List.mem_flatMap, List.mem_range, OF.mem_arange]
  constructor
  · rintro ⟨i, ⟨k, hk, h1, h2⟩, rfl⟩
    exact ⟨k, hk, i, h1, by omega, rfl⟩
  · rintro ⟨k, hk, i, h1, h2, rfl⟩
    exact ⟨i, ⟨k, hk, h1, by omega⟩, rfl⟩

/-- Deleting indices modulo the length. -/
theorem npDelete_ok {r w : List ℤ} (h : npDelete n r = .ok w) :
    w.Pairwise (· < ·) ∧ ∀ i, i ∈ w ↔ 0 ≤ i ∧ i < n ∧ ¬ ∃ j ∈ r, (j : ZMod n) = (i : ZMod n) := by
  unfold npDelete at h
  split_ifs at h with hr
  cases h
  refine ⟨(OF.arange_sorted 0 n).filter _, fun i => ?_⟩
  rw [List.mem_filter, OF.mem_arange]
  have key : ∀ j ∈ r, 0 ≤ i → i < n →
      ((if j < 0 then j + n else j) = i ↔ (j : ZMod n) = (i : ZMod n)) := by
    intro j hj h0 h1
    have hb : -(n : ℤ) ≤ j ∧ j < n := by
      by_contra hc
      exact hr ⟨j, hj, hc⟩
    rw [ZMod.intCast_eq_intCast_iff_dvd_sub]
    constructor
    · intro he
      split_ifs at he
      · exact ⟨1, by omega⟩
      · exact ⟨0, by omega⟩
    · rintro ⟨q, hq⟩
      have hn : (0 : ℤ) < n := by exact_mod_cast Nat.pos_of_ne_zero (NeZero.ne n)
      have q1 : q < 2 := by nlinarith
      have q0 : -1 < q := by nlinarith
      obtain rfl | rfl : q = 0 ∨ q = 1 := by omega
      · rw [if_neg (by omega)]; omega
      · rw [if_pos (by omega)]; omega
  constructor
  · rintro ⟨⟨h0, h1⟩, h2⟩
    refine ⟨h0, h1, ?_⟩
    rintro ⟨j, hj, he⟩
    simp only [decide_not, Bool.not_eq_true', decide_eq_false_iff_not] at h2
    exact h2 ⟨j, hj, (key j hj h0 h1).2 he⟩
  · rintro ⟨h0, h1, h2⟩
    refine ⟨⟨h0, h1⟩, ?_⟩
    simp only [decide_not, Bool.not_eq_true', decide_eq_false_iff_not]
    rintro ⟨j, hj, he⟩
    exact h2 ⟨j, hj, (key j hj h0 h1).1 he⟩

theorem trunc_near (x : ℝ) : |(OF.trunc x : ℝ) - x| < 1 := by
  unfold OF.trunc
  have h1 := Int.floor_le x
  have h2 := Int.lt_floor_add_one x
  have h3 := Int.le_ceil x
  have h4 := Int.ceil_lt_add_one x
  rw [abs_lt]
  split_ifs <;> constructor <;> linarith

omit [NeZero n] in
/-- The number of pulses in the trace. -/
theorem ttl_count {fs rate : ℝ} (hfs : 0 < fs) (hr : 0 < rate) :
    OF.trunc ((n : ℝ) / fs / (1 / rate)) = (⌊(n : ℝ) * rate / fs⌋₊ : ℤ) := by
  have e : (n : ℝ) / fs / (1 / rate) = (n : ℝ) * rate / fs := by field_simp
  rw [e]
  have h0 : 0 ≤ (n : ℝ) * rate / fs := by positivity
  unfold OF.trunc
  rw [if_neg (not_lt.2 h0), Int.natCast_floor_eq_floor h0]

omit [NeZero n] in
/-- The parts of a successful call. -/
theorem makeTtl_ok {T : ZMod n → ℝ} {fs rate : ℝ} {con pos : Bool} {notch : ℤ} {r : Ttl n}
    (hfs : 0 < fs) (hr : 0 < rate) (h : makeTtl T fs rate con pos notch = .ok r) :
    ∃ cols, (List.range ⌊(n : ℝ) * rate / fs⌋₊).mapM (ttlCol (roll T
        ((OF.trunc (-((⌊(n : ℝ) * rate / fs⌋₊ : ℤ) : ℝ) / 2 * (1 / rate * fs)) : ℤ) : ZMod n))
        (1 / rate * fs)) = .ok cols ∧
      r.cols = cols ++ [slopeTemplate, fun _ => 1] ∧
      r.shifts = (List.range ⌊(n : ℝ) * rate / fs⌋₊).map (ttlShift (1 / rate * fs)) ++ [0, 0] ∧
      r.polarity = List.replicate ⌊(n : ℝ) * rate / fs⌋₊
        (if con then (if pos then 1 else -1) else 0) ++ [0, 0] ∧
      npDelete n (ttlRestrict n (1 / rate * fs) ⌊(n : ℝ) * rate / fs⌋₊ notch) = .ok r.window := by
  unfold makeTtl at h
  rw [if_neg (not_or.2 ⟨hr.ne', hfs.ne'⟩)] at h
  simp only [ttl_count hfs hr, Int.toNat_natCast] at h
  rw [if_neg (by omega), if_neg (by omega)] at h
  cases hc : (List.range ⌊(n : ℝ) * rate / fs⌋₊).mapM (ttlCol (roll T
        ((OF.trunc (-((⌊(n : ℝ) * rate / fs⌋₊ : ℤ) : ℝ) / 2 * (1 / rate * fs)) : ℤ) : ZMod n))
        (1 / rate * fs)) with
  | error e => rw [hc] at h; cases h
  | ok cols =>
    rw [hc] at h
    simp only at h
    cases hw : npDelete n (ttlRestrict n (1 / rate * fs) ⌊(n : ℝ) * rate / fs⌋₊ notch) with
    | error e => rw [hw] at h; cases h
    | ok w =>
      rw [hw] at h
      cases h
      exact ⟨cols, rfl, rfl, rfl, rfl, rfl⟩

end Verif.Nsmb
