import Verif.NoiseProps
import Verif.SmoothCostSpec

/-! Lemmas for C170: the smoothed spectrum bin by bin. -/

namespace Verif.Noise
open Verif Verif.Dft

variable {n : ℕ}

theorem asList_length (x : ZMod n → ℝ) : (asList x).length = n := by simp [asList]

/-- The bin of the absolute frequency. -/
theorem fold_bin {x : ZMod n → ℝ} (hs : ∀ k, x (-k) = x k) (k : ℕ) (hk : k < n) :
    x ((min k (n - k) : ℕ) : ZMod n) = x (k : ZMod n) := by
  rcases le_total k (n - k) with h | h
  · rw [min_eq_left h]
  · rw [min_eq_right h, Nat.cast_sub hk.le, ZMod.natCast_self, zero_sub, hs]

variable [NeZero n]

theorem halfPts_get (x : ZMod n → ℝ) {j : ℕ} (hj : j ≤ n / 2) :
    (halfPts (asList x))[j]? = some ((j : ℝ), x (j : ZMod n)) := by
  have hn := Nat.pos_of_ne_zero (NeZero.ne n)
  have hjn : j < n := by omega
  have h1 : ((asList x).take ((asList x).length / 2 + 1))[j]? = some (x (j : ZMod n)) := by
    rw [asList_length, List.getElem?_take_of_lt (by omega)]
    simp [asList, hjn]
  simp [halfPts, List.getElem?_zipIdx, h1]

theorem halfPts_ne {x : ZMod n → ℝ} (hp : ∀ k, 0 < x k) : ∀ p ∈ halfPts (asList x), p.2 ≠ 0 := by
  have hn := Nat.pos_of_ne_zero (NeZero.ne n)
  intro p hq
  obtain ⟨i, hi⟩ := List.getElem?_of_mem hq
  have hil : i < (halfPts (asList x)).length := (List.getElem?_eq_some_iff.1 hi).1
  rw [halfPts_length _ (List.ne_nil_of_length_pos (by rw [asList_length]; exact hn)), asList_length] at hil
  rw [halfPts_get x (by omega), Option.some.injEq] at hi
  rw [← hi]
  exact (hp _).ne'

theorem kept_two {x : ZMod n → ℝ} (hp : ∀ k, 0 < x k) (hs : ∀ k, x (-k) = x k) (hd : ∃ k, x k < x 0) :
    2 ≤ (Utils.kept (halfPts (asList x))).length := by
  obtain ⟨k, hk⟩ := hd
  have hkv := ZMod.val_lt k
  have hj : min k.val (n - k.val) ≤ n / 2 := by omega
  have hf : x ((min k.val (n - k.val) : ℕ) : ZMod n) = x k := by
    rw [fold_bin hs k.val hkv, ZMod.natCast_zmod_val]
  have h0 := halfPts_get x (Nat.zero_le (n / 2))
  refine Utils.makeDecreasing_nodes _ (incX_zipIdx _ 0) (halfPts_ne hp) _ _ (by rw [List.head?_eq_getElem?]; exact h0)
    (List.mem_of_getElem? (halfPts_get x hj)) ?_
  simp only [hf, Nat.cast_zero]
  exact hk

/-- The values of the smoothed spectrum. -/
theorem smooth_bins {x : ZMod n → ℝ} (hp : ∀ k, 0 < x k) (hs : ∀ k, x (-k) = x k) (hd : ∃ k, x k < x 0) :
    ∃ s : ZMod n → ℝ, Smoothed x s ∧ s 0 = x 0 ∧ (∀ k, s (-k) = s k) ∧ ∀ k, s k ≤ x k := by
  have h2 := kept_two hp hs hd
  have hinc : Utils.IncX (halfPts (asList x)) := incX_zipIdx _ 0
  let d : ℕ → ℝ := fun j => ((Utils.makeDecreasing (halfPts (asList x)))[j]?).join.getD 0
  have hd : ∀ j ≤ n / 2, (Utils.makeDecreasing (halfPts (asList x)))[j]? = some (some (d j)) ∧ d j ≤ x (j : ZMod n) := by
    intro j hj
    obtain ⟨v, hv, hle⟩ := Utils.makeDecreasing_le _ hinc (halfPts_ne hp) h2 j _ (halfPts_get x hj)
    have : d j = v := by simp only [d, hv]; rfl
    rw [this]
    exact ⟨hv, hle⟩
  refine ⟨fun k => d (min k.val (n - k.val)), ?_, ?_, ?_, ?_⟩
  · apply List.ext_getElem?
    intro k
    by_cases hk : k < n
    · rw [smoothPsd_get _ k (by rw [asList_length]; exact hk), asList_length, (hd _ (by omega)).1]
      simp [asList, hk, ZMod.val_natCast, Nat.mod_eq_of_lt hk]
    · rw [List.getElem?_eq_none (by simp [smoothPsd, asList]; omega), List.getElem?_eq_none (by simp [asList]; omega)]
  · have := Utils.makeDecreasing_agrees _ hinc h2 0 _ ⟨halfPts_get x (Nat.zero_le _), by simp⟩
      (by simpa using (hp 0).ne')
    rw [(hd 0 (Nat.zero_le _)).1] at this
    simpa using this
  · intro k
    by_cases hk : k = 0
    · rw [hk, neg_zero]
    · have := ZMod.val_lt k
      simp only [ZMod.neg_val, if_neg hk]
      congr 1
      omega
  · intro k
    have hk := ZMod.val_lt k
    have := (hd (min k.val (n - k.val)) (by omega)).2
    rwa [fold_bin hs k.val hk, ZMod.natCast_zmod_val] at this

theorem keepDec_nil : ∀ (l : List (ℝ × ℝ)) (last : ℝ), (∀ p ∈ l, last ≤ p.2) → Utils.keepDec last l = []
  | [], _, _ => rfl
  | a :: rest, last, h => by
    unfold Utils.keepDec
    rw [if_neg (h a (by simp)).not_gt]
    exact keepDec_nil rest last fun p hp => h p (by simp [hp])

theorem halfPts_mem {x : ZMod n → ℝ} {p : ℝ × ℝ} (hq : p ∈ halfPts (asList x)) : ∃ k, p.2 = x k := by
  have hn := Nat.pos_of_ne_zero (NeZero.ne n)
  obtain ⟨i, hi⟩ := List.getElem?_of_mem hq
  have hil : i < (halfPts (asList x)).length := (List.getElem?_eq_some_iff.1 hi).1
  rw [halfPts_length _ (List.ne_nil_of_length_pos (by rw [asList_length]; exact hn)), asList_length] at hil
  rw [halfPts_get x (by omega), Option.some.injEq] at hi
  exact ⟨_, by rw [← hi]⟩

theorem smooth_none {x : ZMod n → ℝ} (h : ∀ k, x 0 ≤ x k) : smoothPsd (asList x) = List.replicate n none := by
  have h0 := halfPts_get x (Nat.zero_le (n / 2))
  have hk : (Utils.kept (halfPts (asList x))).length ≤ 1 := by
    cases hl : halfPts (asList x) with
    | nil => simp [Utils.kept]
    | cons a rest =>
      rw [hl] at h0
      have ha : a.2 = x 0 := by
        rw [List.getElem?_cons_zero, Option.some.injEq] at h0
        simp [h0]
      have : Utils.keepDec a.2 rest = [] := keepDec_nil rest a.2 fun p hp => by
        obtain ⟨k, hk⟩ := halfPts_mem (x := x) (p := p) (by rw [hl]; simp [hp])
        rw [ha, hk]
        exact h k
      unfold Utils.kept
      simp only [this]
      split_ifs <;> simp
  have hi : ∀ y, Np.interpExtrap (Utils.kept (halfPts (asList x))) y = none := by
    intro y
    rcases hl : Utils.kept (halfPts (asList x)) with _ | ⟨a, _ | ⟨b, l⟩⟩
    · rfl
    · rfl
    · rw [hl] at hk
      simp at hk
  apply List.ext_getElem?
  intro k
  by_cases hkn : k < n
  · rw [smoothPsd_get _ k (by rw [asList_length]; exact hkn), List.getElem?_replicate, if_pos hkn]
    congr 1
    unfold Utils.makeDecreasing
    rw [List.getElem?_map]
    cases (halfPts (asList x))[min k ((asList x).length - k)]? with
    | none => rfl
    | some p => exact hi p.1
  · rw [List.getElem?_eq_none (by simp [smoothPsd, asList]; omega), List.getElem?_eq_none (by simp; omega)]

end Verif.Noise
