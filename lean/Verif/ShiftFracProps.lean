import Verif.ShiftFracLemmas
import Verif.OFStatProps

/-!
Property C164: what a shift by a fraction of a bin does to a pulse and to noise.
-/

namespace Verif.Utils
open Verif MeasureTheory SlopeStat

/-- The shifted samples of a smooth function are those of the function shifted, up to an eighth of its second derivative
(per bin squared), and less near whole shifts.  Only what happens between two samples matters, so that a kink at a sample
does no harm. -/
theorem shift_smooth {arr : List ℝ} {g g' g'' : ℝ → ℝ} {M : ℝ} (hs : ∀ j < arr.length, arr[j]? = some (g j)) {num fill : ℝ} {i : ℕ}
    (hi : i < arr.length) (h0 : 0 ≤ (i : ℝ) - num) (hn : (i : ℝ) - num ≤ (arr.length : ℝ) - 1)
    (hg : ContinuousOn g (Set.Icc (⌊(i : ℝ) - num⌋ : ℝ) (⌊(i : ℝ) - num⌋ + 1)))
    (h1 : ∀ x ∈ Set.Ioo (⌊(i : ℝ) - num⌋ : ℝ) (⌊(i : ℝ) - num⌋ + 1), HasDerivAt g (g' x) x)
    (h2 : ∀ x ∈ Set.Ioo (⌊(i : ℝ) - num⌋ : ℝ) (⌊(i : ℝ) - num⌋ + 1), HasDerivAt g' (g'' x) x)
    (hM : ∀ x ∈ Set.Ioo (⌊(i : ℝ) - num⌋ : ℝ) (⌊(i : ℝ) - num⌋ + 1), |g'' x| ≤ M) :
    ∃ v, (shift arr num fill)[i]? = some v ∧ |v - g (i - num)| ≤ M / 2 * (Int.fract num * (1 - Int.fract num)) ∧
      |v - g (i - num)| ≤ M / 8 := by
  obtain ⟨lo, w, v, w0, w1, hc, hv, hl, hl', hval⟩ := shift_two (fill := fill) hi h0 hn
  obtain ⟨hw, hfl⟩ := interp_fract w0 w1 hc
  rw [hfl] at hg h1 h2 hM
  push_cast at hg h1 h2 hM
  have hM0 : 0 ≤ M := (abs_nonneg _).trans (hM (lo + 1 / 2) ⟨by linarith, by linarith⟩)
  have hb := chord_bound hg h1 h2 hM w0 w1.le
  have e : v - g (i - num) = (1 - w) * g lo + w * g (lo + 1) - g (lo + w) := by
    rw [hval, hc, List.getD_eq_getElem?_getD, List.getD_eq_getElem?_getD, hs lo hl]
    by_cases hw0 : w = 0
    · simp [hw0]
    · rw [hs (lo + 1) (hl' hw0)]
      simp
  refine ⟨v, hv, ?_, ?_⟩
  · rw [e, ← fract_sub_mul i num, hw]
    exact hb
  · rw [e]
    refine hb.trans ?_
    have : w * (1 - w) ≤ 1 / 4 := by nlinarith [sq_nonneg (w - 1 / 2)]
    nlinarith

/-- If the function is only Lipschitz, up to half its steepest slope (per bin). -/
theorem shift_lipschitz {arr : List ℝ} {g : ℝ → ℝ} {L : ℝ} (hs : ∀ j < arr.length, arr[j]? = some (g j))
    (hL : ∀ x y, |g x - g y| ≤ L * |x - y|) {num fill : ℝ} {i : ℕ}
    (hi : i < arr.length) (h0 : 0 ≤ (i : ℝ) - num) (hn : (i : ℝ) - num ≤ (arr.length : ℝ) - 1) :
    ∃ v, (shift arr num fill)[i]? = some v ∧ |v - g (i - num)| ≤ 2 * L * (Int.fract num * (1 - Int.fract num)) ∧
      |v - g (i - num)| ≤ L / 2 := by
  obtain ⟨lo, w, v, w0, w1, hc, hv, hl, hl', hval⟩ := shift_two (fill := fill) hi h0 hn
  obtain ⟨hw, -⟩ := interp_fract w0 w1 hc
  have hL0 : 0 ≤ L := by simpa using (abs_nonneg _).trans (hL 1 0)
  have e : v - g (i - num) = (1 - w) * (g lo - g (lo + w)) + w * (g (lo + 1) - g (lo + w)) := by
    rw [hval, hc, List.getD_eq_getElem?_getD, List.getD_eq_getElem?_getD, hs lo hl]
    by_cases hw0 : w = 0
    · simp [hw0]
    · rw [hs (lo + 1) (hl' hw0)]
      simp
      ring
  have a1 : |g lo - g (lo + w)| ≤ L * w := by
    refine (hL _ _).trans_eq ?_
    rw [show (lo : ℝ) - (lo + w) = -w by ring, abs_neg, abs_of_nonneg w0]
  have a2 : |g (lo + 1) - g (lo + w)| ≤ L * (1 - w) := by
    refine (hL _ _).trans_eq ?_
    rw [show (lo : ℝ) + 1 - (lo + w) = 1 - w by ring, abs_of_nonneg (by linarith)]
  have hb : |v - g (i - num)| ≤ 2 * L * (w * (1 - w)) := by
    rw [e]
    refine (abs_add_le _ _).trans ?_
    rw [abs_mul, abs_mul, abs_of_nonneg w0, abs_of_nonneg (sub_nonneg.2 w1.le)]
    have b1 := mul_le_mul_of_nonneg_left a1 (sub_nonneg.2 w1.le)
    have b2 := mul_le_mul_of_nonneg_left a2 w0
    linarith
  refine ⟨v, hv, ?_, ?_⟩
  · rw [← fract_sub_mul i num, hw]
    exact hb
  · refine hb.trans ?_
    have : w * (1 - w) ≤ 1 / 4 := by nlinarith [sq_nonneg (w - 1 / 2)]
    nlinarith

/-- A shift never leaves the range of the samples and the fill value. -/
theorem shift_range {arr : List ℝ} {num fill a b : ℝ} (ha : ∀ x ∈ arr, a ≤ x ∧ x ≤ b) (hf : a ≤ fill ∧ fill ≤ b) {i : ℕ}
    (hi : i < arr.length) : ∃ v, (shift arr num fill)[i]? = some v ∧ a ≤ v ∧ v ≤ b := by
  by_cases hc : 0 ≤ (i : ℝ) - num ∧ (i : ℝ) - num ≤ (arr.length : ℝ) - 1
  · obtain ⟨lo, w, v, w0, w1, -, hv, hl, hl', hval⟩ := shift_two (fill := fill) hi hc.1 hc.2
    refine ⟨v, hv, ?_⟩
    have g1 : a ≤ arr.getD lo 0 ∧ arr.getD lo 0 ≤ b := by
      rw [List.getD_eq_getElem?_getD, List.getElem?_eq_getElem hl, Option.getD_some]
      exact ha _ (List.getElem_mem _)
    by_cases hw : w = 0
    · rw [hval, hw]
      simpa using g1
    · have g2 : a ≤ arr.getD (lo + 1) 0 ∧ arr.getD (lo + 1) 0 ≤ b := by
        rw [List.getD_eq_getElem?_getD, List.getElem?_eq_getElem (hl' hw), Option.getD_some]
        exact ha _ (List.getElem_mem _)
      rw [hval]
      have := sub_nonneg.2 w1.le
      constructor
      · nlinarith [mul_le_mul_of_nonneg_left g1.1 this, mul_le_mul_of_nonneg_left g2.1 w0]
      · nlinarith [mul_le_mul_of_nonneg_left g1.2 this, mul_le_mul_of_nonneg_left g2.2 w0]
  · exact ⟨fill, (shift_interpolates arr num fill i hi).2 hc, hf⟩

/-- A shift by a fraction smooths the noise: white noise of variance `v` has the variance `v * (1 - 2 f (1 - f))` afterwards,
`f` being the fraction; at half a bin, half of it. -/
theorem shift_white {n : ℕ} {Ω : Type*} [MeasurableSpace Ω] {μ : Measure Ω} {noise : Ω → Fin n → ℝ} {v : ℝ} (h : White μ noise v)
    {num fill : ℝ} {i : ℕ} (hi : i < n) (h0 : 0 ≤ (i : ℝ) - num) (hn : (i : ℝ) - num ≤ (n : ℝ) - 1) :
    (∀ ω, ∃ y, (shift (List.ofFn (noise ω)) num fill)[i]? = some y) ∧
    ∫ ω, (shift (List.ofFn (noise ω)) num fill).getD i 0 ^ 2 ∂μ = v * (1 - 2 * (Int.fract num * (1 - Int.fract num))) := by
  have key : ∃ (lo : ℕ) (w : ℝ), 0 ≤ w ∧ w < 1 ∧ (i : ℝ) - num = lo + w ∧ lo < n ∧ (w ≠ 0 → lo + 1 < n) ∧ ∀ ω,
      (shift (List.ofFn (noise ω)) num fill)[i]? =
        some ((1 - w) * (List.ofFn (noise ω)).getD lo 0 + w * (List.ofFn (noise ω)).getD (lo + 1) 0) := by
    have hz : ∀ ω, i < (List.ofFn (noise ω)).length := fun _ => by simpa using hi
    have hz2 : ∀ ω, (i : ℝ) - num ≤ ((List.ofFn (noise ω)).length : ℝ) - 1 := fun _ => by simpa using hn
    obtain ⟨lo, w, -, w0, w1, hc, -, hl, hl', -⟩ := shift_two (arr := List.replicate n 0) (fill := fill) (i := i) (num := num)
      (by simpa using hi) h0 (by simpa using hn)
    refine ⟨lo, w, w0, w1, hc, by simpa using hl, by simpa using hl', fun ω => ?_⟩
    obtain ⟨lo', w', y, w0', w1', hc', hv, -, -, hval⟩ := shift_two (fill := fill) (hz ω) h0 (hz2 ω)
    obtain ⟨e1, e2⟩ := interp_fract w0 w1 hc
    obtain ⟨e3, e4⟩ := interp_fract w0' w1' hc'
    have e5 : lo' = lo := by
      rw [e2] at e4
      exact_mod_cast e4.symm
    rw [hv, hval, ← e3, e1, e5]
  obtain ⟨lo, w, w0, w1, hc, hl, hl', hv⟩ := key
  refine ⟨fun ω => ⟨_, hv ω⟩, ?_⟩
  obtain ⟨hw, -⟩ := interp_fract w0 w1 hc
  rw [← fract_sub_mul i num, hw]
  have e : ∀ ω, (shift (List.ofFn (noise ω)) num fill).getD i 0 =
      ∑ j : Fin n, ((if (j : ℕ) = lo then 1 - w else 0) + if (j : ℕ) = lo + 1 then w else 0) * noise ω j := by
    intro ω
    rw [List.getD_eq_getElem?_getD, hv ω, Option.getD_some]
    simp only [add_mul, Finset.sum_add_distrib, ite_mul, zero_mul]
    congr 1
    · rw [Finset.sum_eq_single (⟨lo, hl⟩ : Fin n)]
      · simp [List.getD_eq_getElem?_getD, hl]
      · intro j _ hj
        rw [if_neg fun h => hj (Fin.ext h)]
      · simp
    · by_cases hw0 : w = 0
      · simp [hw0]
      · have hl2 := hl' hw0
        rw [Finset.sum_eq_single (⟨lo + 1, hl2⟩ : Fin n)]
        · simp [List.getD_eq_getElem?_getD, hl2]
        · intro j _ hj
          rw [if_neg fun h => hj (Fin.ext h)]
        · simp
  simp_rw [e]
  rw [var_comb h]
  congr 1
  have e2 : ∀ j : Fin n, ((if (j : ℕ) = lo then 1 - w else 0) + if (j : ℕ) = lo + 1 then w else 0) ^ 2 =
      (if (j : ℕ) = lo then (1 - w) ^ 2 else 0) + if (j : ℕ) = lo + 1 then w ^ 2 else 0 := by
    intro j
    split_ifs
    · omega
    · ring
    · ring
    · ring
  simp_rw [e2]
  rw [Finset.sum_add_distrib, Finset.sum_eq_single (⟨lo, hl⟩ : Fin n) (fun j _ hj => if_neg fun h => hj (Fin.ext h)) (by simp),
    if_pos rfl]
  by_cases hw0 : w = 0
  · simp [hw0]
  · rw [Finset.sum_eq_single (⟨lo + 1, hl' hw0⟩ : Fin n) (fun j _ hj => if_neg fun h => hj (Fin.ext h)) (by simp), if_pos rfl]
    ring

/-- A shift by a fraction. -/
theorem shift_forward {arr : List ℝ} {f fill : ℝ} (h0 : 0 < f) (h1 : f < 1) {i : ℕ} (hi : i + 1 < arr.length) :
    (shift arr f fill)[i + 1]? = some ((1 - f) * arr.getD (i + 1) 0 + f * arr.getD i 0) := by
  have hb : ((i + 1 : ℕ) : ℝ) ≤ (arr.length : ℝ) - 1 := by
    have : ((i + 1 : ℕ) : ℝ) + 1 ≤ arr.length := by exact_mod_cast hi
    linarith
  obtain ⟨lo, w, v, w0, w1, hc, hv, hl, hl', hval⟩ := shift_two (arr := arr) (num := f) (fill := fill) (i := i + 1) hi
    (by push_cast; have : (0 : ℝ) ≤ i := Nat.cast_nonneg i; linarith) (by linarith)
  obtain ⟨e1, e2⟩ := interp_fract w0 w1 hc
  obtain ⟨e3, e4⟩ := interp_fract (lo := i) (w := 1 - f) (c := ((i + 1 : ℕ) : ℝ) - f) (by linarith) (by linarith) (by push_cast; ring)
  have e5 : lo = i := by
    rw [e2] at e4
    exact_mod_cast e4
  have e6 : w = 1 - f := by rw [← e1, e3]
  rw [hv, hval, e5, e6]
  congr 1
  ring

theorem shift_length (arr : List ℝ) (num fill : ℝ) : (shift arr num fill).length = arr.length := by
  unfold shift
  split_ifs
  · exact shiftInt_length _ _ _
  · simp [ndShift]

/-- Two shifts by fractions are not the shift by their sum: by `f` and then by `1 - f` adds `f (1 - f)` times the second
difference to the shift by one bin. -/
theorem shift_twice {arr : List ℝ} {f fill : ℝ} (h0 : 0 < f) (h1 : f < 1) {i : ℕ} (hi : i + 2 < arr.length) :
    (shift (shift arr f fill) (1 - f) fill)[i + 2]? =
      some (arr.getD (i + 1) 0 + f * (1 - f) * (arr.getD (i + 2) 0 - 2 * arr.getD (i + 1) 0 + arr.getD i 0)) ∧
    (shift arr 1 fill)[i + 2]? = some (arr.getD (i + 1) 0) := by
  constructor
  · rw [shift_forward (by linarith) (by linarith) (by rw [shift_length]; exact hi)]
    rw [List.getD_eq_getElem?_getD, List.getD_eq_getElem?_getD, shift_forward h0 h1 hi, shift_forward h0 h1 (by omega)]
    simp only [Option.getD_some]
    congr 1
    ring
  · have := shift_int_moves arr 1 fill (i + 2) (i + 1) hi (by omega) (by push_cast; ring)
    rw [Int.cast_one] at this
    rw [this, List.getD_eq_getElem?_getD, List.getElem?_eq_getElem (by omega)]
    rfl

/-- A parabola is shifted by half a bin with an error of an eighth of its second derivative: the bound is reached. -/
example : (shift [0, 1, 4, 9] (1 / 2) 0)[2]? = some (5 / 2) ∧ |(5 / 2 : ℝ) - ((2 : ℕ) - 1 / 2) ^ 2| = 2 / 8 := by
  constructor
  · rw [shift_forward (by norm_num) (by norm_num) (by simp)]
    norm_num
  · norm_num [abs_of_pos]

/-- Every admissible shift of a parabola meets the hypotheses. -/
example (num : ℝ) (h0 : 0 ≤ ((2 : ℕ) : ℝ) - num) (hn : ((2 : ℕ) : ℝ) - num ≤ 3) :
    ∃ v, (shift [0, 1, 4, 9] num 0)[2]? = some v ∧ |v - ((2 : ℕ) - num) ^ 2| ≤ 2 / 8 := by
  obtain ⟨v, hv, -, hb⟩ := shift_smooth (arr := [0, 1, 4, 9]) (g := fun x => x ^ 2) (g' := fun x => 2 * x) (g'' := fun _ => 2)
    (M := 2) (num := num) (fill := 0) (i := 2)
    (by
      intro j hj
      have : j < 4 := by simpa using hj
      interval_cases j <;> norm_num)
    (by simp) h0 (by norm_num at hn ⊢; linarith) (by fun_prop)
    (fun x _ => by simpa using hasDerivAt_pow 2 x) (fun x _ => by simpa using (hasDerivAt_id x).const_mul (2 : ℝ)) (by simp)
  exact ⟨v, hv, hb⟩

/-- Standard normal draws shifted by half a bin have variance one half. -/
example : ∫ ω, (shift (List.ofFn fun j : Fin 5 => ω j) (1 / 2) 0).getD 3 0 ^ 2 ∂(OF.normalDraws 5) = 1 / 2 := by
  have h := OF.normalDraws_stationary (n := 5)
  have hw : White (OF.normalDraws 5) (fun ω (j : Fin 5) => ω j) 1 := by
    refine ⟨h.sq_int, h.mean, fun i j => (h.cov i j).trans ?_⟩
    by_cases hij : i = j
    · rw [if_pos hij]
      exact if_pos (sub_eq_zero.2 hij)
    · rw [if_neg hij]
      exact if_neg (sub_ne_zero.2 hij)
  have := (shift_white hw (num := 1 / 2) (fill := 0) (i := 3) (by norm_num) (by norm_num) (by norm_num)).2
  rw [this, Int.fract_eq_self.2 ⟨by norm_num, by norm_num⟩]
  norm_num

/-- Shifting a spike by half a bin twice spreads it. -/
example : (shift (shift [0, 0, 1, 0, 0] (1 / 2) 0) (1 - 1 / 2) 0)[3]? = some (1 / 2) ∧ (shift [0, 0, 1, 0, 0] 1 0)[3]? = some 1 := by
  obtain ⟨h1, h2⟩ := shift_twice (arr := [0, 0, 1, 0, 0]) (f := 1 / 2) (fill := 0) (i := 1) (by norm_num) (by norm_num) (by simp)
  rw [h1, h2]
  norm_num

end Verif.Utils
