import Verif.UtilsProps
import Verif.SlopeStatLemmas
import Mathlib.Analysis.Convex.Deriv

/-! Auxiliary lemmas of property C164. -/

namespace Verif.Utils
open Verif

theorem interp_fract {lo : ℕ} {w c : ℝ} (h0 : 0 ≤ w) (h1 : w < 1) (hc : c = lo + w) : Int.fract c = w ∧ ⌊c⌋ = lo := by
  have hf : ⌊c⌋ = lo := by
    rw [Int.floor_eq_iff]
    push_cast
    exact ⟨by linarith, by linarith⟩
  refine ⟨?_, hf⟩
  rw [Int.fract, hf, hc]
  push_cast
  ring

theorem fract_sub_mul (i : ℕ) (num : ℝ) : Int.fract ((i : ℝ) - num) * (1 - Int.fract ((i : ℝ) - num)) =
    Int.fract num * (1 - Int.fract num) := by
  rw [sub_eq_add_neg, Int.fract_natCast_add]
  by_cases h : Int.fract num = 0
  · rw [h, Int.fract_neg_eq_zero.2 h]
  · rw [Int.fract_neg h]
    ring

/-- A sample of the shifted array in terms of its two neighbours. -/
theorem shift_two {arr : List ℝ} {num fill : ℝ} {i : ℕ} (hi : i < arr.length) (h0 : 0 ≤ (i : ℝ) - num)
    (h1 : (i : ℝ) - num ≤ (arr.length : ℝ) - 1) :
    ∃ (lo : ℕ) (w v : ℝ), 0 ≤ w ∧ w < 1 ∧ (i : ℝ) - num = lo + w ∧ (shift arr num fill)[i]? = some v ∧ lo < arr.length ∧
      (w ≠ 0 → lo + 1 < arr.length) ∧ v = (1 - w) * arr.getD lo 0 + w * arr.getD (lo + 1) 0 := by
  obtain ⟨v, hv, lo, w, w0, w1, hc, h⟩ := (shift_interpolates arr num fill i hi).1 ⟨h0, h1⟩
  refine ⟨lo, w, v, w0, w1, hc, hv, ?_⟩
  rcases h with ⟨rfl, h⟩ | ⟨a, b, ha, hb, rfl⟩
  · obtain ⟨hl, -⟩ := List.getElem?_eq_some_iff.1 h
    refine ⟨hl, fun h => absurd rfl h, ?_⟩
    rw [List.getD_eq_getElem?_getD, h]
    simp
  · obtain ⟨hl, -⟩ := List.getElem?_eq_some_iff.1 ha
    obtain ⟨hl', -⟩ := List.getElem?_eq_some_iff.1 hb
    refine ⟨hl, fun _ => hl', ?_⟩
    rw [List.getD_eq_getElem?_getD, List.getD_eq_getElem?_getD, ha, hb]
    simp
    ring

/-- A function whose second derivative is bounded stays close to its chord. -/
theorem chord_bound {g g' g'' : ℝ → ℝ} {a M w : ℝ} (hg : ContinuousOn g (Set.Icc a (a + 1)))
    (h1 : ∀ x ∈ Set.Ioo a (a + 1), HasDerivAt g (g' x) x) (h2 : ∀ x ∈ Set.Ioo a (a + 1), HasDerivAt g' (g'' x) x)
    (hM : ∀ x ∈ Set.Ioo a (a + 1), |g'' x| ≤ M) (w0 : 0 ≤ w) (w1 : w ≤ 1) :
    |(1 - w) * g a + w * g (a + 1) - g (a + w)| ≤ M / 2 * (w * (1 - w)) := by
  have key : ∀ s : ℝ, |s| = 1 → s * (g (a + w) - ((1 - w) * g a + w * g (a + 1))) ≤ M / 2 * (w * (1 - w)) := by
    intro s hs
    have hc : ConvexOn ℝ (Set.Icc a (a + 1)) fun x => s * g x + M / 2 * x ^ 2 := by
      refine convexOn_of_hasDerivWithinAt2_nonneg (convex_Icc _ _) (f' := fun x => s * g' x + M * x)
        (f'' := fun x => s * g'' x + M) ?_ ?_ ?_ ?_
      · exact (hg.const_smul s).add (by fun_prop)
      · intro x hx
        rw [interior_Icc] at hx ⊢
        have := ((h1 x hx).const_mul s).add (((hasDerivAt_pow 2 x)).const_mul (M / 2))
        refine (this.congr_deriv ?_).hasDerivWithinAt
        norm_num
        ring
      · intro x hx
        rw [interior_Icc] at hx ⊢
        have := ((h2 x hx).const_mul s).add ((hasDerivAt_id x).const_mul M)
        refine (this.congr_deriv ?_).hasDerivWithinAt
        ring
      · intro x hx
        rw [interior_Icc] at hx
        have h3 : |s * g'' x| ≤ M := by rw [abs_mul, hs, one_mul]; exact hM x hx
        linarith [neg_abs_le (s * g'' x)]
    have := hc.2 (Set.left_mem_Icc.2 (by linarith)) (Set.right_mem_Icc.2 (by linarith)) (sub_nonneg.2 w1) w0 (by ring)
    simp only [smul_eq_mul] at this
    rw [show (1 - w) * a + w * (a + 1) = a + w by ring] at this
    nlinarith
  rw [abs_le]
  have k1 := key 1 (by simp)
  have k2 := key (-1) (by simp)
  constructor <;> linarith

end Verif.Utils
