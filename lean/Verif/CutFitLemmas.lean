import Verif.CutFitSpec
import Verif.CutStageProps
import Verif.OFFunProps
import Verif.OFProps
import Verif.DidvPlotLemmas

/-! Helper lemmas for C136. -/

namespace Verif.Cut
open Verif Verif.Dft Verif.OF Verif.OF.Fun

variable {n : ℕ} [NeZero n]

omit [NeZero n] in
theorem roundHalf_middle : IsMiddle n (roundHalf n) := by
  unfold IsMiddle roundHalf
  split_ifs <;> omega

theorem riseFall_pos {t : ℝ} (ht : 0 < t) : 0 < riseFall t := by
  unfold riseFall
  rw [if_neg (not_le.2 ht)]
  refine mul_pos (sub_pos.2 (Real.exp_lt_one_iff.2 ?_)) (Real.exp_pos _)
  have : 0 < t / (10 / 1000000) := by positivity
  linarith

theorem riseFall_nonneg (t : ℝ) : 0 ≤ riseFall t := by
  rcases le_or_gt t 0 with h | h
  · unfold riseFall; rw [if_pos h]
  · exact (riseFall_pos h).le

omit [NeZero n] in
theorem rawTemplate_eq (fs : ℝ) (i : ZMod n) :
    rawTemplate fs i = riseFall (((i.val : ℝ) + 1 - roundHalf n) / fs) := by
  unfold rawTemplate riseFall
  dsimp only
  rw [one_div_mul_eq_div]
  generalize (((i.val : ℝ) + 1 - roundHalf n) / fs) = t
  rcases lt_trichotomy t 0 with h | h | h
  · rw [if_pos h, if_pos h.le]
  · subst h
    rw [if_neg (lt_irrefl _), if_pos le_rfl]
    simp
  · rw [if_neg h.not_gt, if_neg h.not_ge, neg_div, neg_div]

/-- The last sample. -/
def lastSample (n : ℕ) : ZMod n := ((n - 1 : ℕ) : ZMod n)

theorem lastSample_val : (lastSample n).val = n - 1 := by
  unfold lastSample
  rw [ZMod.val_natCast, Nat.mod_eq_of_lt]
  have := Nat.pos_of_ne_zero (NeZero.ne n)
  omega

theorem raw_last_pos {fs : ℝ} (hfs : 0 < fs) : 0 < rawTemplate (n := n) fs (lastSample n) := by
  have hn := Nat.pos_of_ne_zero (NeZero.ne n)
  rw [rawTemplate_eq, lastSample_val]
  refine riseFall_pos (div_pos ?_ hfs)
  have h : roundHalf n < n := by
    unfold roundHalf
    split_ifs <;> omega
  have h1 : ((n - 1 : ℕ) : ℝ) + 1 = n := by
    have : n - 1 + 1 = n := by omega
    exact_mod_cast this
  rw [h1, sub_pos]
  exact_mod_cast h

/-- The height of the pulse before it is normalised. -/
noncomputable def rawMax (n : ℕ) [NeZero n] (fs : ℝ) : ℝ :=
  Finset.univ.sup' ⟨0, Finset.mem_univ _⟩ (rawTemplate (n := n) fs)

theorem rawMax_pos {fs : ℝ} (hfs : 0 < fs) : 0 < rawMax n fs :=
  (raw_last_pos (n := n) hfs).trans_le (Finset.le_sup' (rawTemplate fs) (Finset.mem_univ _))

theorem dummyTemplate_pulse {fs : ℝ} (hfs : 0 < fs) : IsPulse fs (dummyTemplate (n := n) fs) := by
  have hM := rawMax_pos (n := n) hfs
  refine ⟨roundHalf n, roundHalf_middle, ⟨(rawMax n fs)⁻¹, inv_pos.2 hM, fun i => ?_⟩, fun i => ?_, ?_⟩
  · change rawTemplate fs i / rawMax n fs = _
    rw [rawTemplate_eq, div_eq_inv_mul]
  · change rawTemplate fs i / rawMax n fs ≤ 1
    rw [div_le_one hM]
    exact Finset.le_sup' (rawTemplate fs) (Finset.mem_univ _)
  · obtain ⟨i, _, hi⟩ := Finset.exists_mem_eq_sup' (⟨0, Finset.mem_univ _⟩ : (Finset.univ : Finset
      (ZMod n)).Nonempty) (rawTemplate (n := n) fs)
    refine ⟨i, ?_⟩
    change rawTemplate fs i / rawMax n fs = 1
    rw [← hi]
    exact div_self hM.ne'

/-- White noise without the zero frequency: the chi-square is the variance of the trace. -/
theorem traceChi2_white_ac (fs : ℝ) (r : ZMod n → ℝ) :
    traceChi2 fs (weight white true) r = (∑ j, (r j - (∑ i, r i) / n) ^ 2) / fs := by
  rw [← traceChi2_white]
  unfold traceChi2
  refine Finset.sum_congr rfl fun k _ => ?_
  rw [Didv.fftR_sub_mean]
  by_cases hk : k = 0
  · simp [hk, weight]
  · rw [if_neg hk]
    simp [weight, hk]

/-- The mean is the best constant. -/
theorem mean_best (r : ZMod n → ℝ) (B : ℝ) :
    ∑ j, (r j - (∑ i, r i) / n) ^ 2 ≤ ∑ j, (r j - B) ^ 2 := by
  have hn : (n : ℝ) ≠ 0 := Nat.cast_ne_zero.2 (NeZero.ne n)
  have hn0 : (0 : ℝ) ≤ n := Nat.cast_nonneg n
  have e : ∑ j, (r j - B) ^ 2 = ∑ j, (r j - (∑ i, r i) / n) ^ 2 + n * ((∑ i, r i) / n - B) ^ 2 := by
    generalize hm : (∑ i, r i) / (n : ℝ) = m
    have hs : ∑ j, (r j - m) = 0 := by
      rw [Finset.sum_sub_distrib, Finset.sum_const, Finset.card_univ, ZMod.card, ← hm, nsmul_eq_mul]
      field_simp
      ring
    have : ∀ j, (r j - B) ^ 2 = (r j - m) ^ 2 + (2 * (m - B)) * (r j - m) + (m - B) ^ 2 := fun j => by
      ring
    simp only [this]
    rw [Finset.sum_add_distrib, Finset.sum_add_distrib, ← Finset.mul_sum, hs, Finset.sum_const,
      Finset.card_univ, ZMod.card, nsmul_eq_mul]
    ring
  rw [e]
  have := mul_nonneg hn0 (sq_nonneg ((∑ i, r i) / n - B))
  linarith

omit [NeZero n] in
theorem sum_sq_pos_of_ne [Fintype (ZMod n)] (r : ZMod n → ℝ) (m : ℝ) {i j : ZMod n} (h : r i ≠ r j) :
    0 < ∑ k, (r k - m) ^ 2 := by
  by_contra hc
  have h0 : ∑ k, (r k - m) ^ 2 = 0 :=
    le_antisymm (not_lt.1 hc) (Finset.sum_nonneg fun k _ => sq_nonneg _)
  have h1 := (Finset.sum_eq_zero_iff_of_nonneg (fun k _ => sq_nonneg (r k - m))).1 h0
  have a := pow_eq_zero_iff (two_ne_zero) |>.1 (h1 i (Finset.mem_univ _))
  have b := pow_eq_zero_iff (two_ne_zero) |>.1 (h1 j (Finset.mem_univ _))
  exact h (by linarith)

theorem dummyTemplate_visible (hn : 2 ≤ n) {fs : ℝ} (hfs : 0 < fs) :
    0 < traceChi2 fs (weight white true) (dummyTemplate (n := n) fs) := by
  rw [traceChi2_white_ac]
  refine div_pos (sum_sq_pos_of_ne _ _ (i := 0) (j := lastSample n) ?_) hfs
  have hM := rawMax_pos (n := n) hfs
  have h1 : dummyTemplate (n := n) fs (lastSample n) ≠ 0 :=
    (div_pos (raw_last_pos hfs) hM).ne'
  have h0 : dummyTemplate (n := n) fs 0 = 0 := by
    unfold dummyTemplate
    rw [rawTemplate_eq]
    unfold riseFall
    rw [if_pos, zero_div]
    refine div_nonpos_of_nonpos_of_nonneg ?_ hfs.le
    have : 1 ≤ roundHalf n := by
      unfold roundHalf
      split_ifs <;> omega
    have h : (1 : ℝ) ≤ roundHalf n := by exact_mod_cast this
    simp only [ZMod.val_zero, Nat.cast_zero]
    linarith
  rw [h0]
  exact h1.symm

/-- The best fit of a pulse that is not constant, from the filter. -/
theorem bestFit_of_filter {fs : ℝ} (hfs : 0 < fs) (x T : ZMod n → ℝ) {A χ : ℝ} {d : ZMod n}
    (h1 : χ = traceChi2 fs (weight white true) (resid x T A d))
    (h2 : ∀ (m : ZMod n) (b : ℝ), χ ≤ traceChi2 fs (weight white true) (resid x T b m)) :
    BestFit fs T x A χ := by
  refine ⟨⟨d, (∑ i, resid x T A d i) / n, ?_⟩, fun A' d' B' => ?_⟩
  · rw [h1, traceChi2_white_ac]
    rfl
  · refine (h2 d' A').trans ?_
    rw [traceChi2_white_ac]
    exact div_le_div_of_nonneg_right (mean_best _ _) hfs.le

theorem ofAll_best (hn : 2 ≤ n) {fs : ℝ} (hfs : 0 < fs) (traces : List (ZMod n → ℝ)) :
    ∃ l, ofAll fs traces = .ok l ∧
      List.Forall₂ (fun x p => BestFit fs (dummyTemplate fs) x p.1 p.2) traces l := by
  have key : ∀ x : ZMod n → ℝ, ∃ p : ℝ × ℝ, (match OF.Fun.ofamp [x] (dummyTemplate fs)
      (fun _ => ((1 : ℝ) : WithTop ℝ)) fs true true none false false with
      | .error e => (.error e : Except Err (ℝ × ℝ))
      | .ok l => .ok ((l.headD (0, 0, 0)).1, (l.headD (0, 0, 0)).2.2)) = .ok p ∧
      BestFit fs (dummyTemplate fs) x p.1 p.2 := by
    intro x
    obtain ⟨rs, hrs⟩ := ofamp_total_partial [x] (dummyTemplate fs) white fs true false none false
      (by simp) ⟨0, by
        have := Nat.pos_of_ne_zero (NeZero.ne n)
        simp [Admissible]
        omega⟩
    have ha := ofamp_agrees _ _ _ _ _ _ _ _ _ hrs
    obtain ⟨a, d, c, h1, h2, h3⟩ := withdelay_global x (dummyTemplate fs) white fs true
      (dummyTemplate_visible hn hfs)
    rcases rs with _ | ⟨r, rs⟩
    · cases ha
    rw [List.forall₂_cons] at ha
    rw [h1] at ha
    have e : r = (a, d / fs, c) := (Except.ok.inj ha.1).symm
    refine ⟨(a, c), ?_, bestFit_of_filter hfs _ _ h2 h3⟩
    change (match OF.Fun.ofamp [x] (dummyTemplate fs) white fs true true none false false with
      | .error e => (.error e : Except Err (ℝ × ℝ))
      | .ok l => .ok ((l.headD (0, 0, 0)).1, (l.headD (0, 0, 0)).2.2)) = .ok (a, c)
    rw [hrs, e]
    rfl
  choose g hg hb using key
  refine ⟨traces.map g, ?_, ?_⟩
  · have e : ∀ t : List (ZMod n → ℝ), ofAll fs t = t.mapM fun x => (.ok (g x) : Except Err _) :=
      fun t => congrArg (fun f => t.mapM f) (funext hg)
    rw [e]
    induction traces with
    | nil => rfl
    | cons x t ih =>
      rw [List.mapM_cons, ih]
      rfl
  · rw [List.forall₂_map_right_iff, List.forall₂_same]
    exact fun x _ => hb x

omit [NeZero n] in
theorem middle_pos (hn : 2 ≤ n) {c : ℕ} (h : IsMiddle n c) : 1 ≤ c := by
  unfold IsMiddle at h
  omega

omit [NeZero n] in
/-- The standard pulse lies between 0 and 1 and takes both values. -/
theorem pulse_range (hn : 2 ≤ n) {fs : ℝ} (hfs : 0 < fs) {T : ZMod n → ℝ} (h : IsPulse fs T) :
    (∀ i, 0 ≤ T i ∧ T i ≤ 1) ∧ (∃ i, T i = 0) ∧ ∃ i, T i = 1 := by
  obtain ⟨c, hc, ⟨K, hK, hT⟩, h1, h2⟩ := h
  refine ⟨fun i => ⟨?_, h1 i⟩, ⟨0, ?_⟩, h2⟩
  · rw [hT]
    exact mul_nonneg hK.le (riseFall_nonneg _)
  · rw [hT]
    unfold riseFall
    rw [if_pos, mul_zero]
    refine div_nonpos_of_nonpos_of_nonneg ?_ hfs.le
    have h : (1 : ℝ) ≤ c := by exact_mod_cast middle_pos hn hc
    simp only [ZMod.val_zero, Nat.cast_zero]
    linarith

omit [NeZero n] in
/-- The height of a pulse on a constant can be read off the trace. -/
theorem height_le {T x : ZMod n → ℝ} (hT : ∀ i, 0 ≤ T i ∧ T i ≤ 1) (h0 : ∃ i, T i = 0)
    (h1 : ∃ i, T i = 1) {A B A' B' : ℝ} {d d' : ZMod n} (hx : ∀ j, x j = A * T (j - d) + B)
    (hx' : ∀ j, x j = A' * T (j - d') + B') : |A'| ≤ |A| := by
  obtain ⟨i, hi⟩ := h0
  obtain ⟨j, hj⟩ := h1
  have e : A' = A * (T (j + d' - d) - T (i + d' - d)) := by
    have a := hx' (j + d')
    have b := hx' (i + d')
    rw [add_sub_cancel_right, hj, hx] at a
    rw [add_sub_cancel_right, hi, hx] at b
    linarith
  rw [e, abs_mul]
  refine mul_le_of_le_one_right (abs_nonneg A) ?_
  have a := hT (j + d' - d)
  have b := hT (i + d' - d)
  rw [abs_le]
  constructor <;> linarith

theorem leftOver_nonneg (T x : ZMod n → ℝ) (A : ℝ) (d : ZMod n) (B : ℝ) : 0 ≤ leftOver T x A d B :=
  Finset.sum_nonneg fun _ _ => sq_nonneg _

theorem leftOver_zero {T x : ZMod n → ℝ} {A : ℝ} {d : ZMod n} {B : ℝ} :
    leftOver T x A d B = 0 ↔ ∀ j, x j = A * T (j - d) + B := by
  unfold leftOver
  rw [Finset.sum_eq_zero_iff_of_nonneg fun _ _ => sq_nonneg _]
  constructor
  · intro h j
    have := pow_eq_zero_iff (two_ne_zero) |>.1 (h j (Finset.mem_univ _))
    linarith
  · intro h j _
    rw [h j]
    ring

/-- The best fit of a pulse on a constant has the height of the pulse and leaves nothing over. -/
theorem bestFit_exact (hn : 2 ≤ n) {fs : ℝ} (hfs : 0 < fs) {T x : ZMod n → ℝ} (hT : IsPulse fs T)
    {A χ A₀ B₀ : ℝ} {d₀ : ZMod n} (h : BestFit fs T x A χ)
    (hx : ∀ j, x j = A₀ * T (j - d₀) + B₀) : |A| = |A₀| ∧ χ = 0 := by
  obtain ⟨⟨d, B, e⟩, hle⟩ := h
  obtain ⟨r, h0, h1⟩ := pulse_range hn hfs hT
  have a := hle A₀ d₀ B₀
  rw [leftOver_zero.2 hx, zero_div] at a
  have hχ : χ = 0 := le_antisymm a (by rw [e]; exact div_nonneg (leftOver_nonneg ..) hfs.le)
  have hz : leftOver T x A d B = 0 := by
    rw [e] at hχ
    rcases div_eq_zero_iff.1 hχ with q | q
    · exact q
    · exact absurd q hfs.ne'
  have hx' := leftOver_zero.1 hz
  exact ⟨le_antisymm (height_le r h0 h1 hx hx') (height_le r h0 h1 hx' hx), hχ⟩

omit [NeZero n] in
theorem pulse_unique_of {fs : ℝ} {T T' : ZMod n → ℝ} (h : IsPulse fs T) (h' : IsPulse fs T') :
    T = T' := by
  obtain ⟨c, hc, ⟨K, hK, hT⟩, h1, i, hi⟩ := h
  obtain ⟨c', hc', ⟨K', hK', hT'⟩, h1', i', hi'⟩ := h'
  have e : c = c' := by
    unfold IsMiddle at hc hc'
    omega
  subst e
  have hr : 0 < riseFall (((i.val : ℝ) + 1 - c) / fs) :=
    (mul_pos_iff_of_pos_left hK).1 (by rw [← hT, hi]; exact one_pos)
  have hr' : 0 < riseFall (((i'.val : ℝ) + 1 - c) / fs) :=
    (mul_pos_iff_of_pos_left hK').1 (by rw [← hT', hi']; exact one_pos)
  have hKK : K = K' := by
    refine le_antisymm (le_of_mul_le_mul_right ?_ hr') (le_of_mul_le_mul_right ?_ hr)
    · rw [← hT, ← hT', hi']; exact h1 i'
    · rw [← hT, ← hT', hi]; exact h1' i
  subst hKK
  funext j
  rw [hT, hT']

end Verif.Cut
