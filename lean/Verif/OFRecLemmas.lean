import Verif.OFRecSpec
import Verif.OFLemmas
import Mathlib.Data.Set.Card

/-! Helper lemmas for C118. -/

namespace Verif.OF
open Verif Verif.Dft

variable {n : ℕ} [NeZero n]

theorem pulses_single (T : ZMod n → ℝ) (d : ZMod n) (a b : ℝ) :
    pulses T (Pi.single d a) b = fun j => a * roll T d j + b := by
  funext j
  unfold pulses
  rw [Finset.sum_eq_single d]
  · rw [Pi.single_eq_same]
  · intro e _ he
    rw [Pi.single_eq_of_ne he, zero_mul]
  · simp

theorem pulses_sub (T c e : ZMod n → ℝ) (b b' : ℝ) :
    pulses T (c - e) (b - b') = fun j => pulses T c b j - pulses T e b' j := by
  funext j
  unfold pulses
  simp only [Pi.sub_apply, sub_mul, Finset.sum_sub_distrib]
  ring

theorem pulses_add (T c e : ZMod n → ℝ) (b b' : ℝ) :
    pulses T (c + e) (b + b') = fun j => pulses T c b j + pulses T e b' j := by
  funext j
  unfold pulses
  simp only [Pi.add_apply, add_mul, Finset.sum_add_distrib]
  ring

omit [NeZero n] in
theorem ncard_le {c : ZMod n → ℝ} (s : Finset (ZMod n)) (h : ∀ d, c d ≠ 0 → d ∈ s) {r : ℕ} (hr : s.card ≤ r) :
    {d | c d ≠ 0}.ncard ≤ r := by
  refine le_trans (Set.ncard_le_ncard (t := (s : Set (ZMod n))) (fun d hd => h d hd) s.finite_toSet) ?_
  rwa [Set.ncard_coe_finset]

/-- Two pulses that cannot be told apart are the same. -/
theorem same_pulse {fs : ℝ} {wt T : ZMod n → ℝ} (hT : Distinguishable fs wt T 2) {A a : ℝ} {k d : ZMod n}
    (hA : A ≠ 0) (h : traceChi2 fs wt (fun j => A * roll T k j - a * roll T d j) = 0) : a = A ∧ d = k := by
  have e := pulses_sub T (Pi.single k A) (Pi.single d a) 0 0
  simp only [pulses_single, sub_self, add_zero] at e
  have h0 := hT (Pi.single k A - Pi.single d a) (ncard_le {k, d} (fun x hx => by
    by_contra hn
    simp only [Finset.mem_insert, Finset.mem_singleton, not_or] at hn
    exact hx (by simp [Pi.single_eq_of_ne hn.1, Pi.single_eq_of_ne hn.2])) Finset.card_le_two) (by rw [e]; exact h)
  have hk := congrFun h0 k
  simp only [Pi.sub_apply, Pi.single_eq_same, Pi.zero_apply] at hk
  by_cases hd : d = k
  · subst hd
    rw [Pi.single_eq_same] at hk
    exact ⟨by linarith, rfl⟩
  · rw [Pi.single_eq_of_ne (Ne.symm hd)] at hk
    exact absurd (by linarith) hA

/-- The same delay among the bins of the trace. -/
theorem same_delay {d k : ℤ} (h : (d : ZMod n) = (k : ZMod n)) (hd : 0 ≤ d + (n : ℤ) / 2 ∧ d + (n : ℤ) / 2 < n)
    (hk : 0 ≤ k + (n : ℤ) / 2 ∧ k + (n : ℤ) / 2 < n) : d = k := by
  rw [ZMod.intCast_eq_intCast_iff] at h
  have := Int.emod_emod_of_dvd (d - k) (dvd_refl (n : ℤ))
  have h2 : (n : ℤ) ∣ d - k := h.symm.dvd
  obtain ⟨q, hq⟩ := h2
  have hn : (0 : ℤ) < n := by exact_mod_cast NeZero.pos n
  have : q = 0 := by
    by_contra hq0
    rcases lt_or_gt_of_ne hq0 with h | h
    · nlinarith
    · nlinarith
  rw [this] at hq
  omega

theorem chi2_zero_trace (fs : ℝ) (wt : ZMod n → ℝ) {r : ZMod n → ℝ} (h : r = fun _ => 0) : traceChi2 fs wt r = 0 := by
  subst h
  have : fftR (fun _ : ZMod n => (0 : ℝ)) = 0 := by
    funext k
    rw [fftR_apply]
    simp
  simp [traceChi2, this]

/-- With few pulses one of three bins is empty. -/
theorem one_empty {c : ZMod n → ℝ} (h : {d | c d ≠ 0}.ncard ≤ 2) {x y z : ZMod n} (hxy : x ≠ y) (hxz : x ≠ z)
    (hyz : y ≠ z) : c x = 0 ∨ c y = 0 ∨ c z = 0 := by
  by_contra hn
  push Not at hn
  have hs : ((({x, y, z} : Finset (ZMod n)) : Set (ZMod n))) ⊆ {d | c d ≠ 0} := by
    intro d hd
    simp only [Finset.coe_insert, Finset.coe_singleton, Set.mem_insert_iff, Set.mem_singleton_iff] at hd
    rcases hd with rfl | rfl | rfl
    exacts [hn.1, hn.2.1, hn.2.2]
  have := Set.ncard_le_ncard hs (Set.toFinite _)
  rw [Set.ncard_coe_finset, Finset.card_eq_three.2 ⟨x, y, z, hxy, hxz, hyz, rfl⟩] at this
  omega

theorem pulses_delta (c : ZMod n → ℝ) (b : ℝ) (j : ZMod n) : pulses delta c b j = c j + b := by
  unfold pulses
  rw [Finset.sum_eq_single j]
  · simp [roll, delta]
  · intro d _ hd
    simp [roll, delta, sub_eq_zero, hd.symm]
  · simp

theorem white_zero {r : ZMod n → ℝ} (h : traceChi2 1 (weight white false) r = 0) (j : ZMod n) : r j = 0 := by
  rw [traceChi2_white, div_one, Finset.sum_eq_zero_iff_of_nonneg fun j _ => by positivity] at h
  exact pow_eq_zero_iff two_ne_zero |>.1 (h j (Finset.mem_univ j))

/-- Independent templates on 8 bins: a signal of one bin, a constant and an alternating background. -/
theorem indep_ex : ∀ (s : ZMod 8 → ℝ) (b : Fin 2 → ℝ), {d | s d ≠ 0}.ncard ≤ 2 →
    (∀ j, pulses (delta : ZMod 8 → ℝ) s 0 j +
      ∑ i, b i * (![fun _ => 1, fun j => if Even j.val then 1 else -1] : Fin 2 → ZMod 8 → ℝ) i j = 0) →
    s = 0 ∧ b = 0 := by
  intro s b hs h
  have hj : ∀ j : ZMod 8, s j + (b 0 + b 1 * (if Even j.val then 1 else -1)) = 0 := by
    intro j
    have := h j
    rw [pulses_delta, Fin.sum_univ_two] at this
    simp only [Matrix.cons_val_zero, Matrix.cons_val_one] at this
    linarith
  have he : b 0 + b 1 = 0 := by
    rcases one_empty hs (show (0 : ZMod 8) ≠ 2 by decide) (show (0 : ZMod 8) ≠ 4 by decide)
      (show (2 : ZMod 8) ≠ 4 by decide) with e | e | e
    · have := hj 0; rw [e, if_pos (by decide)] at this; linarith
    · have := hj 2; rw [e, if_pos (by decide)] at this; linarith
    · have := hj 4; rw [e, if_pos (by decide)] at this; linarith
  have ho : b 0 - b 1 = 0 := by
    rcases one_empty hs (show (1 : ZMod 8) ≠ 3 by decide) (show (1 : ZMod 8) ≠ 5 by decide)
      (show (3 : ZMod 8) ≠ 5 by decide) with e | e | e
    · have := hj 1; rw [e, if_neg (by decide)] at this; linarith
    · have := hj 3; rw [e, if_neg (by decide)] at this; linarith
    · have := hj 5; rw [e, if_neg (by decide)] at this; linarith
  have h0 : b 0 = 0 := by linarith
  have h1 : b 1 = 0 := by linarith
  refine ⟨funext fun j => ?_, funext fun i => ?_⟩
  · have := hj j
    rw [h0, h1] at this
    simpa using this
  · fin_cases i
    exacts [h0, h1]

end Verif.OF
