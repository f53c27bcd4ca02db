import Verif.NoiseCsd
import Verif.NoiseObjProps

/-! Lemmas on the parts of the CSD. -/

namespace Verif.Noise
open Verif Verif.Dft

variable {m c n : ℕ} [NeZero n]

omit [NeZero n] in
theorem fillNeg_all_pos (a : Half n → ℝ) (h : ∃ k, 0 < a k) (k : Half n) : 0 < fillNeg a k := by
  obtain ⟨k0, h0⟩ := h
  unfold fillNeg
  have hl : (k : ℕ) < (Utils.fillNegatives (List.ofFn a)).length := by
    rw [Utils.fillNegatives_length, List.length_ofFn]
    exact k.2
  rw [List.getElem?_eq_getElem hl, Option.getD_some]
  exact Utils.fillNegatives_pos _ ⟨a k0, List.mem_ofFn.2 ⟨k0, rfl⟩, h0⟩ _ (List.getElem_mem _)

omit [NeZero n] in
theorem fillNeg_none (a : Half n → ℝ) (h : ∀ k, a k ≤ 0) : fillNeg a = a := by
  funext k
  unfold fillNeg
  rw [Utils.fillNegatives_none _ (by
    intro v hv
    obtain ⟨j, rfl⟩ := List.mem_ofFn.1 hv
    exact h j), List.getElem?_eq_getElem (by rw [List.length_ofFn]; exact k.2), List.getElem_ofFn]
  rfl

omit [NeZero n] in
/-- `fill_negatives` changes nothing exactly if all entries are positive, or none. -/
theorem fillNeg_eq_iff (a : Half n → ℝ) : fillNeg a = a ↔ (∀ k, 0 < a k) ∨ ∀ k, a k ≤ 0 := by
  constructor
  · intro h
    by_cases hp : ∃ k, 0 < a k
    · left
      intro k
      rw [← h]
      exact fillNeg_all_pos a hp k
    · push Not at hp
      exact Or.inr hp
  · rintro (h | h)
    · exact funext fun k => fillNeg_pos a k (h k)
    · exact fillNeg_none a h

theorem csd1_conj (x y : ZMod n → ℝ) (fs : ℝ) (k : Half n) :
    csd1 y x fs k = starRingEnd ℂ (csd1 x y fs k) := by
  unfold csd1
  rw [map_mul, map_mul, Complex.conj_conj, Complex.conj_ofReal]
  ring

theorem csd_re (traces : Fin m → Fin c → ZMod n → ℝ) (fs : ℝ) (i j : Fin c) (k : Half n) :
    ((csdOf traces fs).csd i j k).re = avg fun t => (csd1 (traces t i) (traces t j) fs k).re := by
  simp only [csdOf, avg]
  rw [show ((m : ℕ) : ℂ) = ((m : ℝ) : ℂ) by norm_num, Complex.div_ofReal_re, Complex.re_sum]

theorem csd_im (traces : Fin m → Fin c → ZMod n → ℝ) (fs : ℝ) (i j : Fin c) (k : Half n) :
    ((csdOf traces fs).csd i j k).im = avg fun t => (csd1 (traces t i) (traces t j) fs k).im := by
  simp only [csdOf, avg]
  rw [show ((m : ℕ) : ℂ) = ((m : ℝ) : ℂ) by norm_num, Complex.div_ofReal_im, Complex.im_sum]

/-- At zero frequency the transforms are real. -/
theorem csd1_zero_im (x y : ZMod n → ℝ) (fs : ℝ) : (csd1 x y fs (0 : Half n)).im = 0 := by
  have h : ∀ x : ZMod n → ℝ, ∃ r : ℝ, segFft x (0 : Half n) = r := by
    intro x
    refine ⟨∑ j, hann n j * (x j - (∑ i, x i) / n), ?_⟩
    unfold segFft rfft
    rw [show Half.bin (0 : Half n) = (0 : ZMod n) by simp [Half.bin], fftR_zero_bin]
  obtain ⟨a, ha⟩ := h x
  obtain ⟨b, hb⟩ := h y
  unfold csd1
  rw [ha, hb, Complex.conj_ofReal, ← Complex.ofReal_mul, ← Complex.ofReal_mul, Complex.ofReal_im]

theorem std_nonneg (f : Fin m → ℝ) : 0 ≤ std f := Real.sqrt_nonneg _

theorem std_const (a : ℝ) : std (fun _ : Fin m => a) = 0 := by
  unfold std avg
  rcases Nat.eq_zero_or_pos m with rfl | hm
  · simp
  · have : (m : ℝ) ≠ 0 := by positivity
    simp [this]

/-! A spike at bin `p` compensated at bin 0, where the window vanishes. -/

/-- The trace. -/
def spikeTrace (p : ZMod 6) (j : ZMod 6) : ℝ := if j = p then 1 else if j = 0 then -1 else 0

theorem spikeTrace_sum {p : ZMod 6} (hp : p ≠ 0) : ∑ j, spikeTrace p j = 0 := by
  have : ∀ j, spikeTrace p j = (if j = p then 1 else 0) - if j = 0 then 1 else 0 := by
    intro j
    unfold spikeTrace
    by_cases h1 : j = p
    · subst h1
      simp [hp]
    · rw [if_neg h1, if_neg h1]
      by_cases h2 : j = 0 <;> simp [h2]
  simp only [this, Finset.sum_sub_distrib, Finset.sum_ite_eq', Finset.mem_univ, if_true, sub_self]

theorem hann_zero : hann 6 0 = 0 := by
  norm_num [hann]

theorem segFft_spike {p : ZMod 6} (hp : p ≠ 0) (k : Half 6) :
    segFft (spikeTrace p) k = e (-(p * k.bin)) * (hann 6 p : ℂ) := by
  unfold segFft rfft
  rw [spikeTrace_sum hp, fftR_apply, Finset.sum_eq_single p]
  · simp [spikeTrace]
  · intro j _ hj
    by_cases h0 : j = 0
    · subst h0
      rw [hann_zero]
      simp
    · simp [spikeTrace, hj, h0]
  · simp

theorem hann_one : hann 6 1 = 1 / 4 := by
  have : (ZMod.val (1 : ZMod 6)) = 1 := rfl
  rw [hann, if_neg (by norm_num), this, show 2 * Real.pi * ((1 : ℕ) : ℝ) / ((6 : ℕ) : ℝ) = Real.pi / 3 by
    push_cast; ring, Real.cos_pi_div_three]
  norm_num

theorem hann_three : hann 6 3 = 1 := by
  have : (ZMod.val (3 : ZMod 6)) = 3 := rfl
  rw [hann, if_neg (by norm_num), this, show 2 * Real.pi * ((3 : ℕ) : ℝ) / ((6 : ℕ) : ℝ) = Real.pi by
    push_cast; ring, Real.cos_pi]
  norm_num

theorem e_six_two : (e (2 : ZMod 6)).im = Real.sqrt 3 / 2 := by
  have h : e (2 : ZMod 6) = Complex.exp (((2 * Real.pi / 3 : ℝ) : ℂ) * Complex.I) := by
    have := ZMod.stdAddChar_coe (N := 6) 2
    rw [show ((2 : ℤ) : ZMod 6) = 2 by rfl] at this
    rw [e, this]
    congr 1
    push_cast
    ring
  rw [h, Complex.exp_ofReal_mul_I_im, show 2 * Real.pi / 3 = Real.pi - Real.pi / 3 by ring,
    Real.sin_pi_sub, Real.sin_pi_div_three]

theorem e_six_two_re : (e (2 : ZMod 6)).re = -(1 / 2) := by
  have h : e (2 : ZMod 6) = Complex.exp (((2 * Real.pi / 3 : ℝ) : ℂ) * Complex.I) := by
    have := ZMod.stdAddChar_coe (N := 6) 2
    rw [show ((2 : ℤ) : ZMod 6) = 2 by rfl] at this
    rw [e, this]
    congr 1
    push_cast
    ring
  rw [h, Complex.exp_ofReal_mul_I_re, show 2 * Real.pi / 3 = Real.pi - Real.pi / 3 by ring,
    Real.cos_pi_sub, Real.cos_pi_div_three]

theorem csdScale_six_pos (k : Half 6) : 0 < csdScale 6 1 k := by
  have h : 0 < ∑ j : ZMod 6, hann 6 j ^ 2 := by
    refine lt_of_lt_of_le ?_ (Finset.single_le_sum (fun j _ => sq_nonneg (hann 6 j)) (Finset.mem_univ 3))
    rw [hann_three]
    norm_num
  unfold csdScale
  split_ifs <;> positivity

/-- The CSD of two spikes two bins apart turns with the frequency. -/
theorem csd1_spikes (k : Half 6) : csd1 (spikeTrace 1) (spikeTrace 3) 1 k =
    e (-(2 * k.bin)) * ((1 / 4 * csdScale 6 1 k : ℝ) : ℂ) := by
  unfold csd1
  rw [segFft_spike (by decide), segFft_spike (by decide), map_mul, conj_e, hann_one, hann_three,
    Complex.conj_ofReal, show -(2 * k.bin) = -(-(1 * k.bin)) + -(3 * k.bin) by ring, e_add]
  push_cast
  ring

theorem csd1_spikes_one : (csd1 (spikeTrace 1) (spikeTrace 3) 1 (1 : Half 6)).im < 0 := by
  rw [csd1_spikes, Complex.im_mul_ofReal, show -(2 * Half.bin (1 : Half 6)) = -(2 : ZMod 6) by decide,
    ← conj_e, Complex.conj_im, e_six_two]
  have := csdScale_six_pos 1
  have h3 : 0 < Real.sqrt 3 := Real.sqrt_pos.2 (by norm_num)
  have : 0 < Real.sqrt 3 / 2 * (1 / 4 * csdScale 6 1 1) := by positivity
  linarith

theorem csd1_spikes_two : 0 < (csd1 (spikeTrace 1) (spikeTrace 3) 1 (2 : Half 6)).im := by
  rw [csd1_spikes, Complex.im_mul_ofReal, show -(2 * Half.bin (2 : Half 6)) = (2 : ZMod 6) by decide,
    e_six_two]
  have := csdScale_six_pos 2
  have h3 : 0 < Real.sqrt 3 := Real.sqrt_pos.2 (by norm_num)
  positivity

theorem csd1_self_im (x : ZMod n → ℝ) (fs : ℝ) (k : Half n) : (csd1 x x fs k).im = 0 := by
  have := congrArg Complex.im (csd1_conj x x fs k)
  rw [Complex.conj_im] at this
  linarith

/-- Two pairs of traces, of which only the first has a complex CSD. -/
theorem spikes_std :
    let traces : Fin 2 → Fin 2 → ZMod 6 → ℝ := fun t i => spikeTrace (if i = 0 then 1 else if t = 0 then 3 else 1)
    0 < std (fun t => (csd1 (traces t 0) (traces t 1) 1 (2 : Half 6)).im) := by
  have h := csd1_spikes_two
  set a := (csd1 (spikeTrace 1) (spikeTrace 3) 1 (2 : Half 6)).im with ha
  have hf : (fun t : Fin 2 => (csd1 (spikeTrace 1) (spikeTrace (if t = 0 then 3 else 1)) 1 (2 : Half 6)).im) =
      fun t => if t = 0 then a else 0 := by
    funext t
    by_cases ht : t = 0
    · simp [ht, ha]
    · simp [ht, csd1_self_im]
  have : std (fun t : Fin 2 => (csd1 (spikeTrace 1) (spikeTrace (if t = 0 then 3 else 1)) 1 (2 : Half 6)).im) =
      Real.sqrt (a ^ 2 / 4) := by
    rw [hf]
    unfold std avg
    congr 1
    simp [Fin.sum_univ_two]
    ring
  intro traces
  have h2 : 0 < Real.sqrt (a ^ 2 / 4) := Real.sqrt_pos.2 (by positivity)
  rw [← this] at h2
  exact h2

end Verif.Noise
