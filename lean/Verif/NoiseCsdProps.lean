import Verif.NoiseCsdLemmas

/-! C95: the parts of the cross spectral density. -/

namespace Verif.Noise
open Verif Verif.Dft

variable {m c n : ℕ} [NeZero n]

/-- The CSD is Hermitian. -/
theorem csd_hermitian (traces : Fin m → Fin c → ZMod n → ℝ) (fs : ℝ) (i j : Fin c) (k : Half n) :
    (csdOf traces fs).csd j i k = starRingEnd ℂ ((csdOf traces fs).csd i j k) := by
  simp only [csdOf]
  rw [map_div₀, map_sum, Complex.conj_natCast]
  congr 1
  exact Finset.sum_congr rfl fun t _ => csd1_conj _ _ _ _

example : ((csdOf (fun (_ : Fin 1) (i : Fin 2) => spikeTrace (if i = 0 then 1 else 3)) 1).csd 0 1 1).im ≠ 0 := by
  rw [csd_im]
  simpa [avg] using csd1_spikes_one.ne

/-- Partial form of C95: positive parts are stored as they are, and all bins are stored as they are exactly
if this part of the CSD is positive in every bin or in none.  Missing: parts of both signs. -/
theorem csd_parts_partial (traces : Fin m → Fin c → ZMod n → ℝ) (fs : ℝ) (i j : Fin c) :
    (∀ k, 0 < ((csdOf traces fs).csd i j k).re →
      (csdOf traces fs).real i j k = ((csdOf traces fs).csd i j k).re) ∧
    (∀ k, 0 < ((csdOf traces fs).csd i j k).im →
      (csdOf traces fs).imag i j k = ((csdOf traces fs).csd i j k).im) ∧
    ((∀ k, (csdOf traces fs).real i j k = ((csdOf traces fs).csd i j k).re) ↔
      (∀ k, 0 < ((csdOf traces fs).csd i j k).re) ∨ ∀ k, ((csdOf traces fs).csd i j k).re ≤ 0) ∧
    ((∀ k, (csdOf traces fs).imag i j k = ((csdOf traces fs).csd i j k).im) ↔
      (∀ k, 0 < ((csdOf traces fs).csd i j k).im) ∨ ∀ k, ((csdOf traces fs).csd i j k).im ≤ 0) := by
  have hr : (csdOf traces fs).real i j = fillNeg fun k => ((csdOf traces fs).csd i j k).re := by
    simp only [csd_re]
    rfl
  have hi : (csdOf traces fs).imag i j = fillNeg fun k => ((csdOf traces fs).csd i j k).im := by
    simp only [csd_im]
    rfl
  rw [hr, hi]
  refine ⟨fun k h => fillNeg_pos _ k h, fun k h => fillNeg_pos _ k h, ?_, ?_⟩
  · rw [← fillNeg_eq_iff]
    exact funext_iff.symm
  · rw [← fillNeg_eq_iff]
    exact funext_iff.symm

example : 0 < ((csdOf (fun (_ : Fin 1) (i : Fin 2) => spikeTrace (if i = 0 then 1 else 3)) 1).csd 0 1 2).im := by
  rw [csd_im]
  simpa [avg] using csd1_spikes_two

/-- Full C95 is false: if the imaginary part of the CSD of two channels takes both signs, the stored
imaginary parts for both orders of the channels are positive at every frequency, although one is minus the
other; at zero frequency, where the CSD is real, too. -/
theorem csd_imag_violated (traces : Fin m → Fin c → ZMod n → ℝ) (fs : ℝ) (i j : Fin c)
    (hp : ∃ k, 0 < ((csdOf traces fs).csd i j k).im) (hn : ∃ k, ((csdOf traces fs).csd i j k).im < 0) :
    (∀ k, 0 < (csdOf traces fs).imag i j k ∧ 0 < (csdOf traces fs).imag j i k ∧
      (csdOf traces fs).imag j i k ≠ -(csdOf traces fs).imag i j k) ∧
    ((csdOf traces fs).csd i j 0).im = 0 := by
  have hi : ∀ i j, (csdOf traces fs).imag i j = fillNeg fun k => ((csdOf traces fs).csd i j k).im := by
    intro i j
    simp only [csd_im]
    rfl
  have hn' : ∃ k, 0 < ((csdOf traces fs).csd j i k).im := by
    obtain ⟨k, hk⟩ := hn
    refine ⟨k, ?_⟩
    rw [csd_hermitian, Complex.conj_im]
    linarith
  refine ⟨fun k => ?_, ?_⟩
  · have h1 : 0 < (csdOf traces fs).imag i j k := by
      rw [hi]
      exact fillNeg_all_pos _ hp k
    have h2 : 0 < (csdOf traces fs).imag j i k := by
      rw [hi]
      exact fillNeg_all_pos _ hn' k
    exact ⟨h1, h2, by linarith⟩
  · rw [csd_im]
    simp [csd1_zero_im, avg]

example : let traces : Fin 1 → Fin 2 → ZMod 6 → ℝ := fun _ i => spikeTrace (if i = 0 then 1 else 3)
    (∃ k, 0 < ((csdOf traces 1).csd 0 1 k).im) ∧ ∃ k, ((csdOf traces 1).csd 0 1 k).im < 0 := by
  refine ⟨⟨2, ?_⟩, ⟨1, ?_⟩⟩
  · rw [csd_im]
    simpa [avg] using csd1_spikes_two
  · rw [csd_im]
    simpa [avg] using csd1_spikes_one

/-- A negative real part is never stored when another bin is positive. -/
theorem csd_real_violated (traces : Fin m → Fin c → ZMod n → ℝ) (fs : ℝ) (i j : Fin c) {k : Half n}
    (hp : ∃ k, 0 < ((csdOf traces fs).csd i j k).re) (hn : ((csdOf traces fs).csd i j k).re < 0) :
    (csdOf traces fs).real i j k ≠ ((csdOf traces fs).csd i j k).re := by
  have hr : (csdOf traces fs).real i j = fillNeg fun k => ((csdOf traces fs).csd i j k).re := by
    simp only [csd_re]
    rfl
  have : 0 < (csdOf traces fs).real i j k := by
    rw [hr]
    exact fillNeg_all_pos _ hp k
  linarith

example : let traces : Fin 1 → Fin 2 → ZMod 6 → ℝ := fun _ i => spikeTrace (if i = 0 then 1 else 3)
    (∃ k, 0 < ((csdOf traces 1).csd 0 1 k).re) ∧ ((csdOf traces 1).csd 0 1 1).re < 0 := by
  have h0 := csdScale_six_pos 0
  have h1 := csdScale_six_pos 1
  refine ⟨⟨0, ?_⟩, ?_⟩
  · rw [csd_re]
    have : (csd1 (spikeTrace 1) (spikeTrace 3) 1 (0 : Half 6)).re = 1 / 4 * csdScale 6 1 0 := by
      rw [csd1_spikes, Complex.re_mul_ofReal, show -(2 * Half.bin (0 : Half 6)) = (0 : ZMod 6) by decide,
        e_zero]
      simp
    simp only [avg, Finset.univ_unique, Finset.sum_singleton]
    simpa [this] using h0
  · rw [csd_re]
    have : (csd1 (spikeTrace 1) (spikeTrace 3) 1 (1 : Half 6)).re = -(1 / 8 * csdScale 6 1 1) := by
      rw [csd1_spikes, Complex.re_mul_ofReal, show -(2 * Half.bin (1 : Half 6)) = -(2 : ZMod 6) by decide,
        ← conj_e, Complex.conj_re, e_six_two_re]
      ring
    simpa [avg, this] using h1

/-- Partial form of the standard deviations: a positive standard deviation is stored as it is; no stored
value is negative; for a single trace all are zero.  Missing: zero standard deviations. -/
theorem csd_std_partial (traces : Fin m → Fin c → ZMod n → ℝ) (fs : ℝ) (i j : Fin c) :
    (∀ k, 0 < std (fun t => (csd1 (traces t i) (traces t j) fs k).re) →
      realCsdStd traces fs i j k = std fun t => (csd1 (traces t i) (traces t j) fs k).re) ∧
    (∀ k, 0 < std (fun t => (csd1 (traces t i) (traces t j) fs k).im) →
      imagCsdStd traces fs i j k = std fun t => (csd1 (traces t i) (traces t j) fs k).im) ∧
    (∀ k, 0 ≤ realCsdStd traces fs i j k ∧ 0 ≤ imagCsdStd traces fs i j k) ∧
    (m = 1 → ∀ k, realCsdStd traces fs i j k = 0 ∧ imagCsdStd traces fs i j k = 0) := by
  have hnn : ∀ a : Half n → ℝ, (∀ k, 0 ≤ a k) → ∀ k, 0 ≤ fillNeg a k := by
    intro a ha k
    by_cases h : ∃ k, 0 < a k
    · exact (fillNeg_all_pos a h k).le
    · push Not at h
      rw [fillNeg_none a h]
      exact ha k
  refine ⟨fun k h => fillNeg_pos _ k h, fun k h => fillNeg_pos _ k h, fun k =>
    ⟨hnn _ (fun k => std_nonneg _) k, hnn _ (fun k => std_nonneg _) k⟩, ?_⟩
  rintro rfl k
  have h1 : ∀ f : Fin 1 → ℝ, std f = 0 := by
    intro f
    rw [show f = fun _ => f 0 from funext fun t => by rw [Subsingleton.elim t 0]]
    exact std_const _
  constructor
  · unfold realCsdStd
    rw [fillNeg_none _ fun k => (h1 _).le]
    exact h1 _
  · unfold imagCsdStd
    rw [fillNeg_none _ fun k => (h1 _).le]
    exact h1 _

example : let traces : Fin 2 → Fin 2 → ZMod 6 → ℝ := fun t i => spikeTrace (if i = 0 then 1 else if t = 0 then 3 else 1)
    0 < std (fun t => (csd1 (traces t 0) (traces t 1) 1 (2 : Half 6)).im) := spikes_std

/-- The stored standard deviation of the imaginary part is positive at zero frequency, where this part
vanishes for every trace, as soon as it varies at some other frequency. -/
theorem csd_std_violated (traces : Fin m → Fin c → ZMod n → ℝ) (fs : ℝ) (i j : Fin c)
    (h : ∃ k, 0 < std (fun t => (csd1 (traces t i) (traces t j) fs k).im)) :
    (∀ t, (csd1 (traces t i) (traces t j) fs (0 : Half n)).im = 0) ∧
    std (fun t => (csd1 (traces t i) (traces t j) fs (0 : Half n)).im) = 0 ∧
    0 < imagCsdStd traces fs i j 0 := by
  refine ⟨fun t => csd1_zero_im _ _ _, ?_, fillNeg_all_pos _ h 0⟩
  simp only [csd1_zero_im]
  exact std_const 0

example : let traces : Fin 2 → Fin 2 → ZMod 6 → ℝ := fun t i => spikeTrace (if i = 0 then 1 else if t = 0 then 3 else 1)
    ∃ k, 0 < std (fun t => (csd1 (traces t 0) (traces t 1) 1 (k : Half 6)).im) := ⟨2, spikes_std⟩

end Verif.Noise
