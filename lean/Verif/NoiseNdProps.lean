import Verif.NoiseNd
import Verif.NoiseProps
import Verif.OFLemmas

/-! Property C121: `calc_psd` of an array with several channels. -/

namespace Verif.Noise
open Verif Verif.Dft

variable {n : ℕ} [NeZero n] {m c : ℕ} {ι : Type*}

/-- Two-sided: the spectrum of each channel is the one of that channel alone, and adds up to its mean square. -/
theorem psd_channel_two_sided (x : Fin m → Fin c → ι → ZMod n → ℝ) (fs : ℝ) (hfs : 0 < fs) (i : Fin c) (l : ι) :
    calcPsdTwoSidedNd x fs i l = calcPsdTwoSided (fun t => x t i l) fs ∧
    ∑ k, calcPsdTwoSidedNd x fs i l k * (fs / n) = avg fun t => (∑ j, x t i l j ^ 2) / n :=
  ⟨rfl, (calcPsd_parseval (fun t => x t i l) fs hfs).1⟩

/-- Folded: a bin of a channel is right only if the channel number happens to lie in the range of bins to be doubled
exactly when the bin does (or there is nothing in it). -/
theorem psd_channel_folded_partial (x : Fin m → Fin c → ι → ZMod n → ℝ) (fs : ℝ) (hfs : 0 < fs) (hm : 0 < m)
    (i : Fin c) (l : ι) (k : Half n) :
    calcPsdFoldedNd x fs i l k = calcPsdFolded (fun t => x t i l) fs k ↔
      ((1 ≤ (i : ℕ) ∧ 2 * (i : ℕ) < n) ↔ (1 ≤ (k : ℕ) ∧ 2 * (k : ℕ) < n)) ∨ ∀ t, rfft (x t i l) k = 0 := by
  have hn : 0 < n := NeZero.pos n
  have hb : ∀ j : ℕ, (1 ≤ j ∧ j < n / 2 + 1 - (n + 1) % 2) ↔ (1 ≤ j ∧ 2 * j < n) := by
    intro j; omega
  have h0 : meanSpectrum x fs i l k = 0 ↔ ∀ t, rfft (x t i l) k = 0 := by
    unfold meanSpectrum avg
    have hn' : (n : ℝ) ≠ 0 := by exact_mod_cast hn.ne'
    have hm' : (m : ℝ) ≠ 0 := by exact_mod_cast hm.ne'
    rw [div_eq_zero_iff, div_eq_zero_iff, or_iff_left (mul_ne_zero hfs.ne' hn'), or_iff_left hm',
      Finset.sum_eq_zero_iff_of_nonneg (fun _ _ => sq_nonneg _)]
    simp
  unfold calcPsdFoldedNd calcPsdFolded mulSlice
  rw [← h0]
  simp only [hb]
  change (if _ then meanSpectrum x fs i l k * 2 else meanSpectrum x fs i l k) =
    (if _ then meanSpectrum x fs i l k * 2 else meanSpectrum x fs i l k) ↔ _
  by_cases h1 : 1 ≤ (i : ℕ) ∧ 2 * (i : ℕ) < n <;> by_cases h2 : 1 ≤ (k : ℕ) ∧ 2 * (k : ℕ) < n
  · simp [h1, h2]
  · rw [if_pos h1, if_neg h2]
    rw [or_iff_right fun h => h2 (h.1 h1)]
    constructor <;> intro h <;> linarith
  · rw [if_neg h1, if_pos h2]
    rw [or_iff_right fun h => h1 (h.2 h2)]
    constructor <;> intro h <;> linarith
  · rw [if_neg h1, if_neg h2]
    simp [h1, h2]

/-- Two channels with the same unit impulse of eight samples, taken at 1 Hz: the first one has lost half of its power in
between, the second one has twice the power at zero frequency. -/
theorem psd_channel_violated :
    let x : Fin 1 → Fin 2 → Unit → ZMod 8 → ℝ := fun _ _ _ => OF.delta
    calcPsdFoldedNd x 1 0 () 1 = 1 / 8 ∧ calcPsdFoldedNd x 1 1 () 1 = 1 / 4 ∧
    calcPsdFolded (fun t => x t 0 ()) 1 1 = 1 / 4 ∧
    calcPsdFoldedNd x 1 1 () 0 = 1 / 4 ∧ calcPsdFolded (fun t => x t 1 ()) 1 0 = 1 / 8 ∧
    ∑ k, calcPsdFoldedNd x 1 0 () k * (1 / 8) ≠ avg fun t => (∑ j, x t 0 () j ^ 2) / 8 := by
  intro x
  have hr : ∀ t i l k, rfft (x t i l) k = 1 := fun t i l k => OF.fftR_delta _
  have hms : ∀ i l k, meanSpectrum x 1 i l k = 1 / 8 := by
    intro i l k
    simp [meanSpectrum, avg, hr]
  refine ⟨?_, ?_, ?_, ?_, ?_, ?_⟩
  · simp [calcPsdFoldedNd, hms]
  · norm_num [calcPsdFoldedNd, hms]
  · norm_num [calcPsdFolded, mulSlice, avg, hr]
  · norm_num [calcPsdFoldedNd, hms]
  · norm_num [calcPsdFolded, mulSlice, avg, hr]
  · norm_num [calcPsdFoldedNd, hms, avg, x, OF.delta]

end Verif.Noise
