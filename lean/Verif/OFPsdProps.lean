import Verif.OFStatLemmas
import Verif.Noise

/-!
Property C111: the noise chi-square of the traces from which the PSD was made.
-/

namespace Verif.OF
open Verif Verif.Dft

variable {n : ℕ} [NeZero n] {m : ℕ}

/-- The mean of `chi2_nopulse` over the traces from which `calc_psd` made the PSD is exactly the number of
bins, less one for AC coupling, whatever the traces are. -/
theorem chi2_nopulse_own_psd (x : Fin m → ZMod n → ℝ) {fs : ℝ} (hfs : 0 < fs) (ac b : Bool)
    (T : ZMod n → ℝ) (hpos : ∀ k, 0 < Noise.calcPsdTwoSided x fs k) :
    Noise.avg (fun t => (chi2Nopulse (init (x t) T (fun k => Noise.calcPsdTwoSided x fs k) fs ac b)).1) =
      n - (if ac then 1 else 0) := by
  have h : Noise.avg (fun t => (chi2Nopulse (init (x t) T (fun k => Noise.calcPsdTwoSided x fs k) fs ac b)).1) =
      ∑ k, Noise.avg (fun t => ‖fftR (x t) k / (fs : ℂ)‖ ^ 2 *
        weight (fun k => (Noise.calcPsdTwoSided x fs k : WithTop ℝ)) ac k * (fs / n)) := by
    unfold Noise.avg
    rw [← Finset.sum_div, Finset.sum_comm]
    congr 1
    refine Finset.sum_congr rfl fun t _ => ?_
    simp only [chi2Nopulse, init_chi0, traceChi2]
  rw [h, Finset.sum_congr rfl fun k _ => psd_bin x hfs ac hpos k]
  cases ac
  · simp [ZMod.card]
  · simp only [true_and, if_true]
    rw [Finset.sum_ite, Finset.sum_const_zero, zero_add, Finset.sum_const, Finset.filter_not,
      Finset.filter_eq' Finset.univ (0 : ZMod n), if_pos (Finset.mem_univ _),
      Finset.card_sdiff_of_subset (Finset.subset_univ _), Finset.card_univ, ZMod.card,
      Finset.card_singleton, nsmul_eq_mul, mul_one, Nat.cast_sub (Nat.pos_of_ne_zero (NeZero.ne n))]
    simp

open Classical in
/-- `chi2_lowfreq` of no pulse counts the bins up to the cutoff in the same way. -/
theorem chi2_lowfreq_own_psd (x : Fin m → ZMod n → ℝ) {fs : ℝ} (hfs : 0 < fs) (ac b : Bool)
    (T : ZMod n → ℝ) (hpos : ∀ k, 0 < Noise.calcPsdTwoSided x fs k) (t0 fc : ℝ) :
    Noise.avg (fun t => (chi2Lowfreq
      (init (x t) T (fun k => Noise.calcPsdTwoSided x fs k) fs ac b) 0 t0 fc).1) =
      ((Finset.univ.filter fun k : ZMod n => ¬ (ac = true ∧ k = 0) ∧ |fftfreq fs k| ≤ fc).card : ℝ) := by
  have h : Noise.avg (fun t => (chi2Lowfreq
      (init (x t) T (fun k => Noise.calcPsdTwoSided x fs k) fs ac b) 0 t0 fc).1) =
      ∑ k, if |fftfreq fs k| ≤ fc then Noise.avg (fun t => ‖fftR (x t) k / (fs : ℂ)‖ ^ 2 *
        weight (fun k => (Noise.calcPsdTwoSided x fs k : WithTop ℝ)) ac k * (fs / n)) else 0 := by
    have e : ∀ k : ZMod n, (if |fftfreq fs k| ≤ fc then Noise.avg (fun t => ‖fftR (x t) k / (fs : ℂ)‖ ^ 2 *
        weight (fun k => (Noise.calcPsdTwoSided x fs k : WithTop ℝ)) ac k * (fs / n)) else 0) =
        (∑ t, if |fftfreq fs k| ≤ fc then ‖fftR (x t) k / (fs : ℂ)‖ ^ 2 *
          weight (fun k => (Noise.calcPsdTwoSided x fs k : WithTop ℝ)) ac k * (fs / n) else 0) / m := by
      intro k
      split_ifs
      · rfl
      · simp
    rw [Finset.sum_congr rfl fun k _ => e k, ← Finset.sum_div, Finset.sum_comm, Noise.avg]
    congr 1
    refine Finset.sum_congr rfl fun t _ => ?_
    simp only [chi2Lowfreq, init_freqs, init_v, init_w, init_df]
    refine Finset.sum_congr rfl fun k _ => ?_
    split_ifs
    · simp; ring
    · rfl
  rw [h, Finset.card_filter, Nat.cast_sum]
  refine Finset.sum_congr rfl fun k _ => ?_
  rw [psd_bin x hfs ac hpos]
  by_cases h1 : ac = true ∧ k = 0 <;> by_cases h2 : |fftfreq fs k| ≤ fc <;> simp [h1, h2]

/-- Fitting a pulse at any fixed delay to these traces brings the mean below the number of bins, by the mean of
`(amplitude / energy_resolution)²`. -/
theorem nodelay_own_psd (x : Fin m → ZMod n → ℝ) {fs : ℝ} (hfs : 0 < fs) (ac : Bool)
    (T : ZMod n → ℝ) (hpos : ∀ k, 0 < Noise.calcPsdTwoSided x fs k) (wc : ℤ) :
    let fit := fun t => nodelay (init (x t) T (fun k => Noise.calcPsdTwoSided x fs k) fs ac false) wc
    let σ := energyResolution (init T T (fun k => Noise.calcPsdTwoSided x fs k) fs ac false)
    Noise.avg (fun t => (fit t).1.2) = n - (if ac then 1 else 0) -
      Noise.avg (fun t => ((fit t).1.1 / σ) ^ 2) := by
  intro fit σ
  have hp' : ∀ k, (0 : WithTop ℝ) < (Noise.calcPsdTwoSided x fs k : WithTop ℝ) :=
    fun k => by exact_mod_cast hpos k
  rw [← chi2_nopulse_own_psd x hfs ac false T hpos]
  unfold Noise.avg
  rw [← sub_div, ← Finset.sum_sub_distrib]
  congr 1
  refine Finset.sum_congr rfl fun t _ => ?_
  have h1 : (fit t).1.2 = readChi0 (init (x t) T (fun k => Noise.calcPsdTwoSided x fs k) fs ac false) -
      (fit t).1.1 ^ 2 * (init (x t) T (fun k => Noise.calcPsdTwoSided x fs k) fs ac false).norm := rfl
  beta_reduce
  rw [h1, div_pow]
  simp only [σ, energyResolution, init_norm, div_pow, chi2Nopulse]
  rw [Real.sq_sqrt (ip_nonneg fs _ T hfs.le (weight_nonneg _ ac hp'))]
  simp

/-- One trace with a single spike has noise in every bin. -/
example : ∀ k : ZMod 4, 0 < Noise.calcPsdTwoSided (fun _ : Fin 1 => fun j : ZMod 4 => if j = 0 then (1 : ℝ) else 0)
    1 k := by
  intro k
  have h1 : fftR (fun j : ZMod 4 => if j = 0 then (1 : ℝ) else 0) k = 1 := by
    rw [fftR_apply, Finset.sum_eq_single 0]
    · simp
    · intro j _ hj; simp [hj]
    · simp
  simp [Noise.calcPsdTwoSided, Noise.avg, h1]

end Verif.OF
