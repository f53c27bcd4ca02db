import Verif.OFOtherLemmas
import Verif.OFRateLemmas

/-!
Property C157: a filter made with a spectrum which is not exactly that of the noise.
-/

namespace Verif.OF
open Verif Verif.Dft MeasureTheory

variable {n : ℕ} [NeZero n]
variable {Ω : Type*} [MeasurableSpace Ω] {μ : Measure Ω} {noise : Ω → ZMod n → ℝ} {R J : ZMod n → ℝ}
  {psd : ZMod n → WithTop ℝ} {fs : ℝ}

/-- The amplitude is right on average whatever the spectrum given to the filter. -/
theorem other_psd_mean [IsProbabilityMeasure μ] (h : Stationary μ noise R) (hpsd : ∀ k, 0 < psd k)
    (hs : ∀ k, psd (-k) = psd k) (hfs : 0 < fs) (ac : Bool) {T : ZMod n → ℝ} {k : ZMod n} (hu : Used psd ac k)
    (hT : fftR T k ≠ 0) (a : ℝ) (wc : ℤ) :
    ∫ ω, (nodelay (init (pulse T a wc (noise ω)) T psd fs ac false) wc).1.1 ∂μ = a := by
  refine nodelay_mean h hs hfs.ne' ac T (ne_of_gt ?_) a wc
  obtain ⟨p, h1, h2⟩ := weight_used hu
  have hp : 0 < p := by have := hpsd k; rw [h1] at this; exact_mod_cast this
  have hn : (0 : ℝ) < n := Nat.cast_pos.2 (Nat.pos_of_ne_zero (NeZero.ne n))
  have hk : 0 < ‖fftR T k / (fs : ℂ)‖ := by
    rw [norm_pos_iff]
    exact div_ne_zero hT (by exact_mod_cast hfs.ne')
  have h0 : 0 < ‖fftR T k / (fs : ℂ)‖ ^ 2 * weight psd ac k * (fs / n) := by
    rw [h2]
    positivity
  refine h0.trans_le (Finset.single_le_sum (f := fun k => ‖fftR T k / (fs : ℂ)‖ ^ 2 * weight psd ac k * (fs / n))
    (fun j _ => ?_) (Finset.mem_univ k))
  have := weight_nonneg psd ac hpsd j
  positivity

/-- If the noise power is between `c` and `C` times that given to the filter, the variance of the amplitude is between `c`
and `C` times the square of the resolution which the filter reports. -/
theorem other_psd_resolution (h : Stationary μ noise R) (hR : HasPsd R fs fun k => (J k : WithTop ℝ))
    (hpsd : ∀ k, 0 < psd k) (hs : ∀ k, psd (-k) = psd k) (hfs : 0 < fs) (ac : Bool) (T : ZMod n → ℝ)
    (hN : 0 < traceChi2 fs (weight psd ac) T) {c C : ℝ} (hw : Within psd ac J c C) (a : ℝ) (wc : ℤ) (x : ZMod n → ℝ) :
    c * energyResolution (init x T psd fs ac false) ^ 2 ≤
      ∫ ω, ((nodelay (init (pulse T a wc (noise ω)) T psd fs ac false) wc).1.1 - a) ^ 2 ∂μ ∧
    ∫ ω, ((nodelay (init (pulse T a wc (noise ω)) T psd fs ac false) wc).1.1 - a) ^ 2 ∂μ ≤
      C * energyResolution (init x T psd fs ac false) ^ 2 := by
  simp only [nodelay_pulse hfs.ne' ac T hN.ne', add_sub_cancel_left, div_pow]
  rw [integral_div, (resolution_sq hN).2, pow_two (traceChi2 _ _ _), ← div_div, var_share h hR hs hfs,
    mul_one_div, mul_one_div, div_le_div_iff_of_pos_right hN, div_le_div_iff_of_pos_right hN]
  have := sum_within hpsd hw (f := share fs psd ac T) (fun k _ => (share_bounds hpsd hfs hN.ne' k).1)
    fun k hk => share_unused hk
  rwa [share_sum hN.ne', mul_one, mul_one] at this

/-- The filter made with the spectrum of the noise is never worse. -/
theorem other_psd_best (h : Stationary μ noise R) (hR : HasPsd R fs fun k => (J k : WithTop ℝ)) (hJ : ∀ k, 0 < J k)
    (hs : ∀ k, psd (-k) = psd k) (hfs : 0 < fs) (ac : Bool) (T : ZMod n → ℝ)
    (hN : 0 < traceChi2 fs (weight psd ac) T) (a : ℝ) (wc : ℤ) (x : ZMod n → ℝ) :
    energyResolution (init x T (fun k => (J k : WithTop ℝ)) fs ac false) ^ 2 ≤
      ∫ ω, ((nodelay (init (pulse T a wc (noise ω)) T psd fs ac false) wc).1.1 - a) ^ 2 ∂μ := by
  have hJ' : ∀ k, (0 : WithTop ℝ) < J k := fun k => by exact_mod_cast hJ k
  set g : ZMod n → ℝ := fun j => (traceChi2 fs (weight psd ac) T)⁻¹ * gOpt fs (weight psd ac) (roll T wc) j with hg
  have hest : Estimator (fun k => (J k : WithTop ℝ)) ac (roll T wc) g := by
    constructor
    · intro k hk
      have : ¬ Used psd ac k := fun hu => hk ⟨WithTop.coe_ne_top, hu.2⟩
      rw [hg, fftR_smul, gOpt_fft fs _ _ (weight_symm hs ac), weight_unused this]
      simp
    · simp only [hg, mul_assoc, ← Finset.mul_sum]
      rw [← ip_gOpt fs _ _ _ (weight_symm hs ac), ip_self, traceChi2_roll, inv_mul_cancel₀ hN.ne']
  have hge := h.var_ge hR hJ' hfs hest
  have hv : ∀ ω, (nodelay (init (pulse T a wc (noise ω)) T psd fs ac false) wc).1.1 - a = ∑ j, g j * noise ω j := by
    intro ω
    rw [nodelay_pulse hfs.ne' ac T hN.ne', add_sub_cancel_left, ip_gOpt fs _ _ _ (weight_symm hs ac)]
    simp only [hg, mul_assoc, ← Finset.mul_sum]
    rw [inv_mul_eq_div]
  simp only [hv]
  rw [traceChi2_roll] at hge
  have hNJ : 0 < traceChi2 fs (weight (fun k => (J k : WithTop ℝ)) ac) T := by
    rcases (ip_nonneg fs _ T hfs.le (weight_nonneg _ ac hJ')).lt_or_eq with h0 | h0
    · exact h0
    · have e0 : traceChi2 fs (weight (fun k => (J k : WithTop ℝ)) ac) T = 0 := h0.symm
      rw [e0, mul_zero] at hge
      linarith
  rw [(resolution_sq hNJ).2, div_le_iff₀ hNJ]
  exact hge

/-- Nor is it much better: if the noise power is between `c` and `C` times that given to the filter in every bin which the
right filter uses, the variance is at most `C / c` times the best possible one. -/
theorem other_psd_loss (h : Stationary μ noise R) (hR : HasPsd R fs fun k => (J k : WithTop ℝ)) (hJ : ∀ k, 0 < J k)
    (hpsd : ∀ k, 0 < psd k) (hfin : ∀ k, psd k ≠ ⊤) (hs : ∀ k, psd (-k) = psd k) (hfs : 0 < fs) (ac : Bool) (T : ZMod n → ℝ)
    (hN : 0 < traceChi2 fs (weight psd ac) T) {c C : ℝ} (hc : 0 < c) (hw : Within psd ac J c C) (a : ℝ) (wc : ℤ)
    (x : ZMod n → ℝ) :
    ∫ ω, ((nodelay (init (pulse T a wc (noise ω)) T psd fs ac false) wc).1.1 - a) ^ 2 ∂μ ≤
      C / c * energyResolution (init x T (fun k => (J k : WithTop ℝ)) fs ac false) ^ 2 := by
  have hJ' : ∀ k, (0 : WithTop ℝ) < J k := fun k => by exact_mod_cast hJ k
  have hle : ∀ k, c * weight (fun k => (J k : WithTop ℝ)) ac k ≤ weight psd ac k ∧
      weight psd ac k ≤ C * weight (fun k => (J k : WithTop ℝ)) ac k := by
    intro k
    by_cases hu : Used psd ac k
    · obtain ⟨-, e1, e2⟩ := within_weight hpsd hw hu
      obtain ⟨p, h1, h2⟩ := weight_used (psd := fun k => (J k : WithTop ℝ)) (ac := ac) (k := k) ⟨WithTop.coe_ne_top, hu.2⟩
      have h1 : J k = p := by exact_mod_cast h1
      rw [h2, ← h1, ← div_eq_mul_inv, ← div_eq_mul_inv, div_le_iff₀ (hJ k), le_div_iff₀ (hJ k)]
      exact ⟨e1, e2⟩
    · have : ¬ Used (fun k => (J k : WithTop ℝ)) ac k := fun h => hu ⟨hfin k, h.2⟩
      rw [weight_unused hu, weight_unused this, mul_zero, mul_zero]
      exact ⟨le_rfl, le_rfl⟩
  have hn : (0 : ℝ) < n := Nat.cast_pos.2 (Nat.pos_of_ne_zero (NeZero.ne n))
  have hNJ : c * traceChi2 fs (weight (fun k => (J k : WithTop ℝ)) ac) T ≤ traceChi2 fs (weight psd ac) T ∧
      traceChi2 fs (weight psd ac) T ≤ C * traceChi2 fs (weight (fun k => (J k : WithTop ℝ)) ac) T := by
    unfold traceChi2
    rw [Finset.mul_sum, Finset.mul_sum]
    constructor <;> refine Finset.sum_le_sum fun k _ => ?_
    · calc _ = ‖fftR T k / (fs : ℂ)‖ ^ 2 * (c * weight (fun k => (J k : WithTop ℝ)) ac k) * (fs / n) := by ring
        _ ≤ _ := by gcongr; exact (hle k).1
    · calc _ ≤ ‖fftR T k / (fs : ℂ)‖ ^ 2 * (C * weight (fun k => (J k : WithTop ℝ)) ac k) * (fs / n) := by
            gcongr; exact (hle k).2
        _ = _ := by ring
  have h0 : 0 ≤ traceChi2 fs (weight (fun k => (J k : WithTop ℝ)) ac) T :=
    ip_nonneg fs _ T hfs.le (weight_nonneg _ ac hJ')
  have hpos : 0 < traceChi2 fs (weight (fun k => (J k : WithTop ℝ)) ac) T := by
    rcases h0.lt_or_eq with h1 | h1
    · exact h1
    · rw [← h1, mul_zero] at hNJ
      linarith [hNJ.2]
  have hC : 0 < C := by
    by_contra hC
    have := mul_nonpos_of_nonpos_of_nonneg (not_lt.1 hC) h0
    linarith [hNJ.2]
  refine (other_psd_resolution h hR hpsd hs hfs ac T hN hw a wc x).2.trans ?_
  rw [(resolution_sq hN).2, (resolution_sq hpos).2, mul_one_div, mul_one_div, div_div,
    div_le_div_iff_of_pos_left hC hN (mul_pos hc hpos)]
  exact hNJ.1

/-- The chi-squares of the no-pulse hypothesis on noise and of the fit on noisy pulses are on average between `c` and `C`
times what they would be with the right spectrum. -/
theorem other_psd_chi2 (h : Stationary μ noise R) (hR : HasPsd R fs fun k => (J k : WithTop ℝ))
    (hpsd : ∀ k, 0 < psd k) (hs : ∀ k, psd (-k) = psd k) (hfs : 0 < fs) (ac : Bool) (T : ZMod n → ℝ)
    (hN : 0 < traceChi2 fs (weight psd ac) T) {c C : ℝ} (hw : Within psd ac J c C) (a : ℝ) (wc : ℤ) :
    (c * nUsed psd ac ≤ ∫ ω, (chi2Nopulse (init (noise ω) T psd fs ac false)).1 ∂μ ∧
      ∫ ω, (chi2Nopulse (init (noise ω) T psd fs ac false)).1 ∂μ ≤ C * nUsed psd ac) ∧
    c * (nUsed psd ac - 1) ≤ ∫ ω, (nodelay (init (pulse T a wc (noise ω)) T psd fs ac false) wc).1.2 ∂μ ∧
    ∫ ω, (nodelay (init (pulse T a wc (noise ω)) T psd fs ac false) wc).1.2 ∂μ ≤ C * (nUsed psd ac - 1) := by
  classical
  have hu : ∑ k, (if Used psd ac k then (1 : ℝ) else 0) = nUsed psd ac := by
    rw [nUsed, Finset.card_filter, Nat.cast_sum]
    exact Finset.sum_congr rfl fun k _ => by split_ifs <;> simp
  have hchi : ∫ ω, traceChi2 fs (weight psd ac) (noise ω) ∂μ =
      ∑ k, (if Used psd ac k then 1 else 0) * (weight psd ac k * J k) := by
    rw [h.chi hfs]
    refine Finset.sum_congr rfl fun k _ => ?_
    rw [psd_re hR]
    split_ifs with h1
    · field_simp
    · rw [weight_unused h1]
      simp
  constructor
  · simp only [chi2Nopulse, init_chi0]
    rw [hchi, ← hu]
    exact sum_within hpsd hw (fun k hk => by rw [if_pos hk]; exact zero_le_one) fun k hk => if_neg hk
  · simp only [nodelay_pulse hfs.ne' ac T hN.ne']
    rw [integral_sub (h.int_chi _ _), integral_div, var_share h hR hs hfs, hchi, ← Finset.sum_sub_distrib]
    · simp only [← sub_mul]
      have := sum_within hpsd hw (f := fun k => (if Used psd ac k then 1 else 0) - share fs psd ac T k)
        (fun k hk => by rw [if_pos hk]; linarith [(share_bounds (T := T) hpsd hfs hN.ne' k).2])
        fun k hk => by rw [if_neg hk, share_unused hk, sub_zero]
      rwa [Finset.sum_sub_distrib, hu, share_sum hN.ne'] at this
    · simp only [ip_gOpt fs _ _ _ (weight_symm hs ac), pow_two]
      exact (h.int_lin2 _ _).div_const _

/-- The hypotheses hold for white noise of power two made by `gen_noise`, a filter made for power one, and the one-bin
template: everything is off by exactly the factor two. -/
example : ∃ R, Stationary (normalDraws n) (fun ω => Noise.genNoise (fun _ : ZMod n => (2 : ℝ)) 1 ω) R ∧
    HasPsd R 1 (fun _ => ((2 : ℝ) : WithTop ℝ)) ∧
    0 < traceChi2 1 (weight (fun _ => ((1 : ℝ) : WithTop ℝ)) false) (delta : ZMod n → ℝ) ∧
    Within (fun _ => ((1 : ℝ) : WithTop ℝ)) false (fun _ : ZMod n => (2 : ℝ)) 2 2 ∧
    Used (fun _ => ((1 : ℝ) : WithTop ℝ)) false (0 : ZMod n) ∧ fftR (delta : ZMod n → ℝ) 0 ≠ 0 := by
  obtain ⟨R, h1, h2⟩ := genNoise_stationary (n := n) (fun _ => (2 : ℝ)) (fun _ => rfl) (fun _ => zero_le_two) zero_le_one
    normalDraws_stationary
  refine ⟨R, h1, h2, ?_, ?_, ⟨WithTop.coe_ne_top, by simp⟩, by rw [fftR_delta]; exact one_ne_zero⟩
  · have := delta_norm (n := n) 1
    rw [one_div_one] at this
    exact this.symm ▸ one_pos
  · rintro k p - hp
    have : (1 : ℝ) = p := WithTop.coe_injective hp
    rw [← this]
    norm_num

end Verif.OF
