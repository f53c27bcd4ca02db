import Verif.OFStatLemmas
import Verif.OF
import Mathlib.Probability.Distributions.Gaussian.Real
import Mathlib.Probability.Independence.Integration

/-!
Property C110: what the optimum filter reports on noisy pulses, on average over the noise.
-/

namespace Verif.OF
open Verif Verif.Dft MeasureTheory

variable {n : ℕ} [NeZero n]
variable {Ω : Type*} [MeasurableSpace Ω] {μ : Measure Ω} {noise : Ω → ZMod n → ℝ} {R : ZMod n → ℝ}
  {psd : ZMod n → WithTop ℝ} {fs : ℝ}

/-- Unbiased: the mean fitted amplitude is the true one. -/
theorem nodelay_mean [IsProbabilityMeasure μ] (h : Stationary μ noise R) (hs : ∀ k, psd (-k) = psd k)
    (hfs : fs ≠ 0) (ac : Bool) (T : ZMod n → ℝ) (hN : traceChi2 fs (weight psd ac) T ≠ 0) (a : ℝ) (wc : ℤ) :
    ∫ ω, (nodelay (init (pulse T a wc (noise ω)) T psd fs ac false) wc).1.1 ∂μ = a := by
  simp only [nodelay_pulse hfs ac T hN, ip_gOpt fs _ _ _ (weight_symm hs ac)]
  rw [integral_add (integrable_const _) ((h.int_lin _).div_const _), integral_div, h.lin]
  simp

/-- The spread of the fitted amplitude is `energy_resolution`. -/
theorem nodelay_variance (h : Stationary μ noise R) (hR : HasPsd R fs psd) (hpsd : ∀ k, 0 < psd k)
    (hs : ∀ k, psd (-k) = psd k) (hfs : 0 < fs) (ac : Bool) (T : ZMod n → ℝ)
    (hN : traceChi2 fs (weight psd ac) T ≠ 0) (a : ℝ) (wc : ℤ) (x : ZMod n → ℝ) :
    ∫ ω, ((nodelay (init (pulse T a wc (noise ω)) T psd fs ac false) wc).1.1 - a) ^ 2 ∂μ =
      energyResolution (init x T psd fs ac false) ^ 2 := by
  simp only [nodelay_pulse hfs.ne' ac T hN, add_sub_cancel_left, div_pow]
  rw [integral_div, h.ip_sq hR hpsd hs hfs, traceChi2_roll, energyResolution, init_norm, div_pow,
    Real.sq_sqrt (ip_nonneg fs _ T hfs.le (weight_nonneg psd ac hpsd))]
  field_simp

/-- Optimal: the filter is a linear estimator of the amplitude, and no other one that looks at the same
bins and is right on noise-free pulses has a smaller spread. -/
theorem nodelay_best (h : Stationary μ noise R) (hR : HasPsd R fs psd) (hpsd : ∀ k, 0 < psd k)
    (hs : ∀ k, psd (-k) = psd k) (hfs : 0 < fs) (ac : Bool) (T : ZMod n → ℝ)
    (hN : traceChi2 fs (weight psd ac) T ≠ 0) (wc : ℤ) :
    (∃ g, Estimator psd ac (roll T wc) g ∧
      ∀ x, (nodelay (init x T psd fs ac false) wc).1.1 = ∑ j, g j * x j) ∧
    ∀ g, Estimator psd ac (roll T wc) g → ∀ a,
      ∫ ω, ((nodelay (init (pulse T a wc (noise ω)) T psd fs ac false) wc).1.1 - a) ^ 2 ∂μ ≤
        ∫ ω, ((∑ j, g j * pulse T a wc (noise ω) j) - a) ^ 2 ∂μ := by
  have hN0 : 0 < traceChi2 fs (weight psd ac) T :=
    lt_of_le_of_ne (ip_nonneg fs _ T hfs.le (weight_nonneg psd ac hpsd)) hN.symm
  constructor
  · have hamp : ∀ x, (nodelay (init x T psd fs ac false) wc).1.1 =
        ∑ j, (traceChi2 fs (weight psd ac) T)⁻¹ * gOpt fs (weight psd ac) (roll T wc) j * x j := by
      intro x
      rw [init_nodelay_amp _ _ _ _ _ hfs.ne', init_sfTd, init_norm, ip_gOpt fs _ _ _ (weight_symm hs ac)]
      simp only [mul_assoc, ← Finset.mul_sum]
      ring
    refine ⟨_, ⟨fun k hk => ?_, ?_⟩, hamp⟩
    · rw [fftR_smul, gOpt_fft fs _ _ (weight_symm hs ac), weight_unused hk]; simp
    · simp only [mul_assoc, ← Finset.mul_sum]
      rw [← ip_gOpt fs _ _ _ (weight_symm hs ac), ip_self, traceChi2_roll, inv_mul_cancel₀ hN]
  · intro g hg a
    rw [nodelay_variance h hR hpsd hs hfs ac T hN a wc T, energyResolution, init_norm, div_pow,
      Real.sq_sqrt hN0.le, one_pow, div_le_iff₀ hN0]
    have := h.var_ge hR hpsd hfs hg
    rw [traceChi2_roll] at this
    have e : ∀ ω, (∑ j, g j * pulse T a wc (noise ω) j) - a = ∑ j, g j * noise ω j := by
      intro ω
      simp only [pulse, mul_add, Finset.sum_add_distrib, mul_left_comm _ a, ← Finset.mul_sum, hg.unit]
      ring
    simpa only [e] using this

/-- On noise alone `chi2_nopulse` is on average the number of bins used. -/
theorem chi2_nopulse_mean (h : Stationary μ noise R) (hR : HasPsd R fs psd) (hpsd : ∀ k, 0 < psd k)
    (hfs : 0 < fs) (ac b : Bool) (T : ZMod n → ℝ) :
    ∫ ω, (chi2Nopulse (init (noise ω) T psd fs ac b)).1 ∂μ = nUsed psd ac := by
  classical
  simp only [chi2Nopulse, init_chi0]
  rw [h.chi hfs]
  rw [nUsed, Finset.card_filter, Nat.cast_sum]
  refine Finset.sum_congr rfl fun k _ => ?_
  by_cases hu : Used psd ac k
  · rw [(psd_weight hR hpsd ac hu).2, div_self hfs.ne']
    simp [hu]
  · simp [hu, weight_unused hu]

/-- On noisy pulses the chi-square of the fit is on average one less. -/
theorem nodelay_chi2_mean (h : Stationary μ noise R) (hR : HasPsd R fs psd) (hpsd : ∀ k, 0 < psd k)
    (hs : ∀ k, psd (-k) = psd k) (hfs : 0 < fs) (ac : Bool) (T : ZMod n → ℝ)
    (hN : traceChi2 fs (weight psd ac) T ≠ 0) (a : ℝ) (wc : ℤ) :
    ∫ ω, (nodelay (init (pulse T a wc (noise ω)) T psd fs ac false) wc).1.2 ∂μ = nUsed psd ac - 1 := by
  simp only [nodelay_pulse hfs.ne' ac T hN]
  rw [integral_sub (h.int_chi _ _), integral_div, h.ip_sq hR hpsd hs hfs, traceChi2_roll, div_self hN]
  · rw [← chi2_nopulse_mean h hR hpsd hfs ac false T]
    simp only [chi2Nopulse, init_chi0]
  · simp only [ip_gOpt fs _ _ _ (weight_symm hs ac), pow_two]
    exact (h.int_lin2 _ _).div_const _

open Classical in
/-- With the true amplitude and time, `chi2_lowfreq` is on average the number of bins used up to the cutoff. -/
theorem chi2_lowfreq_mean (h : Stationary μ noise R) (hR : HasPsd R fs psd) (hpsd : ∀ k, 0 < psd k)
    (hfs : 0 < fs) (ac : Bool) (T : ZMod n → ℝ) (a fc : ℝ) (wc : ℤ) :
    ∫ ω, (chi2Lowfreq (init (pulse T a wc (noise ω)) T psd fs ac false) a (wc / fs) fc).1 ∂μ =
      ((Finset.univ.filter fun k : ZMod n => Used psd ac k ∧ |fftfreq fs k| ≤ fc).card : ℝ) := by
  have hn : (n : ℝ) ≠ 0 := Nat.cast_ne_zero.2 (NeZero.ne n)
  have e1 : ∀ ω k, (init (pulse T a wc (noise ω)) T psd fs ac false).v k -
      (a : ℂ) * Complex.exp (-2 * Complex.I * Real.pi * ((wc / fs : ℝ) : ℂ) * (fftfreq fs k : ℝ)) *
        (init (pulse T a wc (noise ω)) T psd fs ac false).s k = fftR (noise ω) k / (fs : ℂ) := by
    intro ω k
    have hexp : Complex.exp (-2 * Complex.I * Real.pi * ((wc / fs : ℝ) : ℂ) * (fftfreq fs k : ℝ)) =
        e (-((wc : ZMod n) * k)) := by
      have := exp_freq fs hfs.ne' (-wc) k (-(wc / fs)) (by push_cast; ring)
      push_cast at this
      rw [← neg_mul, ← this]
      congr 1; push_cast; ring
    rw [hexp, init_v, init_s]
    unfold pulse
    rw [fftR_add (fun j => a * roll T (wc : ZMod n) j), fftR_smul, fftR_roll]
    ring
  simp only [chi2Lowfreq, init_freqs, e1, init_w, init_df]
  rw [integral_finsetSum]
  · rw [← sum_used hR hpsd hfs ac]
    refine Finset.sum_congr rfl fun k _ => ?_
    split_ifs
    · simp only [norm_div, div_pow]
      rw [integral_mul_const, integral_const_mul, integral_div, h.bin, Complex.norm_real, Real.norm_eq_abs,
        sq_abs]
      field_simp
    · simp
  · intro k _
    split_ifs
    · simp only [norm_div, div_pow]
      exact (((h.int_bin k).div_const _).const_mul _).mul_const _
    · exact integrable_zero _ _ _

/-! ### Generated noise -/

/-- Uncorrelated unit-variance draws turn into stationary noise with the PSD asked of `gen_noise`. -/
theorem genNoise_stationary {vals : Ω → ZMod n → ℝ} [IsFiniteMeasure μ] (psd : ZMod n → ℝ)
    (hs : ∀ k, psd (-k) = psd k) (hp : ∀ k, 0 ≤ psd k) (hfs : 0 ≤ fs)
    (h : Stationary μ vals fun d => if d = 0 then 1 else 0) :
    ∃ R, Stationary μ (fun ω => Noise.genNoise psd fs (vals ω)) R ∧
      HasPsd R fs fun k => (psd k : WithTop ℝ) :=
  ⟨_, genNoise_stationary_aux psd fs hs h, genCov_psd psd fs hs hp hfs⟩

open ProbabilityTheory in
/-- They are uncorrelated with unit variance. -/
theorem normalDraws_stationary :
    Stationary (normalDraws n) (fun ω => ω) fun d => if d = 0 then 1 else 0 := by
  have hm : ∀ i : ZMod n, MeasurePreserving (Function.eval i) (normalDraws n) (gaussianReal 0 1) :=
    fun i => measurePreserving_eval _ i
  have hL : ∀ i : ZMod n, MemLp (fun ω : ZMod n → ℝ => ω i) 2 (normalDraws n) := fun i =>
    (memLp_id_gaussianReal (μ := 0) (v := 1) 2).comp_measurePreserving (hm i)
  have h0 : ∀ i : ZMod n, ∫ ω, ω i ∂(normalDraws n) = 0 := by
    intro i
    have := (hm i).hasLaw.integral_eq
    simp only [Function.eval] at this
    rw [this, integral_id_gaussianReal]
  refine ⟨hL, h0, fun i j => ?_⟩
  rcases eq_or_ne i j with rfl | hij
  · have h2 : ∫ x, x * x ∂(gaussianReal 0 1) = 1 := by
      have := variance_of_integral_eq_zero (X := id) (μ := gaussianReal 0 1) aemeasurable_id
        integral_id_gaussianReal
      rw [variance_id_gaussianReal] at this
      simpa [pow_two] using this.symm
    rw [sub_self, if_pos rfl, ← h2]
    rw [← (hm i).map_eq, integral_map (hm i).measurable.aemeasurable]
    fun_prop
  · rw [if_neg (sub_ne_zero.2 hij)]
    have hind : IndepFun (fun ω : ZMod n → ℝ => ω i) (fun ω => ω j) (normalDraws n) :=
      (iIndepFun_pi (X := fun _ : ZMod n => (id : ℝ → ℝ)) fun _ => aemeasurable_id).indepFun hij
    rw [hind.integral_fun_mul_eq_mul_integral (hL i).aestronglyMeasurable (hL j).aestronglyMeasurable,
      h0, zero_mul]

/-- End to end: on pulses with noise made by `gen_noise` the filter built from the same PSD is unbiased, has
spread `energy_resolution`, and a mean chi-square of one less than the number of bins used. -/
theorem nodelay_on_genNoise (psd : ZMod n → ℝ) (hpsd : ∀ k, 0 < psd k) (hs : ∀ k, psd (-k) = psd k)
    (hfs : 0 < fs) (ac : Bool) (T : ZMod n → ℝ)
    (hN : traceChi2 fs (weight (fun k => (psd k : WithTop ℝ)) ac) T ≠ 0) (a : ℝ) (wc : ℤ) :
    let fit := fun vals => nodelay
      (init (pulse T a wc (Noise.genNoise psd fs vals)) T (fun k => psd k) fs ac false) wc
    ∫ vals, (fit vals).1.1 ∂(normalDraws n) = a ∧
    ∫ vals, ((fit vals).1.1 - a) ^ 2 ∂(normalDraws n) =
      energyResolution (init T T (fun k => psd k) fs ac false) ^ 2 ∧
    ∫ vals, (fit vals).1.2 ∂(normalDraws n) = n - (if ac then 1 else 0) - 1 := by
  obtain ⟨R, h1, h2⟩ := genNoise_stationary psd hs (fun k => (hpsd k).le) hfs.le
    (normalDraws_stationary (n := n))
  have hs' : ∀ k, ((psd (-k) : ℝ) : WithTop ℝ) = psd k := fun k => by rw [hs]
  have hp' : ∀ k, (0 : WithTop ℝ) < (psd k : WithTop ℝ) := fun k => by exact_mod_cast hpsd k
  refine ⟨nodelay_mean h1 hs' hfs.ne' ac T hN a wc, nodelay_variance h1 h2 hp' hs' hfs ac T hN a wc T, ?_⟩
  refine (nodelay_chi2_mean h1 h2 hp' hs' hfs ac T hN a wc).trans ?_
  rw [nUsed_finite]

/-- A white spectrum and a spike meet the hypotheses. -/
example : (∀ k : ZMod 4, (0 : ℝ) < (fun _ => 1 : ZMod 4 → ℝ) k) ∧
    traceChi2 1 (weight (fun _ : ZMod 4 => ((1 : ℝ) : WithTop ℝ)) true)
      (fun j => if j = 0 then 1 else 0) ≠ 0 := by
  refine ⟨fun k => one_pos, ne_of_gt ?_⟩
  have hw : ∀ k : ZMod 4, 0 ≤ weight (fun _ : ZMod 4 => ((1 : ℝ) : WithTop ℝ)) true k :=
    weight_nonneg _ _ fun k => by exact_mod_cast one_pos (α := ℝ)
  unfold traceChi2
  refine Finset.sum_pos' (fun k _ => by have := hw k; positivity) ⟨1, Finset.mem_univ _, ?_⟩
  have h1 : fftR (fun j : ZMod 4 => if j = 0 then (1 : ℝ) else 0) 1 = 1 := by
    rw [fftR_apply, Finset.sum_eq_single 0]
    · simp
    · intro j _ hj; simp [hj]
    · simp
  have h2 : weight (fun _ : ZMod 4 => ((1 : ℝ) : WithTop ℝ)) true 1 = 1 := by
    rw [weight, if_neg (by decide)]; simp [recip]
  rw [h1, h2]
  norm_num

/-! ### The reported resolutions as curvature -/

/-- Around a noise-free pulse the chi-square as a function of amplitude and (continuous) delay, which is what
`chi2_lowfreq` computes when nothing is cut off, has curvature `1 / energy_resolution²` in the amplitude,
`1 / time_resolution²` in the delay, and no mixed term. -/
theorem resolutions_curvature (hpsd : ∀ k, 0 < psd k) (hfs : 0 < fs) (ac : Bool) (T x : ZMod n → ℝ) (A fc : ℝ)
    (hfc : fs / 2 ≤ fc) :
    let chi := fun a t => (chi2Lowfreq (init (fun j => A * T j) T psd fs ac false) a t fc).1
    chi A 0 = 0 ∧ (∀ a, deriv (fun t => chi a t) 0 = 0) ∧
    deriv (deriv fun a => chi a 0) A / 2 = 1 / energyResolution (init x T psd fs ac false) ^ 2 ∧
    deriv (deriv fun t => chi A t) 0 / 2 = 1 / (timeResolution (init x T psd fs ac false) A).1 ^ 2 := by
  have hw := weight_nonneg psd ac hpsd
  have hchi : ∀ a t, (chi2Lowfreq (init (fun j => A * T j) T psd fs ac false) a t fc).1 =
      ∑ k, curv fs (weight psd ac) T k *
        (A ^ 2 - 2 * A * a * Real.cos (2 * Real.pi * fftfreq fs k * t) + a ^ 2) :=
    fun a t => lowfreq_free hfs ac T A fc hfc a t
  simp only [hchi]
  have ht : ∀ a t, HasDerivAt (fun t => ∑ k, curv fs (weight psd ac) T k *
      (A ^ 2 - 2 * A * a * Real.cos (2 * Real.pi * fftfreq fs k * t) + a ^ 2))
      (∑ k, curv fs (weight psd ac) T k *
        (2 * A * a * (Real.sin (2 * Real.pi * fftfreq fs k * t) * (2 * Real.pi * fftfreq fs k)))) t := by
    intro a t
    refine HasDerivAt.fun_sum fun k _ => HasDerivAt.const_mul _ ?_
    have h1 : HasDerivAt (fun t => 2 * Real.pi * fftfreq fs k * t) (2 * Real.pi * fftfreq fs k) t := by
      simpa using (hasDerivAt_id t).const_mul (2 * Real.pi * fftfreq fs k)
    have h2 := ((h1.cos.const_mul (2 * A * a)).const_sub (A ^ 2)).add_const (a ^ 2)
    refine h2.congr_deriv ?_
    ring
  have ht2 : HasDerivAt (fun t => ∑ k, curv fs (weight psd ac) T k *
        (2 * A * A * (Real.sin (2 * Real.pi * fftfreq fs k * t) * (2 * Real.pi * fftfreq fs k))))
      (∑ k, curv fs (weight psd ac) T k * (2 * A * A * (2 * Real.pi * fftfreq fs k) ^ 2)) 0 := by
    refine HasDerivAt.fun_sum fun k _ => HasDerivAt.const_mul _ (HasDerivAt.const_mul _ ?_)
    have h1 : HasDerivAt (fun t => 2 * Real.pi * fftfreq fs k * t) (2 * Real.pi * fftfreq fs k) 0 := by
      simpa using (hasDerivAt_id (0 : ℝ)).const_mul (2 * Real.pi * fftfreq fs k)
    have h2 := h1.sin.mul_const (2 * Real.pi * fftfreq fs k)
    refine h2.congr_deriv ?_
    rw [mul_zero, Real.cos_zero]; ring
  have ha : ∀ a, HasDerivAt (fun a => ∑ k, curv fs (weight psd ac) T k *
      (A ^ 2 - 2 * A * a * Real.cos (2 * Real.pi * fftfreq fs k * 0) + a ^ 2))
      (∑ k, curv fs (weight psd ac) T k * (2 * a - 2 * A)) a := by
    intro a
    refine HasDerivAt.fun_sum fun k _ => HasDerivAt.const_mul _ ?_
    have h2 := ((((hasDerivAt_id a).const_mul (2 * A)).const_sub (A ^ 2)).add ((hasDerivAt_id a).pow 2))
    simp only [mul_zero, Real.cos_zero, mul_one]
    refine (h2.congr_deriv ?_).congr_of_eventuallyEq (Filter.Eventually.of_forall fun y => ?_)
    · simp; ring
    · simp
  have ha2 : HasDerivAt (fun a => ∑ k, curv fs (weight psd ac) T k * (2 * a - 2 * A))
      (∑ k, curv fs (weight psd ac) T k * 2) A := by
    refine HasDerivAt.fun_sum fun k _ => HasDerivAt.const_mul _ ?_
    simpa using ((hasDerivAt_id A).const_mul 2).sub_const (2 * A)
  refine ⟨?_, fun a => ?_, ?_, ?_⟩
  · refine Finset.sum_eq_zero fun k _ => ?_
    rw [mul_zero, Real.cos_zero]; ring
  · rw [(ht a 0).deriv]; simp
  · rw [show (deriv fun a => ∑ k, curv fs (weight psd ac) T k *
      (A ^ 2 - 2 * A * a * Real.cos (2 * Real.pi * fftfreq fs k * 0) + a ^ 2)) = _ from
      funext fun a => (ha a).deriv, ha2.deriv, energyResolution, init_norm, div_pow,
      Real.sq_sqrt (ip_nonneg fs _ T hfs.le hw), one_pow, one_div_one_div, traceChi2, ← Finset.sum_mul]
    unfold curv
    ring
  · rw [show (deriv fun t => ∑ k, curv fs (weight psd ac) T k *
      (A ^ 2 - 2 * A * A * Real.cos (2 * Real.pi * fftfreq fs k * t) + A ^ 2)) = _ from
      funext fun t => (ht A t).deriv, ht2.deriv, timeResolution]
    simp only [init_freqs, init_s, init_w, init_df]
    rw [div_pow, Real.sq_sqrt, one_pow, one_div_one_div, Finset.mul_sum, Finset.sum_mul, Finset.sum_div]
    · refine Finset.sum_congr rfl fun k _ => ?_
      unfold curv
      ring
    · refine mul_nonneg (mul_nonneg (sq_nonneg _) (Finset.sum_nonneg fun k _ => ?_)) (by positivity)
      have := hw k
      positivity

/-- A spike has a finite time resolution. -/
example : ∃ k : ZMod 4, fftfreq 1 k ≠ 0 ∧ fftR (fun j : ZMod 4 => if j = 0 then (1 : ℝ) else 0) k ≠ 0 := by
  refine ⟨1, ?_, ?_⟩
  · rw [fftfreq, show freqIdx (1 : ZMod 4) = 1 by decide]; norm_num
  · rw [fftR_apply, Finset.sum_eq_single 0]
    · simp
    · intro j _ hj; simp [hj]
    · simp

end Verif.OF
