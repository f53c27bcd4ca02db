import Verif.NoiseLimitEx

/-! Property C150: with more recordings the results of a `Noise` object become those of the noise. -/

namespace Verif.Noise
open Verif Verif.Dft MeasureTheory ProbabilityTheory Filter Topology

variable {n c : ℕ} [NeZero n] {Ω : Type*} [MeasurableSpace Ω] {μ : Measure Ω} {noise : ℕ → Ω → Fin c → ZMod n → ℝ}

/-- **C150.**  `calculate_psd`: the spectra and their real and imaginary parts. -/
theorem noise_psd (h : Series μ noise) (fs : ℝ) (time : ZMod n → ℝ) :
    ∀ᵐ ω ∂μ, ∃ p q r : ℕ → Fin c → Half n → ℝ,
      (∀ m, let o := calculatePsd (taken (fun a => noise a ω) fs time m)
        o.psd = some (p m) ∧ o.realPsd = some (q m) ∧ o.imagPsd = some (r m)) ∧
      ∀ i k, Tendsto (fun m => p m i k) atTop (𝓝 (2 * (∫ ω, ‖rfft (noise 0 ω i) k‖ ^ 2 ∂μ) / (n * fs))) ∧
        Tendsto (fun m => q m i k) atTop (𝓝 (2 * (∫ ω, (rfft (noise 0 ω i) k).re ^ 2 ∂μ) / (n * fs))) ∧
        Tendsto (fun m => r m i k) atTop (𝓝 (2 * (∫ ω, (rfft (noise 0 ω i) k).im ^ 2 ∂μ) / (n * fs))) := by
  have key : ∀ g : ℂ → ℝ, Continuous g → (∀ z, |g z| ≤ ‖z‖ ^ 2) → ∀ᵐ ω ∂μ, ∀ i k,
      Tendsto (fun m : ℕ => (avg fun t : Fin m => g (rfft (noise t ω i) k)) * 2 / (n * fs)) atTop
        (𝓝 (2 * (∫ ω, g (rfft (noise 0 ω i) k) ∂μ) / (n * fs))) := by
    intro g hg hb
    rw [ae_all_iff]
    intro i
    rw [ae_all_iff]
    intro k
    have hL := rfft_memLp h.sq_int i k
    have hi : Integrable (fun ω => g (rfft (noise 0 ω i) k)) μ := by
      refine hL.norm.integrable_sq.mono' (hg.comp_aestronglyMeasurable hL.aestronglyMeasurable) (Eventually.of_forall fun ω => ?_)
      exact hb _
    filter_upwards [h.law (φ := fun y => g (rfft (y i) k)) (hg.comp (rfft_continuous i k)).measurable hi] with ω hω
    rw [mul_comm (2 : ℝ)]
    exact (hω.mul_const 2).div_const _
  have hre : ∀ z : ℂ, |z.re ^ 2| ≤ ‖z‖ ^ 2 := fun z => by
    rw [abs_of_nonneg (sq_nonneg _), ← sq_abs]
    exact pow_le_pow_left₀ (abs_nonneg _) (Complex.abs_re_le_norm z) 2
  have him : ∀ z : ℂ, |z.im ^ 2| ≤ ‖z‖ ^ 2 := fun z => by
    rw [abs_of_nonneg (sq_nonneg _), ← sq_abs]
    exact pow_le_pow_left₀ (abs_nonneg _) (Complex.abs_im_le_norm z) 2
  filter_upwards [key (fun z => ‖z‖ ^ 2) (by fun_prop) (fun z => by rw [abs_of_nonneg (sq_nonneg _)]),
    key (fun z => z.re ^ 2) (by fun_prop) hre, key (fun z => z.im ^ 2) (by fun_prop) him] with ω h1 h2 h3
  exact ⟨_, _, _, fun m => ⟨rfl, rfl, rfl⟩, fun i k => ⟨h1 i k, h2 i k, h3 i k⟩⟩

/-- **C150.**  `calculate_csd`: the cross spectra. -/
theorem noise_csd (h : Series μ noise) (hc : c ≠ 1) (fs : ℝ) (time : ZMod n → ℝ) :
    ∀ᵐ ω ∂μ, ∃ d : ℕ → Csd c n, (∀ m, (calculateCsd (taken (fun a => noise a ω) fs time m)).1 = .ok () ∧
        (calculateCsd (taken (fun a => noise a ω) fs time m)).2.csd = some (d m)) ∧
      ∀ i j k, Tendsto (fun m => (d m).csd i j k) atTop (𝓝 (popCsd μ (noise 0) fs i j k)) := by
  filter_upwards [csd_law h fs] with ω hω
  refine ⟨fun m => csdOf (fun t : Fin m => noise t ω) fs, fun m => ?_, hω⟩
  simp only [calculateCsd, if_neg hc]
  exact ⟨trivial, rfl⟩

/-- **C150.**  `calculate_corrcoeff`: the correlation coefficients of the amplitudes at a frequency, where they vary. -/
theorem noise_corrcoeff [IsProbabilityMeasure μ] (h : Series μ noise) (hc : c ≠ 1) (fs : ℝ) (time : ZMod n → ℝ) :
    ∀ᵐ ω ∂μ, ∃ p : ℕ → Fin c → Fin c → Half n → Option ℝ,
      (∀ m, (calculateCorrcoeff (taken (fun a => noise a ω) fs time m)).2.corrcoeff = some (p m)) ∧
      ∀ i j k, 0 < Var[fun ω => ‖rfft (noise 0 ω i) k‖; μ] → 0 < Var[fun ω => ‖rfft (noise 0 ω j) k‖; μ] →
        ∃ r : ℕ → ℝ, (∀ᶠ m in atTop, p m i j k = some (r m)) ∧
          Tendsto r atTop (𝓝 (cov[fun ω => ‖rfft (noise 0 ω i) k‖, fun ω => ‖rfft (noise 0 ω j) k‖; μ] /
            (Real.sqrt Var[fun ω => ‖rfft (noise 0 ω i) k‖; μ] * Real.sqrt Var[fun ω => ‖rfft (noise 0 ω j) k‖; μ]))) := by
  have hL : ∀ i (k : Half n), MemLp (fun ω => ‖rfft (noise 0 ω i) k‖) 2 μ := fun i k => (rfft_memLp h.sq_int i k).norm
  have hcont : ∀ i (k : Half n), Continuous fun y : Fin c → ZMod n → ℝ => ‖rfft (y i) k‖ := fun i k => (rfft_continuous i k).norm
  have h1 : ∀ᵐ ω ∂μ, ∀ i k, Tendsto (fun m : ℕ => avg fun t : Fin m => ‖rfft (noise t ω i) k‖) atTop
      (𝓝 (∫ ω, ‖rfft (noise 0 ω i) k‖ ∂μ)) := by
    rw [ae_all_iff]
    intro i
    rw [ae_all_iff]
    exact fun k => h.law (φ := fun y => ‖rfft (y i) k‖) (hcont i k).measurable ((hL i k).integrable one_le_two)
  have h2 : ∀ᵐ ω ∂μ, ∀ i j k, Tendsto (fun m : ℕ => avg fun t : Fin m => ‖rfft (noise t ω i) k‖ * ‖rfft (noise t ω j) k‖) atTop
      (𝓝 (∫ ω, ‖rfft (noise 0 ω i) k‖ * ‖rfft (noise 0 ω j) k‖ ∂μ)) := by
    rw [ae_all_iff]
    intro i
    rw [ae_all_iff]
    intro j
    rw [ae_all_iff]
    exact fun k => h.law (φ := fun y => ‖rfft (y i) k‖ * ‖rfft (y j) k‖) ((hcont i k).mul (hcont j k)).measurable
      ((hL i k).integrable_mul (hL j k))
  filter_upwards [h1, h2] with ω e1 e2
  refine ⟨fun m => corrcoeffOf fun t : Fin m => noise t ω, fun m => ?_, fun i j k v1 v2 => ?_⟩
  · simp only [calculateCorrcoeff, if_neg hc]
    rfl
  · have hv : ∀ i, Var[fun ω => ‖rfft (noise 0 ω i) k‖; μ] = (∫ ω, ‖rfft (noise 0 ω i) k‖ * ‖rfft (noise 0 ω i) k‖ ∂μ) -
        (∫ ω, ‖rfft (noise 0 ω i) k‖ ∂μ) * ∫ ω, ‖rfft (noise 0 ω i) k‖ ∂μ := fun i => by
      rw [← covariance_self (hL i k).aemeasurable, covariance_eq_sub (hL i k) (hL i k)]
      rfl
    rw [hv] at v1 v2
    obtain ⟨r, hr, ht⟩ := corrcoef_tendsto (e1 j k) (e1 i k) (e2 j j k) (e2 i i k) (e2 j i k) v2 v1
    refine ⟨r, hr, ?_⟩
    rw [covariance_comm, covariance_eq_sub (hL j k) (hL i k), hv, hv, mul_comm (Real.sqrt _)]
    exact ht

/-- **C150.**  `calculate_uncorr_noise`: with enough recordings it succeeds, and the uncorrelated noise tends to the
smallest spectral density which can be reached by adding the other channels to a channel, the correlated noise to the
rest. -/
theorem noise_uncorr (h : Series μ noise) (hc : c ≠ 1) {fs : ℝ} (time : ZMod n → ℝ)
    (hpos : ∀ k, ∀ w : Fin c → ℂ, w ≠ 0 → 0 < popMix μ (noise 0) fs k w) :
    ∃ U : Fin c → Half n → ℝ,
      (∀ j k, (∀ w : Fin c → ℂ, w j = 1 → U j k ≤ popMix μ (noise 0) fs k w) ∧
        ∃ w : Fin c → ℂ, w j = 1 ∧ popMix μ (noise 0) fs k w = U j k) ∧
      ∀ᵐ ω ∂μ, ∃ u r : ℕ → Fin c → Half n → ℝ,
        (∀ᶠ m in atTop, let o := calculateUncorrNoise (taken (fun a => noise a ω) fs time m)
          o.1 = .ok () ∧ o.2.uncorr = some (u m) ∧ o.2.corr = some (r m)) ∧
        ∀ j k, Tendsto (fun m => u m j k) atTop (𝓝 (U j k)) ∧
          Tendsto (fun m => r m j k) atTop (𝓝 ((popCsd μ (noise 0) fs j j k).re - U j k)) := by
  refine ⟨fun j k => 1 / ‖(Matrix.of fun i j => popCsd μ (noise 0) fs i j k)⁻¹ j j‖, fun j k => ?_, ?_⟩
  · obtain ⟨hdet, A, hA, hq⟩ := pop_gram h.sq_int (hpos k)
    obtain ⟨v, hv, he, -, hall⟩ := gram_least A 1 zero_le_one _ hA hdet j
    refine ⟨fun w hw => ?_, v, hv, by rw [hq, he]⟩
    rw [hq, hall w hw, le_add_iff_nonneg_right]
    exact Finset.sum_nonneg fun t _ => by positivity
  · filter_upwards [csd_law h fs] with ω hω
    have hM : ∀ k, Tendsto (fun m : ℕ => csdMat (csdOf (fun t : Fin m => noise t ω) fs) k) atTop
        (𝓝 (Matrix.of fun i j => popCsd μ (noise 0) fs i j k)) := fun k =>
      tendsto_pi_nhds.2 fun i => tendsto_pi_nhds.2 fun j => hω i j k
    have hdet : ∀ k, (Matrix.of fun i j => popCsd μ (noise 0) fs i j k).det ≠ 0 := fun k => (pop_gram h.sq_int (hpos k)).1
    have hpd : ∀ j k, 0 < ‖(Matrix.of fun i j => popCsd μ (noise 0) fs i j k)⁻¹ j j‖ ∧ 0 < (popCsd μ (noise 0) fs j j k).re := by
      intro j k
      obtain ⟨hd, A, hA, -⟩ := pop_gram h.sq_int (hpos k)
      obtain ⟨g1, -, g3⟩ := gram_inv A 1 zero_le_one _ hA hd j
      exact ⟨g1, g3⟩
    have hu : ∀ j k, Tendsto (fun m : ℕ => uncorrOf (csdOf (fun t : Fin m => noise t ω) fs) j k) atTop
        (𝓝 (1 / ‖(Matrix.of fun i j => popCsd μ (noise 0) fs i j k)⁻¹ j j‖)) := by
      intro j k
      have : Tendsto (fun m : ℕ => (csdMat (csdOf (fun t : Fin m => noise t ω) fs) k)⁻¹ j j) atTop
          (𝓝 ((Matrix.of fun i j => popCsd μ (noise 0) fs i j k)⁻¹ j j)) := inv_entry_tendsto (hM k) (hdet k) j j
      exact tendsto_const_nhds.div this.norm (hpd j k).1.ne'
    refine ⟨fun m => uncorrOf (csdOf (fun t : Fin m => noise t ω) fs), fun m => corrOf (csdOf (fun t : Fin m => noise t ω) fs), ?_, fun j k => ⟨hu j k, ?_⟩⟩
    · have hd : ∀ᶠ m : ℕ in atTop, ∀ k, (csdMat (csdOf (fun t : Fin m => noise t ω) fs) k).det ≠ 0 := by
        rw [eventually_all]
        intro k
        exact ((Continuous.matrix_det continuous_id).tendsto _ |>.comp (hM k)).eventually_ne (hdet k)
      filter_upwards [hd] with m hm
      exact uncorr_fresh (o := taken (fun a => noise a ω) fs time m) hc rfl hm
    · have hr : ∀ m : ℕ, ((csdOf (fun t : Fin m => noise t ω) fs).csd j j k).re =
          avg fun t : Fin m => (csd1 (noise t ω j) (noise t ω j) fs k).re := by
        intro m
        simp only [csdOf, avg]
        rw [show (m : ℂ) = ((m : ℝ) : ℂ) by push_cast; rfl, Complex.div_ofReal_re, Complex.re_sum]
      have ht : Tendsto (fun m : ℕ => avg fun t : Fin m => (csd1 (noise t ω j) (noise t ω j) fs k).re) atTop
          (𝓝 (popCsd μ (noise 0) fs j j k).re) :=
        ((Complex.continuous_re.tendsto _).comp (hω j j k)).congr hr
      refine (ht.sub (hu j k)).congr' ?_
      filter_upwards [ht.eventually (lt_mem_nhds (hpd j k).2)] with m hm
      have e : (csdOf (fun t : Fin m => noise t ω) fs).real j j k =
          avg fun t : Fin m => (csd1 (noise t ω j) (noise t ω j) fs k).re :=
        fillNeg_pos (fun k => avg fun t : Fin m => (csd1 (noise t ω j) (noise t ω j) fs k).re) k hm
      simp only [corrOf, uncorrOf, e]

/-- **C150.**  For stationary noise the limit of `calculate_psd` is twice the two-sided spectral density. -/
theorem stationary_psd {x : Ω → Fin c → ZMod n → ℝ} {R : Fin c → Fin c → ZMod n → ℝ} (h : Joint μ x R)
    (hx : ∀ i s, MemLp (fun ω => x ω i s) 2 μ) (fs : ℝ) (i : Fin c) (k : Half n) :
    2 * (∫ ω, ‖rfft (x ω i) k‖ ^ 2 ∂μ) / (n * fs) = 2 * (fftR (R i i) k.bin).re / fs := by
  have hn : (n : ℝ) ≠ 0 := Nat.cast_ne_zero.2 (NeZero.ne n)
  have h1 := h.cross hx i i k.bin k.bin
  rw [if_pos rfl] at h1
  have h2 : ∫ ω, ‖rfft (x ω i) k‖ ^ 2 ∂μ = n * (fftR (R i i) k.bin).re := by
    have : ((∫ ω, ‖rfft (x ω i) k‖ ^ 2 ∂μ : ℝ) : ℂ) = n * fftR (R i i) k.bin := by
      rw [← h1, ← integral_complex_ofReal]
      refine integral_congr_ae (Eventually.of_forall fun ω => ?_)
      simp only
      rw [mul_comm, Complex.mul_conj, Complex.normSq_eq_norm_sq]
      rfl
    have := congrArg Complex.re this
    rwa [Complex.ofReal_re, show (n : ℂ) = ((n : ℝ) : ℂ) by push_cast; rfl, Complex.re_ofReal_mul] at this
  rw [h2]
  field_simp

/-- **C150.**  For stationary noise the limit of `calculate_csd` is the cross spectral density (one-sided but at zero and
at half the sampling rate) averaged over neighbouring frequencies with the weights 1/6, 4/6, 1/6, leaving out the constant part. -/
theorem stationary_csd {x : Ω → Fin c → ZMod n → ℝ} {R : Fin c → Fin c → ZMod n → ℝ} (h : Joint μ x R)
    (hx : ∀ i s, MemLp (fun ω => x ω i s) 2 μ) (hn : 3 ≤ n) (fs : ℝ) (i j : Fin c) (k : Half n) :
    popCsd μ x fs i j k = (if 1 ≤ (k : ℕ) ∧ 2 * (k : ℕ) < n then 2 else 1) / fs *
      ((noDc (fftR (R i j)) (k.bin - 1) + 4 * noDc (fftR (R i j)) k.bin + noDc (fftR (R i j)) (k.bin + 1)) / 6) :=
  pop_smooth h hx hn fs i j k

/-- The hypotheses are met by two channels which are jolted at random, independently of each other: four samples,
covariance 1 at equal times in each channel and none between the channels. -/
example : Series (Measure.infinitePi fun _ : ℕ => pair) (fun a ω => jolts (ω a)) ∧
    Joint pair jolts (fun i j s => if i = j ∧ s = 0 then 1 else 0) ∧
    (∀ k, ∀ w : Fin 2 → ℂ, w ≠ 0 → 0 < popMix (Measure.infinitePi fun _ : ℕ => pair) (fun ω => jolts (ω 0)) 1 k w) :=
  ⟨series_pi pair Measurable.of_discrete jolts_sq, jolts_joint, jolts_loud⟩

/-- The amplitudes vary, as `noise_corrcoeff` asks, for two channels with pulses which come or do not come. -/
example : Series (Measure.infinitePi fun _ : ℕ => coins) (fun a ω => pulses (ω a)) ∧
    ∀ i k, 0 < Var[fun ω => ‖rfft (pulses (ω 0) i) k‖; Measure.infinitePi fun _ : ℕ => coins] :=
  ⟨series_pi coins Measurable.of_discrete pulses_sq, pulses_vary⟩

end Verif.Noise
