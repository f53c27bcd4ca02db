import Verif.OFSpreadLemmas
import Verif.OFLimitProps

/-!
Property C143: the spread, from trace to trace, of the chi-squares of the fits and of a measured PSD.
-/

namespace Verif.OF
open Verif Verif.Dft MeasureTheory ProbabilityTheory

variable {n : ℕ} [NeZero n]

section Chi
variable {psd : ZMod n → ℝ} {fs : ℝ}

/-- On noise of `gen_noise`, `chi2_nopulse` has a variance of twice the number of bins used. -/
theorem chi2_nopulse_spread (hpsd : ∀ k, 0 < psd k) (hs : ∀ k, psd (-k) = psd k) (hfs : 0 < fs) (ac b : Bool)
    (T : ZMod n → ℝ) :
    Var[fun ω => (chi2Nopulse (init (Noise.genNoise psd fs ω) T (fun k => psd k) fs ac b)).1; normalDraws n] =
      2 * nUsed (fun k => (psd k : WithTop ℝ)) ac := by
  simp only [chi2Nopulse, init_chi0, gen_chi hpsd hs hfs]
  exact (total_var _ (usedBins_neg psd ac)).2

/-- With a pulse at the time of the fit, the chi-square of `ofamp_nodelay` is on average one less than the number of bins
used, and has a variance of twice that. -/
theorem nodelay_chi2_spread (hpsd : ∀ k, 0 < psd k) (hs : ∀ k, psd (-k) = psd k) (hfs : 0 < fs) (ac : Bool)
    (T : ZMod n → ℝ) (hN : traceChi2 fs (weight (fun k => (psd k : WithTop ℝ)) ac) T ≠ 0) (a : ℝ) (wc : ℤ) :
    ∫ ω, (nodelay (init (pulse T a wc (Noise.genNoise psd fs ω)) T (fun k => psd k) fs ac false) wc).1.2 ∂(normalDraws n) =
      nUsed (fun k => (psd k : WithTop ℝ)) ac - 1 ∧
    Var[fun ω => (nodelay (init (pulse T a wc (Noise.genNoise psd fs ω)) T (fun k => psd k) fs ac false) wc).1.2;
      normalDraws n] = 2 * (nUsed (fun k => (psd k : WithTop ℝ)) ac - 1) := by
  obtain ⟨z, hz, hz1, hz2⟩ := nodelay_gen hpsd hs hfs ac T hN a wc
  simp only [hz]
  exact ⟨(total_sub _ (usedBins_neg psd ac) z hz1 hz2).2.1, total_sub_var _ (usedBins_neg psd ac) z hz1 hz2⟩

/-- A cut on the chi-square `l` standard deviations from its mean rejects at most one pulse in `l²`. -/
theorem chi2_cut (hpsd : ∀ k, 0 < psd k) (hs : ∀ k, psd (-k) = psd k) (hfs : 0 < fs) (ac : Bool)
    (T : ZMod n → ℝ) (hN : traceChi2 fs (weight (fun k => (psd k : WithTop ℝ)) ac) T ≠ 0) (a : ℝ) (wc : ℤ)
    (hU : 1 < nUsed (fun k => (psd k : WithTop ℝ)) ac) {l : ℝ} (hl : 0 < l) :
    (normalDraws n).real {ω | l * Real.sqrt (2 * (nUsed (fun k => (psd k : WithTop ℝ)) ac - 1)) ≤
      |(nodelay (init (pulse T a wc (Noise.genNoise psd fs ω)) T (fun k => psd k) fs ac false) wc).1.2 -
        (nUsed (fun k => (psd k : WithTop ℝ)) ac - 1)|} ≤ 1 / l ^ 2 := by
  obtain ⟨z, hz, hz1, hz2⟩ := nodelay_gen hpsd hs hfs ac T hN a wc
  simp only [hz]
  obtain ⟨h, hm, -⟩ := total_sub _ (usedBins_neg psd ac) z hz1 hz2
  have hv := total_sub_var _ (usedBins_neg psd ac) z hz1 hz2
  have hc : ((usedBins psd ac).card : ℝ) = nUsed (fun k => (psd k : WithTop ℝ)) ac := rfl
  rw [hc] at hm hv
  have hpos : (0 : ℝ) < 2 * (nUsed (fun k => (psd k : WithTop ℝ)) ac - 1) := by
    have : (1 : ℝ) < nUsed (fun k => (psd k : WithTop ℝ)) ac := by exact_mod_cast hU
    linarith
  have hch := meas_ge_le_variance_div_sq h (mul_pos hl (Real.sqrt_pos.2 hpos))
  rw [hm, hv, mul_pow, Real.sq_sqrt hpos.le] at hch
  have := ENNReal.toReal_mono ENNReal.ofReal_ne_top hch
  rw [ENNReal.toReal_ofReal (by positivity)] at this
  refine this.trans (le_of_eq ?_)
  rw [mul_comm (l ^ 2), ← div_div, div_self hpos.ne']

open Classical in
/-- With the true amplitude and time, `chi2_lowfreq` has a variance of twice the number of bins used up to the cutoff. -/
theorem chi2_lowfreq_spread (hpsd : ∀ k, 0 < psd k) (hs : ∀ k, psd (-k) = psd k) (hfs : 0 < fs) (ac : Bool)
    (T : ZMod n → ℝ) (a fc : ℝ) (wc : ℤ) :
    Var[fun ω => (chi2Lowfreq (init (pulse T a wc (Noise.genNoise psd fs ω)) T (fun k => psd k) fs ac false) a (wc / fs) fc).1;
      normalDraws n] =
      2 * (Finset.univ.filter fun k : ZMod n => Used (fun k => (psd k : WithTop ℝ)) ac k ∧ |fftfreq fs k| ≤ fc).card := by
  simp only [gen_low hpsd hs hfs]
  exact (total_var _ (lowBins_neg psd fs ac fc)).2

/-- Four bins of white noise: the chi-square of the fit is 3 on average, with a variance of 6. -/
example (a : ℝ) : ∃ T : ZMod 4 → ℝ,
    ∫ ω, (nodelay (init (pulse T a 1 (Noise.genNoise (fun _ => 1) 1 ω)) T (fun _ => (1 : ℝ)) 1 false false) 1).1.2
      ∂(normalDraws 4) = 3 ∧
    Var[fun ω => (nodelay (init (pulse T a 1 (Noise.genNoise (fun _ => 1) 1 ω)) T (fun _ => (1 : ℝ)) 1 false false) 1).1.2;
      normalDraws 4] = 6 := by
  refine ⟨delta, ?_⟩
  have hN : traceChi2 1 (weight (fun _ : ZMod 4 => ((1 : ℝ) : WithTop ℝ)) false) delta ≠ 0 := by
    have := traceChi2_white (n := 4) 1 delta
    change traceChi2 1 (weight white false) _ ≠ 0
    rw [this]
    have : 0 < ∑ j : ZMod 4, delta j ^ 2 := Finset.sum_pos' (fun _ _ => sq_nonneg _) ⟨0, Finset.mem_univ _, by simp [delta]⟩
    positivity
  have h := nodelay_chi2_spread (psd := fun _ : ZMod 4 => (1 : ℝ)) (fs := 1) (fun _ => one_pos) (fun _ => rfl) one_pos false delta
    hN a 1
  rw [nUsed_finite] at h
  norm_num at h
  exact h

end Chi

/-! ### The measured PSD -/

/-- A PSD measured from `m` independent traces is right on average, and its variance is that of a PSD measured from one
trace, divided by `m`. -/
theorem psd_spread {Ω : Type*} [MeasurableSpace Ω] {μ : Measure Ω} [IsProbabilityMeasure μ] {noise : ℕ → Ω → ZMod n → ℝ}
    {R : ZMod n → ℝ} {fs : ℝ} {psd : ZMod n → ℝ} (h : Run μ noise R) (hR : HasPsd R fs fun k => (psd k : WithTop ℝ))
    (hfs : 0 < fs) {m : ℕ} (hm : 0 < m) (k : ZMod n) :
    ∫ ω, measured (fun i => noise i ω) fs m k ∂μ = psd k ∧
    (MemLp (fun ω => ‖fftR (noise 0 ω) k‖ ^ 2) 2 μ →
      Var[fun ω => measured (fun i => noise i ω) fs m k; μ] = Var[fun ω => measured (fun i => noise i ω) fs 1 k; μ] / m) := by
  have hn : (n : ℝ) ≠ 0 := Nat.cast_ne_zero.2 (NeZero.ne n)
  have hm' : (m : ℝ) ≠ 0 := Nat.cast_ne_zero.2 hm.ne'
  have e : ∀ m, (fun ω => measured (fun i => noise i ω) fs m k) =
      fun ω => (∑ i ∈ Finset.range m, fun ω => ‖fftR (noise i ω) k‖ ^ 2) ω * (1 / (m * (fs * n))) := by
    intro m
    funext ω
    rw [measured, Noise.calcPsdTwoSided, Noise.avg, Finset.sum_apply, Finset.sum_range (fun i => ‖fftR (noise i ω) k‖ ^ 2)]
    rw [mul_one_div, div_div]
  have hid := fun i => (h.alike i).comp (power_measurable k)
  have hint : ∀ i, Integrable (fun ω => ‖fftR (noise i ω) k‖ ^ 2) μ := fun i =>
    (hid i).integrable_iff.2 (h.stationary.int_bin k)
  have hmean : ∀ i, ∫ ω, ‖fftR (noise i ω) k‖ ^ 2 ∂μ = psd k * fs * n := by
    intro i
    have h1 := (hid i).integral_eq
    simp only [Function.comp] at h1
    rw [h1, h.stationary.bin, (hR k _ rfl), Complex.ofReal_re]
    ring
  constructor
  · rw [e m, integral_mul_const]
    simp only [Finset.sum_apply]
    rw [integral_finsetSum _ fun i _ => hint i]
    simp only [hmean, Finset.sum_const, Finset.card_range, nsmul_eq_mul]
    field_simp
  · intro h2
    have hL : ∀ i, MemLp (fun ω => ‖fftR (noise i ω) k‖ ^ 2) 2 μ := fun i => (hid i).memLp_iff.2 h2
    have hv : ∀ m, Var[fun ω => measured (fun i => noise i ω) fs m k; μ] =
        m * Var[fun ω => ‖fftR (noise 0 ω) k‖ ^ 2; μ] * (1 / (m * (fs * n))) ^ 2 := by
      intro m
      rw [e, variance_mul_const, IndepFun.variance_sum (fun i _ => hL i) fun i _ j _ hij =>
        (h.independent hij).comp (power_measurable k) (power_measurable k)]
      have h1 : ∀ i, Var[fun ω => ‖fftR (noise i ω) k‖ ^ 2; μ] = Var[fun ω => ‖fftR (noise 0 ω) k‖ ^ 2; μ] :=
        fun i => (hid i).variance_eq
      simp only [h1, Finset.sum_const, Finset.card_range, nsmul_eq_mul]
    rw [hv, hv]
    push_cast
    field_simp

/-- From `m` traces of `gen_noise`, the variance of the measured PSD is its square over `m`, and twice that in the bins
which are their own mirror image: the zero bin, and for an even length the one at half the digitization rate. -/
theorem genNoise_psd_spread {psd : ZMod n → ℝ} {fs : ℝ} (hs : ∀ k, psd (-k) = psd k) (hp : ∀ k, 0 ≤ psd k) (hfs : 0 < fs)
    {m : ℕ} (hm : 0 < m) (k : ZMod n) :
    ∫ ω, measured (fun i => Noise.genNoise psd fs (ω i)) fs m k ∂(draws n) = psd k ∧
    Var[fun ω => measured (fun i => Noise.genNoise psd fs (ω i)) fs m k; draws n] =
      (if k = -k then 2 else 1) * psd k ^ 2 / m := by
  have hn : (n : ℝ) ≠ 0 := Nat.cast_ne_zero.2 (NeZero.ne n)
  have hm' : (m : ℝ) ≠ 0 := Nat.cast_ne_zero.2 hm.ne'
  have : IsProbabilityMeasure (draws n) := by unfold draws; infer_instance
  obtain ⟨⟨R, hrun, hR⟩, -⟩ := genNoise_consistent (draws_run (n := n)) hs hp hfs
  have h0 : MeasurePreserving (fun ω : ℕ → ZMod n → ℝ => ω 0) (draws n) (normalDraws n) :=
    measurePreserving_eval_infinitePi _ 0
  have e : ∀ ω : ZMod n → ℝ, ‖fftR (Noise.genNoise psd fs ω) k‖ ^ 2 = ‖fftR ω k‖ ^ 2 * (psd k * fs) := by
    intro ω
    rw [Noise.genNoise_fft psd fs _ hs, norm_mul, mul_pow, Complex.norm_real, Real.norm_eq_abs, sq_abs,
      Real.sq_sqrt (mul_nonneg (hp k) hfs.le)]
  have hL0 : MemLp (fun ω : ZMod n → ℝ => ‖fftR ω k‖ ^ 2) 2 (normalDraws n) := by
    refine (memLp_two_iff_integrable_sq (power_mean k).1.1).2 ?_
    simpa only [pow_two (‖fftR _ k‖ ^ 2)] using (power_power k k).1
  have hL : MemLp (fun ω : ℕ → ZMod n → ℝ => ‖fftR (Noise.genNoise psd fs (ω 0)) k‖ ^ 2) 2 (draws n) := by
    simp only [e]
    exact (hL0.comp_measurePreserving h0).mul_const _
  obtain ⟨h1, h2⟩ := psd_spread hrun hR hfs hm k
  refine ⟨h1, ?_⟩
  rw [h2 hL]
  congr 1
  have e1 : (fun ω : ℕ → ZMod n → ℝ => measured (fun i => Noise.genNoise psd fs (ω i)) fs 1 k) =
      fun ω => ‖fftR (ω 0) k‖ ^ 2 * (psd k / n) := by
    funext ω
    simp only [measured, Noise.calcPsdTwoSided, Noise.avg, Finset.univ_unique, Finset.sum_singleton, Fin.default_eq_zero,
      Fin.val_zero, Nat.cast_one, div_one, e]
    field_simp
  rw [e1, variance_mul_const]
  have hv : Var[fun ω : ℕ → ZMod n → ℝ => ‖fftR (ω 0) k‖ ^ 2; draws n] =
      Var[fun ω : ZMod n → ℝ => ‖fftR ω k‖ ^ 2; normalDraws n] := by
    rw [← h0.map_eq, variance_map (power_measurable k).aemeasurable h0.measurable.aemeasurable]
    rfl
  rw [hv, variance_eq_sub hL0, (power_mean k).2]
  simp only [Pi.pow_apply, pow_two (‖fftR _ k‖ ^ 2)]
  rw [(power_power k k).2, if_pos rfl]
  split_ifs <;> field_simp <;> ring

/-- Ten traces of white noise: the measured PSD is off by a third in a typical bin, and by 45% in the zero bin. -/
example : Var[fun ω => measured (fun i => Noise.genNoise (fun _ : ZMod 3 => (1 : ℝ)) 1 (ω i)) 1 10 1; draws 3] = 1 / 10 ∧
    Var[fun ω => measured (fun i => Noise.genNoise (fun _ : ZMod 3 => (1 : ℝ)) 1 (ω i)) 1 10 0; draws 3] = 2 / 10 := by
  have h := fun k => (genNoise_psd_spread (psd := fun _ : ZMod 3 => (1 : ℝ)) (fs := 1) (fun _ => rfl) (fun _ => zero_le_one)
    one_pos (m := 10) (by norm_num) k).2
  refine ⟨(h 1).trans ?_, (h 0).trans ?_⟩
  · rw [if_neg (by decide)]
    norm_num
  · rw [if_pos (by decide)]
    norm_num

end Verif.OF
