import Verif.SlopeStatLemmas
import Verif.OFStatProps

/-!
Property C162: the statistics of `slope`.
-/

namespace Verif.SlopeStat
open Verif MeasureTheory ProbabilityTheory

variable {n : ℕ} {Ω : Type*} [MeasurableSpace Ω] {μ : Measure Ω} {noise : Ω → Fin n → ℝ} {v : ℝ}

/-- Noise of mean zero, correlated or not, does not bias the slope. -/
theorem slope_mean [IsProbabilityMeasure μ] {x : Fin n → ℝ} (hx : ∃ i j, x i ≠ x j)
    (h1 : ∀ i, Integrable (fun ω => noise ω i) μ) (h0 : ∀ i, ∫ ω, noise ω i ∂μ = 0) (a b : ℝ) :
    ∫ ω, Utils.slope x (scattered x a b (noise ω)) true ∂μ = a := by
  obtain ⟨h2, h3⟩ := mean_comb h1 h0 fun i => (x i - mid x) / sxx x
  simp_rw [slope_scattered x hx]
  rw [integral_add (integrable_const _) h2, h3]
  simp

/-- In white noise its variance is that of one sample divided by the scatter of `x`. -/
theorem slope_variance {x : Fin n → ℝ} (hx : ∃ i j, x i ≠ x j) (h : White μ noise v) (a b : ℝ) :
    ∫ ω, (Utils.slope x (scattered x a b (noise ω)) true - a) ^ 2 ∂μ = v / ∑ i, (x i - (∑ j, x j) / n) ^ 2 := by
  have hS : 0 < sxx x := Utils.sxx_pos x hx _
  simp_rw [slope_scattered x hx, add_sub_cancel_left]
  rw [var_comb h, weights_sq x hS.ne']
  change v * (1 / sxx x) = v / sxx x
  ring

/-- On the default time axis of `n` samples. -/
theorem slope_variance_time (hn : 2 ≤ n) {fs : ℝ} (hf : fs ≠ 0) (h : White μ noise v) (a b : ℝ) :
    ∫ ω, (Utils.slope (fun i : Fin n => (i : ℝ) / fs) (scattered (fun i : Fin n => (i : ℝ) / fs) a b (noise ω)) true - a) ^ 2 ∂μ =
      12 * fs ^ 2 * v / (n * (n ^ 2 - 1)) := by
  have hx : ∃ i j : Fin n, (i : ℝ) / fs ≠ (j : ℝ) / fs := by
    refine ⟨⟨0, by omega⟩, ⟨1, by omega⟩, ?_⟩
    simpa using hf.symm
  rw [slope_variance hx h]
  change v / sxx (fun i : Fin n => (i : ℝ) / fs) = _
  rw [sxx_times n (by omega), div_div_eq_mul_div]
  ring

/-- No other weighted sum of the data which is right on average for every line has a smaller variance in white noise,
and one which does as well is the same estimator. -/
theorem slope_best [IsProbabilityMeasure μ] {x : Fin n → ℝ} (hx : ∃ i j, x i ≠ x j) (h : White μ noise v) (hv : 0 < v)
    {w : Fin n → ℝ} (hw : ∀ a b, ∫ ω, ∑ i, w i * scattered x a b (noise ω) i ∂μ = a) (a b : ℝ) :
    ∫ ω, (Utils.slope x (scattered x a b (noise ω)) true - a) ^ 2 ∂μ ≤
      ∫ ω, (∑ i, w i * scattered x a b (noise ω) i - a) ^ 2 ∂μ ∧
    (∫ ω, (∑ i, w i * scattered x a b (noise ω) i - a) ^ 2 ∂μ ≤
      ∫ ω, (Utils.slope x (scattered x a b (noise ω)) true - a) ^ 2 ∂μ → ∀ y, ∑ i, w i * y i = Utils.slope x y true) := by
  have hn : 0 < n := by obtain ⟨i, _, _⟩ := hx; exact Fin.pos i
  have hS : 0 < sxx x := Utils.sxx_pos x hx _
  have h1 : ∀ i, Integrable (fun ω => noise ω i) μ := fun i => (h.sq_int i).integrable (by norm_num)
  obtain ⟨h2, h3⟩ := mean_comb h1 h.mean w
  have e : ∀ (a b : ℝ) (y : Fin n → ℝ), ∑ i, w i * scattered x a b y i = (a * ∑ i, w i * x i + b * ∑ i, w i) + ∑ i, w i * y i := by
    intro a b y
    rw [Finset.mul_sum, Finset.mul_sum, ← Finset.sum_add_distrib, ← Finset.sum_add_distrib]
    exact Finset.sum_congr rfl fun i _ => by rw [scattered]; ring
  have hw' : ∀ a b : ℝ, a * (∑ i, w i * x i) + b * ∑ i, w i = a := by
    intro a b
    have := hw a b
    simp_rw [e] at this
    rw [integral_add (integrable_const _) h2, h3] at this
    simpa using this
  have w0 : ∑ i, w i = 0 := by simpa using hw' 0 1
  have w1 : ∑ i, w i * x i = 1 := by simpa using hw' 1 0
  have hex := weights_excess x w hS.ne' w0 w1
  have e1 : ∫ ω, (∑ i, w i * scattered x a b (noise ω) i - a) ^ 2 ∂μ = v * ∑ i, w i ^ 2 := by
    simp_rw [e, hw', add_sub_cancel_left]
    exact var_comb h w
  have e2 : ∫ ω, (Utils.slope x (scattered x a b (noise ω)) true - a) ^ 2 ∂μ = v * (1 / sxx x) := by
    rw [slope_variance hx h]
    change v / sxx x = _
    ring
  have hpos : 0 ≤ ∑ i, (w i - (x i - mid x) / sxx x) ^ 2 := Finset.sum_nonneg fun i _ => sq_nonneg _
  rw [e1, e2, hex]
  refine ⟨mul_le_mul_of_nonneg_left (by linarith) hv.le, fun h4 y => ?_⟩
  have h5 := le_of_mul_le_mul_left h4 hv
  have h6 : ∑ i, (w i - (x i - mid x) / sxx x) ^ 2 = 0 := le_antisymm (by linarith) hpos
  rw [slope_weights x y hn]
  refine Finset.sum_congr rfl fun i _ => ?_
  have h7 := (Finset.sum_eq_zero_iff_of_nonneg fun i _ => sq_nonneg _).1 h6 i (Finset.mem_univ i)
  rw [sub_eq_zero.1 (pow_eq_zero_iff two_ne_zero |>.1 h7)]

/-- It is the maximum-likelihood slope the docstring promises: for independent normal errors of equal variance no line
makes the data more likely, and a line which makes them as likely has this slope. -/
theorem slope_likelihood {x : Fin n → ℝ} (hx : ∃ i j, x i ≠ x j) (y : Fin n → ℝ) {s : NNReal} (hs : s ≠ 0) :
    ∃ c, ∀ a b, ∏ i, gaussianPDFReal (a * x i + b) s (y i) ≤ ∏ i, gaussianPDFReal (Utils.slope x y true * x i + c) s (y i) ∧
      (∏ i, gaussianPDFReal (Utils.slope x y true * x i + c) s (y i) ≤ ∏ i, gaussianPDFReal (a * x i + b) s (y i) →
        a = Utils.slope x y true) := by
  obtain ⟨c, hc⟩ := Utils.slope_optimal x y hx
  have hs' : (0 : ℝ) < s := by positivity
  have e : ∀ a b, ∏ i, gaussianPDFReal (a * x i + b) s (y i) =
      ((Real.sqrt (2 * Real.pi * s))⁻¹) ^ n * Real.exp (-Utils.lineRes x y a b / (2 * s)) := by
    intro a b
    simp only [gaussianPDFReal]
    rw [Finset.prod_mul_distrib, Finset.prod_const, Finset.card_univ, Fintype.card_fin, ← Real.exp_sum, ← Finset.sum_div,
      Finset.sum_neg_distrib, Utils.lineRes]
  have hp : 0 < ((Real.sqrt (2 * Real.pi * s))⁻¹) ^ n := by positivity
  refine ⟨c, fun a b => ⟨?_, fun h => ?_⟩⟩
  · rw [e, e]
    refine mul_le_mul_of_nonneg_left (Real.exp_le_exp.2 ?_) hp.le
    exact div_le_div_of_nonneg_right (by linarith [hc a b]) (by positivity)
  · rw [e, e] at h
    have h1 := Real.exp_le_exp.1 (le_of_mul_le_mul_left h hp)
    rw [div_le_div_iff_of_pos_right (by positivity)] at h1
    exact Utils.slope_unique x y hx a b fun a' b' => le_trans (by linarith) (hc a' b')

/-- Removing the fitted slope from a trace of white noise on a straight line, as `Noise.remove_trace_slope` does, removes the
line's slope altogether, and leaves of the scatter around the mean, on average, `n - 2` times the variance: it costs the noise
one of its `n - 1` degrees of freedom. -/
theorem slope_removed_scatter [NeZero n] [IsProbabilityMeasure μ] {time : ZMod n → ℝ} (hx : ∃ i j, time i ≠ time j)
    {noise : Ω → ZMod n → ℝ} (h : White μ noise v) (a b : ℝ) :
    ∫ ω, (∑ j, (Noise.unslope time (scattered time a b (noise ω)) j -
      (∑ k, Noise.unslope time (scattered time a b (noise ω)) k) / n) ^ 2) ∂μ = (n - 2) * v := by
  have hx' : ∃ i j, Noise.seq time i ≠ Noise.seq time j := by
    obtain ⟨i, j, hij⟩ := hx
    refine ⟨⟨i.val, ZMod.val_lt i⟩, ⟨j.val, ZMod.val_lt j⟩, ?_⟩
    simpa [Noise.seq] using hij
  have h' : White μ (fun ω => Noise.seq (noise ω)) v := by
    refine ⟨fun i => h.sq_int _, fun i => h.mean _, fun i j => ?_⟩
    have := h.cov ((i : ℕ) : ZMod n) ((j : ℕ) : ZMod n)
    have e : ((i : ℕ) : ZMod n) = ((j : ℕ) : ZMod n) ↔ i = j := by
      constructor
      · intro hij
        have := congrArg ZMod.val hij
        rw [ZMod.val_cast_of_lt i.isLt, ZMod.val_cast_of_lt j.isLt] at this
        exact Fin.ext this
      · rintro rfl
        rfl
    simp only [e] at this
    exact this
  rw [← scatter_mean hx' h' a b]
  refine integral_congr_ae (Filter.Eventually.of_forall fun ω => ?_)
  have hsum : ∀ p : ZMod n → ℝ, ∑ j, p j = ∑ i : Fin n, p ((i : ℕ) : ZMod n) := fun p => by
    rw [Noise.sum_zmod, Finset.sum_range]
  simp only [hsum]
  rfl

/-- Independent standard normal draws are white noise; five equally spaced points then give the slope with variance one
tenth, and weighting only the two outer points is right on average but gives one eighth. -/
example (a b : ℝ) : White (OF.normalDraws 5) (fun ω (j : Fin 5) => ω j) 1 ∧
    ∫ ω, (Utils.slope (fun i : Fin 5 => (i : ℝ)) (scattered (fun i : Fin 5 => (i : ℝ)) a b ω) true - a) ^ 2
      ∂(OF.normalDraws 5) = 1 / 10 ∧
    ∫ ω, (∑ i, (![-1 / 4, 0, 0, 0, 1 / 4] : Fin 5 → ℝ) i * scattered (fun i : Fin 5 => (i : ℝ)) a b ω i - a) ^ 2
      ∂(OF.normalDraws 5) = 1 / 8 := by
  have h := OF.normalDraws_stationary (n := 5)
  have hw : White (OF.normalDraws 5) (fun ω (j : Fin 5) => ω j) 1 := by
    refine ⟨h.sq_int, h.mean, fun i j => (h.cov i j).trans ?_⟩
    by_cases hij : i = j
    · rw [if_pos hij]
      exact if_pos (sub_eq_zero.2 hij)
    · rw [if_neg hij]
      exact if_neg (sub_ne_zero.2 hij)
  refine ⟨hw, ?_, ?_⟩
  · rw [slope_variance ⟨0, 1, by norm_num⟩ hw]
    norm_num [Fin.sum_univ_succ]
  · have e : ∀ ω : Fin 5 → ℝ, ∑ i, (![-1 / 4, 0, 0, 0, 1 / 4] : Fin 5 → ℝ) i * scattered (fun i : Fin 5 => (i : ℝ)) a b ω i - a =
        ∑ i, (![-1 / 4, 0, 0, 0, 1 / 4] : Fin 5 → ℝ) i * ω i := by
      intro ω
      simp only [Fin.sum_univ_five, scattered]
      simp
      ring
    have := var_comb hw ![-1 / 4, 0, 0, 0, 1 / 4]
    refine (integral_congr_ae (Filter.Eventually.of_forall fun ω => congrArg (· ^ 2) (e ω))).trans (this.trans ?_)
    have h2 : (![-1 / 4, 0, 0, 0, 1 / 4] : Fin 5 → ℝ) 2 = 0 := rfl
    have h3 : (![-1 / 4, 0, 0, 0, 1 / 4] : Fin 5 → ℝ) 3 = 0 := rfl
    have h4 : (![-1 / 4, 0, 0, 0, 1 / 4] : Fin 5 → ℝ) 4 = 1 / 4 := rfl
    simp only [Fin.sum_univ_five, h2, h3, h4]
    norm_num

end Verif.SlopeStat
