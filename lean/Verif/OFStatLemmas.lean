import Verif.OFStatSpec
import Verif.OFLemmas
import Verif.NoiseObjProps

import Mathlib.MeasureTheory.Integral.Bochner.Basic

/-! Helper lemmas for the statistics of the optimum filter: linear functionals of stationary noise and
their covariances in the frequency domain. -/

namespace Verif.OF
open Verif Verif.Dft MeasureTheory

variable {n : ℕ} [NeZero n]

/-- Parseval for two real traces. -/
theorem parseval_mul (x y : ZMod n → ℝ) :
    ((∑ j, x j * y j : ℝ) : ℂ) * n = ∑ k, starRingEnd ℂ (fftR x k) * fftR y k := by
  have : ∀ k, starRingEnd ℂ (fftR x k) * fftR y k =
      ∑ i, ∑ j, (x i : ℂ) * (y j : ℂ) * e (k * (i - j)) := by
    intro k
    rw [fftR_apply, fftR_apply, map_sum, Finset.sum_mul_sum]
    refine Finset.sum_congr rfl fun i _ => Finset.sum_congr rfl fun j _ => ?_
    rw [map_mul, conj_e, Complex.conj_ofReal, show k * (i - j) = - -(i * k) + -(j * k) by ring, e_add]
    ring
  simp only [this]
  rw [Finset.sum_comm, Complex.ofReal_sum, Finset.sum_mul]
  refine Finset.sum_congr rfl fun i _ => ?_
  rw [Finset.sum_comm]
  simp only [← Finset.mul_sum, sum_e_mul, sub_eq_zero]
  simp

/-- The autocovariance applied to a filter. -/
theorem conv_fft (h R : ZMod n → ℝ) (k : ZMod n) :
    fftR (fun i => ∑ j, h j * R (i - j)) k = fftR h k * fftR R k := by
  simp only [fftR_apply, Complex.ofReal_sum, Complex.ofReal_mul, Finset.mul_sum, Finset.sum_mul]
  rw [Finset.sum_comm]
  conv_rhs => rw [Finset.sum_comm]
  refine Finset.sum_congr rfl fun j _ => ?_
  refine Fintype.sum_equiv (Equiv.subRight j) _ _ fun i => ?_
  simp only [Equiv.subRight_apply]
  rw [show -(i * k) = -(j * k) + -((i - j) * k) by ring, e_add]
  ring

/-- Covariance of two filters in the frequency domain. -/
theorem cov_fft (g h R : ZMod n → ℝ) :
    ((∑ i, ∑ j, g i * h j * R (i - j) : ℝ) : ℂ) * n =
      ∑ k, starRingEnd ℂ (fftR g k) * fftR h k * fftR R k := by
  have := parseval_mul g (fun i => ∑ j, h j * R (i - j))
  simp only [conv_fft, ← mul_assoc] at this
  rw [← this]
  simp only [Finset.mul_sum, mul_assoc]

section noise
variable {Ω : Type*} [MeasurableSpace Ω] {μ : Measure Ω} {noise : Ω → ZMod n → ℝ} {R : ZMod n → ℝ}

omit [NeZero n] in
theorem Stationary.int_mul (h : Stationary μ noise R) (i j : ZMod n) :
    Integrable (fun ω => noise ω i * noise ω j) μ := (h.sq_int i).integrable_mul (h.sq_int j)

omit [NeZero n] in
theorem Stationary.int_mul' (h : Stationary μ noise R) (a b : ℝ) (i j : ZMod n) :
    Integrable (fun ω => a * noise ω i * (b * noise ω j)) μ := by
  refine ((h.int_mul i j).const_mul (a * b)).congr (Filter.Eventually.of_forall fun ω => ?_)
  simp only; ring

theorem Stationary.int_lin2 (h : Stationary μ noise R) (g g' : ZMod n → ℝ) :
    Integrable (fun ω => (∑ j, g j * noise ω j) * ∑ j, g' j * noise ω j) μ := by
  simp only [Finset.sum_mul_sum]
  exact integrable_finsetSum _ fun i _ => integrable_finsetSum _ fun j _ => h.int_mul' _ _ i j

theorem Stationary.lin2 (h : Stationary μ noise R) (g g' : ZMod n → ℝ) :
    ∫ ω, (∑ j, g j * noise ω j) * (∑ j, g' j * noise ω j) ∂μ = ∑ i, ∑ j, g i * g' j * R (i - j) := by
  simp only [Finset.sum_mul_sum]
  rw [integral_finsetSum _ fun i _ => integrable_finsetSum _ fun j _ => h.int_mul' _ _ i j]
  refine Finset.sum_congr rfl fun i _ => ?_
  rw [integral_finsetSum _ fun j _ => h.int_mul' _ _ i j]
  refine Finset.sum_congr rfl fun j _ => ?_
  rw [← h.cov, ← integral_const_mul]
  congr 1; funext ω; ring

theorem Stationary.int_lin [IsFiniteMeasure μ] (h : Stationary μ noise R) (g : ZMod n → ℝ) :
    Integrable (fun ω => ∑ j, g j * noise ω j) μ :=
  integrable_finsetSum _ fun j _ => ((h.sq_int j).integrable one_le_two).const_mul _

theorem Stationary.lin [IsFiniteMeasure μ] (h : Stationary μ noise R) (g : ZMod n → ℝ) :
    ∫ ω, ∑ j, g j * noise ω j ∂μ = 0 := by
  rw [integral_finsetSum _ fun j _ => ((h.sq_int j).integrable one_le_two).const_mul _]
  simp [integral_const_mul, h.mean]

/-- Variance of a filter, as a sum over bins. -/
theorem Stationary.var (h : Stationary μ noise R) (g : ZMod n → ℝ) :
    ∫ ω, (∑ j, g j * noise ω j) ^ 2 ∂μ = (∑ k, ‖fftR g k‖ ^ 2 * (fftR R k).re) / n := by
  have hn : (n : ℝ) ≠ 0 := Nat.cast_ne_zero.2 (NeZero.ne n)
  have h1 := congrArg Complex.re (cov_fft g g R)
  rw [← h.lin2 g g, ← Complex.ofReal_natCast, Complex.re_mul_ofReal, Complex.ofReal_re, Complex.re_sum] at h1
  rw [eq_div_iff hn]
  simp only [pow_two (∑ j, g j * noise _ j)]
  rw [h1]
  refine Finset.sum_congr rfl fun k _ => ?_
  rw [mul_comm (starRingEnd ℂ _), Complex.mul_conj, Complex.re_ofReal_mul, Complex.normSq_eq_norm_sq]

omit [NeZero n] in
theorem Stationary.symm (h : Stationary μ noise R) (d : ZMod n) : R (-d) = R d := by
  have h1 := h.cov 0 d
  have h2 := h.cov d 0
  rw [zero_sub] at h1
  rw [sub_zero] at h2
  rw [← h1, ← h2]
  congr 1; funext ω; ring

theorem Stationary.int_bin (h : Stationary μ noise R) (k : ZMod n) :
    Integrable (fun ω => ‖fftR (noise ω) k‖ ^ 2) μ := by
  simp only [Noise.norm_sq_fftR]
  exact integrable_finsetSum _ fun i _ => integrable_finsetSum _ fun j _ => (h.int_mul i j).const_mul _

/-- Mean power in one bin. -/
theorem Stationary.bin (h : Stationary μ noise R) (k : ZMod n) :
    ∫ ω, ‖fftR (noise ω) k‖ ^ 2 ∂μ = n * (fftR R k).re := by
  simp only [Noise.norm_sq_fftR]
  rw [integral_finsetSum _ fun i _ => integrable_finsetSum _ fun j _ => (h.int_mul i j).const_mul _]
  have h2 : ∀ i, ∫ ω, ∑ j, (e (k * (j - i))).re * (noise ω i * noise ω j) ∂μ = (fftR R k).re := by
    intro i
    rw [integral_finsetSum _ fun j _ => (h.int_mul i j).const_mul _, fftR_apply, Complex.re_sum]
    simp only [integral_const_mul, h.cov, Complex.re_mul_ofReal]
    refine Fintype.sum_equiv (Equiv.subLeft i) _ _ fun j => ?_
    simp only [Equiv.subLeft_apply]
    congr 3
    ring
  simp [h2, ZMod.card]

theorem Stationary.int_chi (h : Stationary μ noise R) (fs : ℝ) (wt : ZMod n → ℝ) :
    Integrable (fun ω => traceChi2 fs wt (noise ω)) μ := by
  unfold traceChi2
  refine integrable_finsetSum _ fun k _ => ?_
  simp only [norm_div, div_pow]
  exact (((h.int_bin k).div_const _).mul_const _).mul_const _

/-- Mean chi-square of the noise: one per bin used. -/
theorem Stationary.chi (h : Stationary μ noise R) {fs : ℝ} (hfs : 0 < fs) (wt : ZMod n → ℝ) :
    ∫ ω, traceChi2 fs wt (noise ω) ∂μ = ∑ k, (fftR R k).re * wt k / fs := by
  have hn : (n : ℝ) ≠ 0 := Nat.cast_ne_zero.2 (NeZero.ne n)
  unfold traceChi2
  rw [integral_finsetSum]
  · refine Finset.sum_congr rfl fun k _ => ?_
    simp only [norm_div, div_pow]
    rw [integral_mul_const, integral_mul_const, integral_div, h.bin, Complex.norm_real, Real.norm_eq_abs,
      sq_abs]
    field_simp
  · intro k _
    simp only [norm_div, div_pow]
    exact (((h.int_bin k).div_const _).mul_const _).mul_const _

end noise

/-! ### The optimum filter as a linear functional -/

omit [NeZero n] in
theorem weight_used {psd : ZMod n → WithTop ℝ} {ac : Bool} {k : ZMod n} (h : Used psd ac k) :
    ∃ p : ℝ, psd k = p ∧ weight psd ac k = p⁻¹ := by
  obtain ⟨h1, h2⟩ := h
  obtain ⟨p, hp⟩ := WithTop.ne_top_iff_exists.1 h1
  refine ⟨p, hp.symm, ?_⟩
  rw [weight, if_neg h2, ← hp]
  simp [recip]

omit [NeZero n] in
theorem weight_unused {psd : ZMod n → WithTop ℝ} {ac : Bool} {k : ZMod n} (h : ¬ Used psd ac k) :
    weight psd ac k = 0 := by
  unfold Used at h
  rw [weight]
  split_ifs with h2
  · rfl
  · have : psd k = ⊤ := by by_contra h1; exact h ⟨h1, h2⟩
    rw [this]; rfl

omit [NeZero n] in
theorem weight_symm {psd : ZMod n → WithTop ℝ} (hs : ∀ k, psd (-k) = psd k) (ac : Bool) (k : ZMod n) :
    weight psd ac (-k) = weight psd ac k := by
  unfold weight
  simp only [hs, neg_eq_zero]

/-- The filter whose transform is the pulse weighted by the inverse noise power. -/
noncomputable def gOpt (fs : ℝ) (wt p : ZMod n → ℝ) (j : ZMod n) : ℝ :=
  (ifft (fun k => fftR p k * (wt k : ℂ)) j).re / fs

theorem gOpt_fft (fs : ℝ) (wt p : ZMod n → ℝ) (hw : ∀ k, wt (-k) = wt k) (k : ZMod n) :
    fftR (gOpt fs wt p) k = fftR p k * (wt k : ℂ) / (fs : ℂ) := by
  set F : ZMod n → ℂ := fun k => fftR p k * (wt k : ℂ) with hF
  have hreal : ∀ j, (((ifft F j).re : ℝ) : ℂ) = ifft F j := by
    intro j
    refine Complex.conj_eq_iff_re.1 ?_
    rw [ifft_apply, map_mul, map_sum]
    congr 1
    · simp
    · refine Fintype.sum_equiv (Equiv.neg _) _ _ fun k => ?_
      simp only [Equiv.neg_apply, hF, map_mul, conj_e, Complex.conj_ofReal]
      rw [← fftR_neg, hw, neg_mul]
  have : gOpt fs wt p = fun j => fs⁻¹ * (ifft F j).re := by
    funext j; unfold gOpt; rw [← hF]; ring
  rw [this, fftR_smul]
  have : fftR (fun j => (ifft F j).re) = fft (ifft F) := by
    unfold fftR fft; congr 1; funext j; exact hreal j
  rw [this, fft_ifft, hF]
  push_cast; ring

/-- The inner product with a pulse is that filter. -/
theorem ip_gOpt (fs : ℝ) (wt p x : ZMod n → ℝ) (hw : ∀ k, wt (-k) = wt k) :
    ip fs wt p x = ∑ j, gOpt fs wt p j * x j := by
  have hn : (n : ℝ) ≠ 0 := Nat.cast_ne_zero.2 (NeZero.ne n)
  have h1 := congrArg Complex.re (parseval_mul (gOpt fs wt p) x)
  rw [← Complex.ofReal_natCast, Complex.re_mul_ofReal, Complex.ofReal_re, Complex.re_sum] at h1
  have h2 : (∑ j, gOpt fs wt p j * x j) =
      (∑ k, (starRingEnd ℂ (fftR (gOpt fs wt p) k) * fftR x k).re) / n := by
    rw [← h1]; field_simp
  rw [h2, Finset.sum_div, ip]
  refine Finset.sum_congr rfl fun k _ => ?_
  rw [gOpt_fft fs wt p hw]
  rcases eq_or_ne fs 0 with rfl | hfs
  · simp
  simp only [map_mul, map_div₀, Complex.conj_ofReal]
  have e1 : starRingEnd ℂ (fftR p k) / (fs : ℂ) * (fftR x k / (fs : ℂ)) =
      (starRingEnd ℂ (fftR p k) * fftR x k) * ((1 / fs ^ 2 : ℝ) : ℂ) := by push_cast; ring
  have e2 : starRingEnd ℂ (fftR p k) * (wt k : ℂ) / (fs : ℂ) * fftR x k =
      (starRingEnd ℂ (fftR p k) * fftR x k) * ((wt k / fs : ℝ) : ℂ) := by push_cast; ring
  rw [e1, e2, Complex.re_mul_ofReal, Complex.re_mul_ofReal]
  field_simp

/-- Noise power times weight is one in the bins used. -/
theorem psd_weight {psd : ZMod n → WithTop ℝ} {R : ZMod n → ℝ} {fs : ℝ} (hR : HasPsd R fs psd)
    (hpsd : ∀ k, 0 < psd k) (ac : Bool) {k : ZMod n} (h : Used psd ac k) :
    0 < weight psd ac k ∧ (fftR R k).re * weight psd ac k = fs := by
  obtain ⟨p, h1, h2⟩ := weight_used h
  have hp : 0 < p := by have := hpsd k; rw [h1] at this; exact_mod_cast this
  refine ⟨h2 ▸ inv_pos.2 hp, ?_⟩
  rw [hR k p h1, h2, Complex.ofReal_re]
  field_simp

section filter
variable {Ω : Type*} [MeasurableSpace Ω] {μ : Measure Ω} {noise : Ω → ZMod n → ℝ} {R : ZMod n → ℝ}
  {psd : ZMod n → WithTop ℝ} {fs : ℝ}

/-- The variance of the inner product of the noise with a pulse is the norm of the pulse. -/
theorem Stationary.ip_sq (h : Stationary μ noise R) (hR : HasPsd R fs psd) (hpsd : ∀ k, 0 < psd k)
    (hs : ∀ k, psd (-k) = psd k) (hfs : 0 < fs) (ac : Bool) (p : ZMod n → ℝ) :
    ∫ ω, (ip fs (weight psd ac) p (noise ω)) ^ 2 ∂μ = traceChi2 fs (weight psd ac) p := by
  have hn : (n : ℝ) ≠ 0 := Nat.cast_ne_zero.2 (NeZero.ne n)
  simp only [ip_gOpt fs _ p _ (weight_symm hs ac)]
  rw [h.var, traceChi2, Finset.sum_div]
  refine Finset.sum_congr rfl fun k _ => ?_
  rw [gOpt_fft fs _ p (weight_symm hs ac)]
  by_cases hu : Used psd ac k
  · obtain ⟨h1, h2⟩ := psd_weight hR hpsd ac hu
    simp only [norm_div, norm_mul, Complex.norm_real, Real.norm_eq_abs, abs_of_pos hfs, abs_of_pos h1]
    have h3 : (fftR R k).re = fs / weight psd ac k := by rw [← h2]; field_simp
    rw [h3]
    field_simp
  · simp [weight_unused hu]

/-- Cauchy-Schwarz in the bins used: no estimator has a smaller variance. -/
theorem Stationary.var_ge (h : Stationary μ noise R) (hR : HasPsd R fs psd) (hpsd : ∀ k, 0 < psd k)
    (hfs : 0 < fs) {ac : Bool} {p g : ZMod n → ℝ} (hg : Estimator psd ac p g) :
    1 ≤ (∫ ω, (∑ j, g j * noise ω j) ^ 2 ∂μ) * traceChi2 fs (weight psd ac) p := by
  have hn : (0 : ℝ) < n := Nat.cast_pos.2 (Nat.pos_of_ne_zero (NeZero.ne n))
  have h1 := congrArg Complex.re (parseval_mul g p)
  rw [hg.unit, ← Complex.ofReal_natCast, Complex.re_mul_ofReal, Complex.ofReal_re, one_mul,
    Complex.re_sum] at h1
  have hcs := Finset.sum_mul_sq_le_sq_mul_sq Finset.univ
    (fun k => ‖fftR g k‖ * Real.sqrt (fftR R k).re)
    (fun k => ‖fftR p k‖ * Real.sqrt (weight psd ac k / fs))
  have hR0 : ∀ k, 0 ≤ (fftR R k).re := by
    intro k
    have := h.bin k
    have h0 : 0 ≤ ∫ ω, ‖fftR (noise ω) k‖ ^ 2 ∂μ := integral_nonneg fun ω => by positivity
    rw [this] at h0
    exact nonneg_of_mul_nonneg_right h0 hn
  have hle : (n : ℝ) ≤ ∑ k, ‖fftR g k‖ * Real.sqrt (fftR R k).re *
      (‖fftR p k‖ * Real.sqrt (weight psd ac k / fs)) := by
    rw [h1]
    refine Finset.sum_le_sum fun k _ => ?_
    by_cases hu : Used psd ac k
    · obtain ⟨h1, h2⟩ := psd_weight hR hpsd ac hu
      have h3 : Real.sqrt (fftR R k).re * Real.sqrt (weight psd ac k / fs) = 1 := by
        rw [← Real.sqrt_mul (hR0 k), ← mul_div_assoc, h2, div_self hfs.ne', Real.sqrt_one]
      have h4 : ‖fftR g k‖ * Real.sqrt (fftR R k).re * (‖fftR p k‖ * Real.sqrt (weight psd ac k / fs)) =
          ‖fftR g k‖ * ‖fftR p k‖ := by
        rw [show ‖fftR g k‖ * Real.sqrt (fftR R k).re * (‖fftR p k‖ * Real.sqrt (weight psd ac k / fs)) =
          ‖fftR g k‖ * ‖fftR p k‖ * (Real.sqrt (fftR R k).re * Real.sqrt (weight psd ac k / fs)) by ring,
          h3, mul_one]
      rw [h4]
      refine (Complex.re_le_norm _).trans ?_
      rw [norm_mul, Complex.norm_conj]
    · simp [hg.used k hu]
  have e1 : ∑ k, (‖fftR g k‖ * Real.sqrt (fftR R k).re) ^ 2 =
      (∫ ω, (∑ j, g j * noise ω j) ^ 2 ∂μ) * n := by
    rw [h.var, div_mul_cancel₀ _ hn.ne']
    refine Finset.sum_congr rfl fun k _ => ?_
    rw [mul_pow, Real.sq_sqrt (hR0 k)]
  have e2 : ∑ k, (‖fftR p k‖ * Real.sqrt (weight psd ac k / fs)) ^ 2 =
      traceChi2 fs (weight psd ac) p * n := by
    rw [traceChi2, Finset.sum_mul]
    refine Finset.sum_congr rfl fun k _ => ?_
    rw [mul_pow, Real.sq_sqrt (div_nonneg (weight_nonneg psd ac hpsd k) hfs.le), norm_div, div_pow,
      Complex.norm_real, Real.norm_eq_abs, sq_abs]
    field_simp
  rw [e1, e2] at hcs
  have hsq : (n : ℝ) ^ 2 ≤ (∑ k, ‖fftR g k‖ * Real.sqrt (fftR R k).re *
      (‖fftR p k‖ * Real.sqrt (weight psd ac k / fs))) ^ 2 := by
    gcongr
  have := hsq.trans hcs
  have hn2 : (0 : ℝ) < n ^ 2 := by positivity
  refine le_of_mul_le_mul_right ?_ hn2
  linarith

/-- What the filter makes of a noisy pulse. -/
theorem nodelay_pulse (hfs : fs ≠ 0) (ac : Bool) (T : ZMod n → ℝ)
    (hN : traceChi2 fs (weight psd ac) T ≠ 0) (a : ℝ) (wc : ℤ) (x : ZMod n → ℝ) :
    (nodelay (init (pulse T a wc x) T psd fs ac false) wc).1 =
      (a + ip fs (weight psd ac) (roll T wc) x / traceChi2 fs (weight psd ac) T,
        traceChi2 fs (weight psd ac) x -
          (ip fs (weight psd ac) (roll T wc) x) ^ 2 / traceChi2 fs (weight psd ac) T) := by
  have hA : (nodelay (init (pulse T a wc x) T psd fs ac false) wc).1.1 =
      a + ip fs (weight psd ac) (roll T wc) x / traceChi2 fs (weight psd ac) T := by
    rw [init_nodelay_amp _ _ _ _ _ hfs, init_sfTd, init_norm]
    unfold pulse
    rw [ip_add_right, ip_smul_right, ip_self, traceChi2_roll]
    field_simp
  have hC : (nodelay (init (pulse T a wc x) T psd fs ac false) wc).1.2 =
      readChi0 (init (pulse T a wc x) T psd fs ac false) -
        (nodelay (init (pulse T a wc x) T psd fs ac false) wc).1.1 ^ 2 *
          (init (pulse T a wc x) T psd fs ac false).norm := rfl
  refine Prod.ext hA ?_
  rw [hC, hA, init_chi0, init_norm]
  have : pulse T a wc x = fun j => x j - (-a) * roll T (wc : ZMod n) j := by
    funext j; unfold pulse; ring
  rw [this, traceChi2_expand1, traceChi2_roll]
  field_simp
  ring

open Classical in
theorem sum_used (hR : HasPsd R fs psd) (hpsd : ∀ k, 0 < psd k) (hfs : 0 < fs) (ac : Bool)
    (P : ZMod n → Prop) :
    ∑ k, (if P k then (fftR R k).re * weight psd ac k / fs else 0) =
      ((Finset.univ.filter fun k => Used psd ac k ∧ P k).card : ℝ) := by
  rw [Finset.card_filter, Nat.cast_sum]
  refine Finset.sum_congr rfl fun k _ => ?_
  by_cases hu : Used psd ac k
  · rw [(psd_weight hR hpsd ac hu).2, div_self hfs.ne']
    simp [hu]
  · simp [hu, weight_unused hu]

end filter

/-! ### Generated noise -/

theorem fftR_injective {x y : ZMod n → ℝ} (h : ∀ k, fftR x k = fftR y k) : x = y := by
  have h1 : (fun j => (x j : ℂ)) = fun j => (y j : ℂ) := ZMod.dft.injective (funext h)
  funext j
  exact_mod_cast congrFun h1 j

/-- The impulse response of `gen_noise`. -/
noncomputable def impulse (psd : ZMod n → ℝ) (fs : ℝ) : ZMod n → ℝ :=
  Noise.genNoise psd fs fun j => if j = 0 then 1 else 0

theorem impulse_fft (psd : ZMod n → ℝ) (fs : ℝ) (hs : ∀ k, psd (-k) = psd k) (k : ZMod n) :
    fftR (impulse psd fs) k = (Real.sqrt (psd k * fs) : ℂ) := by
  rw [impulse, Noise.genNoise_fft psd fs _ hs, fftR_apply, Finset.sum_eq_single 0]
  · simp
  · intro j _ hj; simp [hj]
  · simp

theorem impulse_even (psd : ZMod n → ℝ) (fs : ℝ) (hs : ∀ k, psd (-k) = psd k) (j : ZMod n) :
    impulse psd fs (-j) = impulse psd fs j := by
  have : (fun j => impulse psd fs (-j)) = impulse psd fs := by
    refine fftR_injective fun k => ?_
    have : fftR (fun j => impulse psd fs (-j)) k = fftR (impulse psd fs) (-k) := by
      rw [fftR_apply, fftR_apply]
      refine Fintype.sum_equiv (Equiv.neg _) _ _ fun j => ?_
      simp only [Equiv.neg_apply]
      congr 2; ring
    rw [this, impulse_fft psd fs hs, impulse_fft psd fs hs, hs]
  exact congrFun this j

theorem genNoise_conv (psd : ZMod n → ℝ) (fs : ℝ) (hs : ∀ k, psd (-k) = psd k) (vals : ZMod n → ℝ) :
    Noise.genNoise psd fs vals = fun i => ∑ j, vals j * impulse psd fs (i - j) :=
  fftR_injective fun k => by rw [conv_fft, Noise.genNoise_fft psd fs _ hs, impulse_fft psd fs hs]

/-- The autocovariance of generated noise. -/
noncomputable def genCov (psd : ZMod n → ℝ) (fs : ℝ) : ZMod n → ℝ :=
  fun d => ∑ l, impulse psd fs l * impulse psd fs (d - l)

theorem genCov_psd (psd : ZMod n → ℝ) (fs : ℝ) (hs : ∀ k, psd (-k) = psd k) (hp : ∀ k, 0 ≤ psd k)
    (hfs : 0 ≤ fs) : HasPsd (genCov psd fs) fs fun k => (psd k : WithTop ℝ) := by
  intro k p hk
  have hk' : psd k = p := WithTop.coe_injective hk
  unfold genCov
  rw [conv_fft, impulse_fft psd fs hs, ← Complex.ofReal_mul,
    Real.mul_self_sqrt (mul_nonneg (hp k) hfs), hk', mul_comm]

theorem genNoise_stationary_aux {Ω : Type*} [MeasurableSpace Ω] {μ : Measure Ω} {vals : Ω → ZMod n → ℝ}
    [IsFiniteMeasure μ] (psd : ZMod n → ℝ) (fs : ℝ) (hs : ∀ k, psd (-k) = psd k)
    (h : Stationary μ vals fun d => if d = 0 then 1 else 0) :
    Stationary μ (fun ω => Noise.genNoise psd fs (vals ω)) (genCov psd fs) := by
  have e : ∀ ω i, Noise.genNoise psd fs (vals ω) i = ∑ j, impulse psd fs (i - j) * vals ω j := by
    intro ω i
    rw [genNoise_conv psd fs hs]
    exact Finset.sum_congr rfl fun j _ => mul_comm _ _
  refine ⟨fun i => ?_, fun i => ?_, fun i i' => ?_⟩
  · simp only [e]
    exact memLp_finsetSum _ fun j _ => (h.sq_int j).const_mul _
  · simp only [e]
    exact h.lin _
  · simp only [e]
    rw [h.lin2 (fun j => impulse psd fs (i - j)) fun j => impulse psd fs (i' - j), genCov]
    have : ∀ l, ∑ m, impulse psd fs (i - l) * impulse psd fs (i' - m) * (if l - m = 0 then (1 : ℝ) else 0) =
        impulse psd fs (i - l) * impulse psd fs (i' - l) := by
      intro l
      rw [Finset.sum_eq_single l]
      · simp
      · intro m _ hm; simp [sub_ne_zero.2 hm.symm]
      · simp
    simp only [this]
    refine Fintype.sum_equiv (Equiv.subLeft i) _ _ fun l => ?_
    simp only [Equiv.subLeft_apply]
    rw [← impulse_even psd fs hs (i' - l)]
    congr 2; ring

theorem nUsed_finite (psd : ZMod n → ℝ) (ac : Bool) :
    (nUsed (fun k => (psd k : WithTop ℝ)) ac : ℝ) = n - (if ac then 1 else 0) := by
  classical
  unfold nUsed Used
  simp only [ne_eq, WithTop.coe_ne_top, not_false_eq_true, true_and]
  cases ac
  · simp [ZMod.card]
  · simp only [true_and, if_true]
    rw [Finset.filter_not, Finset.filter_eq' Finset.univ (0 : ZMod n), if_pos (Finset.mem_univ _),
      Finset.card_sdiff_of_subset (Finset.subset_univ _), Finset.card_univ, ZMod.card,
      Finset.card_singleton, Nat.cast_sub (Nat.pos_of_ne_zero (NeZero.ne n))]
    simp

/-! ### Chi-square around a noise-free pulse -/

/-- Contribution of one bin to the norm. -/
noncomputable def curv (fs : ℝ) (wt T : ZMod n → ℝ) (k : ZMod n) : ℝ :=
  ‖fftR T k / (fs : ℂ)‖ ^ 2 * wt k * (fs / n)

theorem abs_freqIdx (k : ZMod n) : |(freqIdx k : ℝ)| ≤ n / 2 := by
  have hk := ZMod.val_lt k
  have h : 2 * |freqIdx k| ≤ n := by
    unfold freqIdx
    split_ifs with h
    · rw [abs_of_nonneg (by positivity)]; omega
    · rw [abs_of_nonpos (by omega)]; omega
  have : ((2 * |freqIdx k| : ℤ) : ℝ) ≤ ((n : ℤ) : ℝ) := by exact_mod_cast h
  push_cast at this
  linarith

theorem abs_fftfreq {fs : ℝ} (hfs : 0 < fs) (k : ZMod n) : |fftfreq fs k| ≤ fs / 2 := by
  have hn : (0 : ℝ) < n := Nat.cast_pos.2 (Nat.pos_of_ne_zero (NeZero.ne n))
  have := abs_freqIdx k
  rw [fftfreq, abs_div, abs_mul, abs_of_pos hfs, abs_of_pos hn, div_le_iff₀ hn]
  nlinarith

theorem norm_sub_phase (A a θ : ℝ) (s : ℂ) :
    ‖(A : ℂ) * s - a * Complex.exp (-(θ * Complex.I)) * s‖ ^ 2 =
      ‖s‖ ^ 2 * (A ^ 2 - 2 * A * a * Real.cos θ + a ^ 2) := by
  rw [← sub_mul, norm_mul, mul_pow, mul_comm]
  congr 1
  rw [← neg_mul, ← Complex.ofReal_neg, Complex.exp_mul_I, ← Complex.ofReal_cos, ← Complex.ofReal_sin,
    Real.cos_neg, Real.sin_neg, ← Complex.normSq_eq_norm_sq, Complex.normSq_apply]
  simp only [Complex.sub_re, Complex.sub_im, Complex.mul_re, Complex.mul_im, Complex.add_re, Complex.add_im,
    Complex.ofReal_re, Complex.ofReal_im, Complex.I_re, Complex.I_im]
  linear_combination a ^ 2 * Real.sin_sq_add_cos_sq θ

theorem lowfreq_free {psd : ZMod n → WithTop ℝ} {fs : ℝ} (hfs : 0 < fs) (ac : Bool) (T : ZMod n → ℝ)
    (A fc : ℝ) (hfc : fs / 2 ≤ fc) (a t : ℝ) :
    (chi2Lowfreq (init (fun j => A * T j) T psd fs ac false) a t fc).1 =
      ∑ k, curv fs (weight psd ac) T k *
        (A ^ 2 - 2 * A * a * Real.cos (2 * Real.pi * fftfreq fs k * t) + a ^ 2) := by
  simp only [chi2Lowfreq, init_freqs, init_v, init_s, init_w, init_df]
  refine Finset.sum_congr rfl fun k _ => ?_
  rw [if_pos ((abs_fftfreq hfs k).trans hfc), fftR_smul, mul_div_assoc]
  have := norm_sub_phase A a (2 * Real.pi * fftfreq fs k * t) (fftR T k / (fs : ℂ))
  rw [show -2 * Complex.I * (Real.pi : ℂ) * (t : ℂ) * (fftfreq fs k : ℂ) =
    -(((2 * Real.pi * fftfreq fs k * t : ℝ) : ℂ) * Complex.I) by push_cast; ring, this, curv]
  ring

/-- The chi-square of the traces themselves under the PSD made of them, bin by bin. -/
theorem psd_bin {m : ℕ} (x : Fin m → ZMod n → ℝ) {fs : ℝ} (hfs : 0 < fs) (ac : Bool)
    (hpos : ∀ k, 0 < Noise.calcPsdTwoSided x fs k) (k : ZMod n) :
    Noise.avg (fun t => ‖fftR (x t) k / (fs : ℂ)‖ ^ 2 *
      weight (fun k => (Noise.calcPsdTwoSided x fs k : WithTop ℝ)) ac k * (fs / n)) =
      if ac ∧ k = 0 then 0 else 1 := by
  have hn : (n : ℝ) ≠ 0 := Nat.cast_ne_zero.2 (NeZero.ne n)
  by_cases h : ac = true ∧ k = 0
  · simp [weight, h, Noise.avg]
  · rw [if_neg h, weight, if_neg h]
    have hp := hpos k
    have hr : recip ((Noise.calcPsdTwoSided x fs k : ℝ) : WithTop ℝ) =
      1 / Noise.calcPsdTwoSided x fs k := rfl
    rw [hr]
    unfold Noise.calcPsdTwoSided Noise.avg at hp ⊢
    simp only [norm_div, div_pow, Complex.norm_real, Real.norm_eq_abs, sq_abs, ← Finset.sum_mul,
      ← Finset.sum_div]
    generalize (∑ t, ‖fftR (x t) k‖ ^ 2) = S at hp ⊢
    have hm : (m : ℝ) ≠ 0 := by
      rintro h0; rw [h0] at hp; simp at hp
    have hS : S ≠ 0 := by
      rintro h0; rw [h0] at hp; simp at hp
    field_simp

end Verif.OF
