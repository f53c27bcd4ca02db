import Verif.NoiseLimitSpec
import Verif.NoiseResidLemmas
import Mathlib.Probability.StrongLaw
import Mathlib.Analysis.Matrix.Order
import Mathlib.Topology.Instances.Matrix
import Mathlib.MeasureTheory.Function.L2Space

/-! Auxiliary lemmas of property C150. -/

namespace Verif.Noise
open Verif Verif.Dft MeasureTheory ProbabilityTheory Filter Topology

variable {n c : ℕ} [NeZero n] {Ω : Type*} [MeasurableSpace Ω] {μ : Measure Ω} {noise : ℕ → Ω → Fin c → ZMod n → ℝ}

theorem rfft_continuous (i : Fin c) (k : Half n) : Continuous fun y : Fin c → ZMod n → ℝ => rfft (y i) k := by
  simp only [rfft, fftR_apply]
  fun_prop

theorem segFft_continuous (i : Fin c) (k : Half n) : Continuous fun y : Fin c → ZMod n → ℝ => segFft (y i) k := by
  simp only [segFft, rfft, fftR_apply]
  fun_prop

theorem csd1_continuous (i j : Fin c) (fs : ℝ) (k : Half n) : Continuous fun y : Fin c → ZMod n → ℝ => csd1 (y i) (y j) fs k := by
  unfold csd1
  exact ((Complex.continuous_conj.comp (segFft_continuous i k)).mul (segFft_continuous j k)).mul continuous_const

/-- Linear functions of square-integrable traces. -/
theorem lin_memLp {x : Ω → Fin c → ZMod n → ℝ} (hx : ∀ i s, MemLp (fun ω => x ω i s) 2 μ) (i : Fin c) (a : ZMod n → ℂ) :
    MemLp (fun ω => ∑ s, a s * (x ω i s : ℂ)) 2 μ :=
  memLp_finsetSum _ fun s _ => ((hx i s).ofReal).const_mul (a s)

theorem rfft_memLp {x : Ω → Fin c → ZMod n → ℝ} (hx : ∀ i s, MemLp (fun ω => x ω i s) 2 μ) (i : Fin c) (k : Half n) :
    MemLp (fun ω => rfft (x ω i) k) 2 μ := by
  simp only [rfft, fftR_apply]
  exact lin_memLp hx i _

/-- The windowed transform as a linear function of the trace. -/
theorem segFft_lin (k : Half n) : ∃ a : ZMod n → ℂ, ∀ x : ZMod n → ℝ, segFft x k = ∑ s, a s * (x s : ℂ) := by
  refine ⟨fun s => e (-(s * k.bin)) * hann n s - (∑ j, e (-(j * k.bin)) * hann n j) / n, fun x => ?_⟩
  simp only [segFft, rfft, fftR_apply]
  push_cast
  simp only [sub_mul, Finset.sum_sub_distrib, mul_sub]
  congr 1
  · exact Finset.sum_congr rfl fun j _ => by ring
  · rw [← Finset.mul_sum, div_mul_eq_mul_div, mul_div_assoc, Finset.sum_mul]
    exact Finset.sum_congr rfl fun j _ => by ring

theorem segFft_memLp {x : Ω → Fin c → ZMod n → ℝ} (hx : ∀ i s, MemLp (fun ω => x ω i s) 2 μ) (i : Fin c) (k : Half n) :
    MemLp (fun ω => segFft (x ω i) k) 2 μ := by
  obtain ⟨a, ha⟩ := segFft_lin (n := n) k
  simp only [ha]
  exact lin_memLp hx i a

theorem csd1_integrable {x : Ω → Fin c → ZMod n → ℝ} (hx : ∀ i s, MemLp (fun ω => x ω i s) 2 μ) (i j : Fin c) (fs : ℝ) (k : Half n) :
    Integrable (fun ω => csd1 (x ω i) (x ω j) fs k) μ := by
  unfold csd1
  have h : MemLp (fun ω => starRingEnd ℂ (segFft (x ω i) k)) 2 μ := (segFft_memLp hx i k).star
  exact (h.integrable_mul (segFft_memLp hx j k)).mul_const _

omit [NeZero n] in
/-- The strong law of large numbers for a function of the recordings. -/
theorem Series.law (h : Series μ noise) {φ : (Fin c → ZMod n → ℝ) → ℝ} (hφ : Measurable φ)
    (hi : Integrable (fun ω => φ (noise 0 ω)) μ) :
    ∀ᵐ ω ∂μ, Tendsto (fun m : ℕ => avg fun t : Fin m => φ (noise t ω)) atTop (𝓝 (∫ ω, φ (noise 0 ω) ∂μ)) := by
  have := strong_law_ae_real (fun a ω => φ (noise a ω)) hi (fun a b hab => (h.independent hab).comp hφ hφ)
    fun a => (h.alike a).comp hφ
  filter_upwards [this] with ω hω
  refine hω.congr fun m => ?_
  unfold avg
  rw [Finset.sum_range]

/-- The same for a complex function. -/
theorem Series.lawC (h : Series μ noise) {φ : (Fin c → ZMod n → ℝ) → ℂ} (hφ : Continuous φ)
    (hi : Integrable (fun ω => φ (noise 0 ω)) μ) :
    ∀ᵐ ω ∂μ, Tendsto (fun m : ℕ => (∑ t : Fin m, φ (noise t ω)) / m) atTop (𝓝 (∫ ω, φ (noise 0 ω) ∂μ)) := by
  have h1 := h.law (φ := fun y => (φ y).re) (Complex.continuous_re.comp hφ).measurable hi.re
  have h2 := h.law (φ := fun y => (φ y).im) (Complex.continuous_im.comp hφ).measurable hi.im
  filter_upwards [h1, h2] with ω e1 e2
  have := ((Complex.continuous_ofReal.tendsto _).comp e1).add (((Complex.continuous_ofReal.tendsto _).comp e2).mul_const Complex.I)
  rw [show (∫ ω, φ (noise 0 ω) ∂μ) = ((∫ ω, (φ (noise 0 ω)).re ∂μ : ℝ) : ℂ) + ((∫ ω, (φ (noise 0 ω)).im ∂μ : ℝ) : ℂ) * Complex.I by
    conv_lhs => rw [← integral_re_add_im hi]
    rfl]
  refine this.congr fun m => ?_
  simp only [Function.comp, avg]
  push_cast
  rw [div_mul_eq_mul_div, ← add_div, Finset.sum_mul, ← Finset.sum_add_distrib]
  congr 1
  exact Finset.sum_congr rfl fun t _ => Complex.re_add_im _

/-- The unnormalised covariance of a sample. -/
theorem cov_avg {m : ℕ} (hm : m ≠ 0) (a b : Fin m → ℝ) : cov a b / m = avg (fun t => a t * b t) - avg a * avg b := by
  have hm' : (m : ℝ) ≠ 0 := Nat.cast_ne_zero.2 hm
  have h1 : ∑ t, a t = m * avg a := by unfold avg; field_simp
  have h2 : ∑ t, b t = m * avg b := by unfold avg; field_simp
  have : cov a b = (∑ t, a t * b t) - m * (avg a * avg b) := by
    unfold cov
    simp only [sub_mul, mul_sub, Finset.sum_sub_distrib, ← Finset.mul_sum, ← Finset.sum_mul, h1, h2,
      Finset.sum_const, Finset.card_univ, Fintype.card_fin, nsmul_eq_mul]
    ring
  rw [this, sub_div, mul_div_cancel_left₀ _ hm']
  rfl

/-- Sample correlation coefficients tend to the correlation coefficient of the population. -/
theorem corrcoef_tendsto {a b : (m : ℕ) → Fin m → ℝ} {A B AA BB AB : ℝ} (ha : Tendsto (fun m => avg (a m)) atTop (𝓝 A))
    (hb : Tendsto (fun m => avg (b m)) atTop (𝓝 B)) (haa : Tendsto (fun m => avg fun t => a m t * a m t) atTop (𝓝 AA))
    (hbb : Tendsto (fun m => avg fun t => b m t * b m t) atTop (𝓝 BB)) (hab : Tendsto (fun m => avg fun t => a m t * b m t) atTop (𝓝 AB))
    (h1 : 0 < AA - A * A) (h2 : 0 < BB - B * B) :
    ∃ r : ℕ → ℝ, (∀ᶠ m in atTop, corrcoef (a m) (b m) = some (r m)) ∧
      Tendsto r atTop (𝓝 ((AB - A * B) / (Real.sqrt (AA - A * A) * Real.sqrt (BB - B * B)))) := by
  have ca := haa.sub (ha.mul ha)
  have cb := hbb.sub (hb.mul hb)
  have cab := hab.sub (ha.mul hb)
  refine ⟨fun m => (cov (a m) (b m) / m) / (Real.sqrt (cov (a m) (a m) / m) * Real.sqrt (cov (b m) (b m) / m)), ?_, ?_⟩
  · filter_upwards [ca.eventually (lt_mem_nhds h1), cb.eventually (lt_mem_nhds h2), eventually_ne_atTop 0] with m e1 e2 hm
    have hm' : (0 : ℝ) < m := Nat.cast_pos.2 (Nat.pos_of_ne_zero hm)
    rw [← cov_avg hm] at e1 e2
    have p1 : 0 < cov (a m) (a m) := by
      have := mul_pos e1 hm'
      rwa [div_mul_cancel₀ _ hm'.ne'] at this
    have p2 : 0 < cov (b m) (b m) := by
      have := mul_pos e2 hm'
      rwa [div_mul_cancel₀ _ hm'.ne'] at this
    unfold corrcoef
    rw [if_neg (by push Not; exact ⟨p1.ne', p2.ne'⟩)]
    congr 1
    rw [Real.sqrt_div p1.le, Real.sqrt_div p2.le, div_mul_div_comm, Real.mul_self_sqrt hm'.le, div_div_div_cancel_right₀ hm'.ne']
  · have := cab.div ((Real.continuous_sqrt.tendsto _).comp ca |>.mul ((Real.continuous_sqrt.tendsto _).comp cb))
      (mul_ne_zero (Real.sqrt_pos.2 h1).ne' (Real.sqrt_pos.2 h2).ne')
    refine this.congr' ?_
    filter_upwards [eventually_ne_atTop 0] with m hm
    simp only [Function.comp, cov_avg hm, Pi.div_apply]

/-- The power of a combination of channels is a quadratic form. -/
theorem popMix_form {x : Ω → Fin c → ZMod n → ℝ} (hx : ∀ i s, MemLp (fun ω => x ω i s) 2 μ) (fs : ℝ) (k : Half n) (w : Fin c → ℂ) :
    ∑ i, starRingEnd ℂ (w i) * (∑ j, popCsd μ x fs i j k * w j) = (popMix μ x fs k w : ℂ) := by
  have hI : ∀ i j, Integrable (fun ω => starRingEnd ℂ (w i) * (csd1 (x ω i) (x ω j) fs k * w j)) μ := fun i j =>
    ((csd1_integrable hx i j fs k).mul_const _).const_mul _
  have h1 : ∀ i j, starRingEnd ℂ (w i) * (popCsd μ x fs i j k * w j) =
      ∫ ω, starRingEnd ℂ (w i) * (csd1 (x ω i) (x ω j) fs k * w j) ∂μ := by
    intro i j
    rw [integral_const_mul, integral_mul_const]
    rfl
  simp only [Finset.mul_sum, h1]
  rw [show (popMix μ x fs k w : ℂ) = ∫ ω, ∑ i, ∑ j, starRingEnd ℂ (w i) * (csd1 (x ω i) (x ω j) fs k * w j) ∂μ from ?_]
  · rw [integral_finsetSum _ fun i _ => integrable_finsetSum _ fun j _ => hI i j]
    exact Finset.sum_congr rfl fun i _ => (integral_finsetSum _ fun j _ => hI i j).symm
  · unfold popMix
    rw [← integral_const_mul, ← integral_complex_ofReal]
    refine integral_congr_ae (Eventually.of_forall fun ω => ?_)
    simp only [csd1]
    push_cast
    have : ((‖∑ i, w i * segFft (x ω i) k‖ : ℂ) ^ 2) = starRingEnd ℂ (∑ i, w i * segFft (x ω i) k) * ∑ i, w i * segFft (x ω i) k := by
      rw [mul_comm, Complex.mul_conj, Complex.normSq_eq_norm_sq]
      push_cast
      rfl
    rw [this, map_sum, Finset.sum_mul_sum, Finset.mul_sum]
    refine Finset.sum_congr rfl fun i _ => ?_
    rw [Finset.mul_sum]
    refine Finset.sum_congr rfl fun j _ => ?_
    rw [map_mul]
    ring

theorem popCsd_conj {x : Ω → Fin c → ZMod n → ℝ} (fs : ℝ) (i j : Fin c) (k : Half n) :
    starRingEnd ℂ (popCsd μ x fs i j k) = popCsd μ x fs j i k := by
  unfold popCsd
  rw [← integral_conj]
  refine integral_congr_ae (Eventually.of_forall fun ω => ?_)
  simp only [csd1, map_mul, Complex.conj_conj, Complex.conj_ofReal]
  ring

open scoped ComplexOrder MatrixOrder Matrix.Norms.L2Operator in
/-- The matrix of the population is a Gram matrix, regular if no combination of the channels is silent. -/
theorem pop_gram {x : Ω → Fin c → ZMod n → ℝ} (hx : ∀ i s, MemLp (fun ω => x ω i s) 2 μ) {fs : ℝ} {k : Half n}
    (hpos : ∀ w : Fin c → ℂ, w ≠ 0 → 0 < popMix μ x fs k w) :
    (Matrix.of fun i j => popCsd μ x fs i j k).det ≠ 0 ∧
    ∃ A : Fin c → Fin c → ℂ, (∀ i j, (Matrix.of fun i j => popCsd μ x fs i j k) i j = ∑ t, starRingEnd ℂ (A t i) * A t j * ((1 : ℝ) : ℂ)) ∧
      ∀ w : Fin c → ℂ, popMix μ x fs k w = ∑ t, ‖∑ i, w i * A t i‖ ^ 2 * 1 := by
  have hPD : (Matrix.of fun i j => popCsd μ x fs i j k).PosDef := by
    refine Matrix.PosDef.of_dotProduct_mulVec_pos ?_ fun w hw => ?_
    · ext i j
      exact popCsd_conj fs j i k
    · have : star w ⬝ᵥ (Matrix.of fun i j => popCsd μ x fs i j k).mulVec w = (popMix μ x fs k w : ℂ) := popMix_form hx fs k w
      rw [this]
      exact_mod_cast hpos w hw
  refine ⟨hPD.det_pos.ne', ?_⟩
  obtain ⟨A, hA⟩ := CStarAlgebra.nonneg_iff_eq_star_mul_self.mp hPD.posSemidef.nonneg
  have hA' : ∀ i j, (Matrix.of fun i j => popCsd μ x fs i j k) i j = ∑ t, starRingEnd ℂ (A t i) * A t j * ((1 : ℝ) : ℂ) := by
    intro i j
    rw [hA, Matrix.mul_apply]
    refine Finset.sum_congr rfl fun t _ => ?_
    rw [Complex.ofReal_one, mul_one]
    rfl
  refine ⟨A, hA', fun w => ?_⟩
  have h1 := gram_form A 1 _ hA' w
  rw [show (∑ i, starRingEnd ℂ (w i) * ∑ k_1, (Matrix.of fun i j => popCsd μ x fs i j k) i k_1 * w k_1) = (popMix μ x fs k w : ℂ)
    from popMix_form hx fs k w] at h1
  exact_mod_cast h1

/-- The measured cross spectra tend to those of the population. -/
theorem csd_law (h : Series μ noise) (fs : ℝ) :
    ∀ᵐ ω ∂μ, ∀ i j k, Tendsto (fun m : ℕ => (csdOf (fun t : Fin m => noise t ω) fs).csd i j k) atTop
      (𝓝 (popCsd μ (noise 0) fs i j k)) := by
  rw [ae_all_iff]
  intro i
  rw [ae_all_iff]
  intro j
  rw [ae_all_iff]
  intro k
  exact h.lawC (φ := fun y => csd1 (y i) (y j) fs k) (csd1_continuous i j fs k) (csd1_integrable h.sq_int i j fs k)

theorem inv_entry_tendsto {M : ℕ → Matrix (Fin c) (Fin c) ℂ} {M0 : Matrix (Fin c) (Fin c) ℂ} (hM : Tendsto M atTop (𝓝 M0))
    (hd : M0.det ≠ 0) (i j : Fin c) : Tendsto (fun m => (M m)⁻¹ i j) atTop (𝓝 (M0⁻¹ i j)) := by
  have h1 : Tendsto (fun m => (M m).det) atTop (𝓝 M0.det) := ((Continuous.matrix_det continuous_id).tendsto _).comp hM
  have h2 : Tendsto (fun m => (M m).adjugate i j) atTop (𝓝 (M0.adjugate i j)) := by
    have := ((Continuous.matrix_adjugate (continuous_id (X := Matrix (Fin c) (Fin c) ℂ))).tendsto M0).comp hM
    exact tendsto_pi_nhds.1 (tendsto_pi_nhds.1 this i) j
  simp only [Matrix.inv_def, Matrix.smul_apply, Ring.inverse_eq_inv', smul_eq_mul]
  exact (h1.inv₀ hd).mul h2

theorem uncorr_fresh {m : ℕ} {o : Obj m c n} (hc : c ≠ 1) (h0 : o.csd = none)
    (hd : ∀ k, (csdMat (csdOf o.traces o.fs) k).det ≠ 0) : (calculateUncorrNoise o).1 = .ok () ∧
      (calculateUncorrNoise o).2.uncorr = some (uncorrOf (csdOf o.traces o.fs)) ∧
      (calculateUncorrNoise o).2.corr = some (corrOf (csdOf o.traces o.fs)) := by
  have hm' : ¬ ∃ k, (csdMat (csdOf o.traces o.fs) k).det = 0 := by
    push Not
    exact hd
  simp only [calculateUncorrNoise, h0, calculateCsd, if_neg hc, storeUncorr]
  rw [if_neg hm']
  exact ⟨rfl, rfl, rfl⟩

/-! Stationary noise -/

theorem e_re (j : ZMod n) : (e j).re = Real.cos (2 * Real.pi * j.val / n) := by
  have h := ZMod.stdAddChar_coe (N := n) (j.val : ℤ)
  rw [Int.cast_natCast, ZMod.natCast_zmod_val] at h
  rw [show e j = _ from h]
  have : (2 * Real.pi * Complex.I * ((j.val : ℤ) : ℂ) / n : ℂ) = ((2 * Real.pi * j.val / n : ℝ) : ℂ) * Complex.I := by
    push_cast
    ring
  rw [this, Complex.exp_ofReal_mul_I_re]

theorem hann_e (hn : n ≠ 1) (j : ZMod n) : (hann n j : ℂ) = 1 / 2 - (e j + e (-j)) / 4 := by
  unfold hann
  rw [if_neg hn, ← e_re, ← conj_e, Complex.add_conj]
  push_cast
  ring

theorem sum_e {t : ZMod n} (ht : t ≠ 0) : ∑ j : ZMod n, e (j * t) = 0 := by
  rw [sum_e_mul, if_neg ht]

omit [NeZero n] in
theorem two_ne (hn : 3 ≤ n) : (1 : ZMod n) ≠ 0 ∧ (2 : ZMod n) ≠ 0 := by
  constructor
  · rw [show (1 : ZMod n) = ((1 : ℕ) : ZMod n) by simp, Ne, ZMod.natCast_eq_zero_iff]
    exact fun h => absurd (Nat.le_of_dvd Nat.one_pos h) (by omega)
  · rw [show (2 : ZMod n) = ((2 : ℕ) : ZMod n) by simp, Ne, ZMod.natCast_eq_zero_iff]
    exact fun h => absurd (Nat.le_of_dvd Nat.two_pos h) (by omega)

theorem hann_sum (hn : 3 ≤ n) : ∑ j, hann n j ^ 2 = 3 * n / 8 := by
  obtain ⟨h1, h2⟩ := two_ne hn
  have h : ((∑ j, hann n j ^ 2 : ℝ) : ℂ) = ((3 * n / 8 : ℝ) : ℂ) := by
    push_cast
    have : ∀ j : ZMod n, (hann n j : ℂ) ^ 2 = 3 / 8 - e (j * 1) / 4 - e (j * -1) / 4 + e (j * 2) / 16 + e (j * -2) / 16 := by
      intro j
      have e1 : e j * e (-j) = 1 := by rw [mul_comm, e_neg_mul_e]
      have e2 : e (j * 2) = e j * e j := by rw [mul_two, e_add]
      have e3 : e (j * -2) = e (-j) * e (-j) := by rw [mul_neg, mul_two, neg_add, e_add]
      rw [hann_e (by omega), e2, e3, mul_one, mul_neg, mul_one]
      linear_combination (1 / 8 : ℂ) * e1
    simp only [this, Finset.sum_add_distrib, Finset.sum_sub_distrib, ← Finset.sum_div, sum_e h1, sum_e (neg_ne_zero.2 h1),
      sum_e h2, sum_e (neg_ne_zero.2 h2)]
    simp only [Finset.sum_const, Finset.card_univ, ZMod.card, nsmul_eq_mul]
    ring
  exact_mod_cast h

/-- The weight of bin `a` in the windowed transform at bin `b`. -/
noncomputable def leak (b a : ZMod n) : ℝ :=
  if a = 0 then 0 else if a = b then 1 / 2 else if a = b - 1 ∨ a = b + 1 then -(1 / 4) else 0

omit [NeZero n] in
theorem neighbours (hn : 3 ≤ n) (b : ZMod n) : b - 1 ≠ b ∧ b + 1 ≠ b ∧ b - 1 ≠ b + 1 := by
  obtain ⟨h1, h2⟩ := two_ne hn
  refine ⟨fun h => h1 (by simpa using h), fun h => h1 (by simpa using h), fun h => h2 ?_⟩
  calc (2 : ZMod n) = (b + 1) - (b - 1) := by ring
    _ = 0 := by rw [h, sub_self]

theorem sum_leak (hn : 3 ≤ n) (b : ZMod n) (f : ZMod n → ℂ) (g : ℝ → ℂ) (h0 : g 0 = 0) :
    ∑ a, g (leak b a) * f a = g (1 / 2) * noDc f b + g (-(1 / 4)) * noDc f (b - 1) + g (-(1 / 4)) * noDc f (b + 1) := by
  obtain ⟨n1, n2, n3⟩ := neighbours hn b
  have : ∀ a, g (leak b a) * f a = (if a = b then g (1 / 2) * noDc f a else 0) + (if a = b - 1 then g (-(1 / 4)) * noDc f a else 0) +
      (if a = b + 1 then g (-(1 / 4)) * noDc f a else 0) := by
    intro a
    unfold leak noDc
    by_cases ha : a = 0
    · simp [ha, h0]
    rw [if_neg ha, if_neg ha]
    by_cases hb : a = b
    · rw [if_pos hb, if_pos hb, if_neg (fun h => n1 (h.symm.trans hb)), if_neg (fun h => n2 (h.symm.trans hb))]
      ring
    rw [if_neg hb, if_neg hb]
    by_cases hc : a = b - 1
    · rw [if_pos (Or.inl hc), if_pos hc, if_neg (fun h => n3 (hc.symm.trans h))]
      ring
    by_cases hd : a = b + 1
    · rw [if_pos (Or.inr hd), if_neg hc, if_pos hd]
      ring
    rw [if_neg (by tauto), if_neg hc, if_neg hd, h0]
    ring
  simp only [this, Finset.sum_add_distrib, Finset.sum_ite_eq', Finset.mem_univ, if_true]

theorem fftR_noMean (x : ZMod n → ℝ) (a : ZMod n) : fftR (fun j => x j - (∑ i, x i) / n) a = noDc (fftR x) a := by
  have hn : (n : ℂ) ≠ 0 := Nat.cast_ne_zero.2 (NeZero.ne n)
  rw [fftR_sub, fftR_const]
  unfold noDc
  split_ifs with h
  · rw [h, fftR_zero_bin]
    push_cast
    rw [mul_div_cancel₀ _ hn, sub_self]
  · rw [sub_zero]

theorem segFft_leak (hn : 3 ≤ n) (x : ZMod n → ℝ) (k : Half n) : segFft x k = ∑ a, (leak k.bin a : ℂ) * fftR x a := by
  rw [sum_leak hn k.bin (fftR x) (fun r => (r : ℂ)) (by simp)]
  simp only [← fftR_noMean]
  simp only [segFft, rfft]
  rw [fftR_apply, fftR_apply, fftR_apply, fftR_apply, Finset.mul_sum, Finset.mul_sum, Finset.mul_sum, ← Finset.sum_add_distrib,
    ← Finset.sum_add_distrib]
  refine Finset.sum_congr rfl fun j _ => ?_
  have e1 : e (-(j * (k.bin - 1))) = e (-(j * k.bin)) * e j := by rw [← e_add]; congr 1; ring
  have e2 : e (-(j * (k.bin + 1))) = e (-(j * k.bin)) * e (-j) := by rw [← e_add]; congr 1; ring
  rw [e1, e2, Complex.ofReal_mul, hann_e (by omega)]
  push_cast
  ring

/-- Different frequencies of stationary noise are uncorrelated. -/
theorem Joint.cross {x : Ω → Fin c → ZMod n → ℝ} {R : Fin c → Fin c → ZMod n → ℝ} (h : Joint μ x R)
    (hx : ∀ i s, MemLp (fun ω => x ω i s) 2 μ) (i j : Fin c) (a b : ZMod n) :
    ∫ ω, starRingEnd ℂ (fftR (x ω i) a) * fftR (x ω j) b ∂μ = if a = b then n * fftR (R i j) b else 0 := by
  have hI : ∀ s s', Integrable (fun ω => e (s * a) * e (-(s' * b)) * ((x ω i s * x ω j s' : ℝ) : ℂ)) μ := fun s s' =>
    (((hx i s).integrable_mul (hx j s')).ofReal).const_mul _
  have h1 : ∀ ω, starRingEnd ℂ (fftR (x ω i) a) * fftR (x ω j) b =
      ∑ s, ∑ s', e (s * a) * e (-(s' * b)) * ((x ω i s * x ω j s' : ℝ) : ℂ) := by
    intro ω
    rw [fftR_apply, fftR_apply, map_sum, Finset.sum_mul_sum]
    refine Finset.sum_congr rfl fun s _ => Finset.sum_congr rfl fun s' _ => ?_
    rw [map_mul, conj_e, neg_neg, Complex.conj_ofReal]
    push_cast
    ring
  simp only [h1]
  rw [integral_finsetSum _ fun s _ => integrable_finsetSum _ fun s' _ => hI s s']
  have h2 : ∀ s, ∫ ω, ∑ s', e (s * a) * e (-(s' * b)) * ((x ω i s * x ω j s' : ℝ) : ℂ) ∂μ = e (s * (a - b)) * fftR (R i j) b := by
    intro s
    rw [integral_finsetSum _ fun s' _ => hI s s', fftR_apply, Finset.mul_sum]
    refine Fintype.sum_equiv (Equiv.subRight s) _ _ fun s' => ?_
    rw [integral_const_mul, integral_complex_ofReal, h i j s s', Equiv.subRight_apply, ← mul_assoc, ← e_add, ← e_add]
    congr 2
    ring
  simp only [h2, ← Finset.sum_mul, sum_e_mul]
  by_cases hab : a = b
  · rw [if_pos (sub_eq_zero.2 hab), if_pos hab]
  · rw [if_neg (fun h => hab (sub_eq_zero.1 h)), if_neg hab, zero_mul]

theorem fftR_memLp {x : Ω → Fin c → ZMod n → ℝ} (hx : ∀ i s, MemLp (fun ω => x ω i s) 2 μ) (i : Fin c) (k : ZMod n) :
    MemLp (fun ω => fftR (x ω i) k) 2 μ := by
  simp only [fftR_apply]
  exact lin_memLp hx i _

/-- The windowed cross moments of stationary noise. -/
theorem Joint.seg {x : Ω → Fin c → ZMod n → ℝ} {R : Fin c → Fin c → ZMod n → ℝ} (h : Joint μ x R)
    (hx : ∀ i s, MemLp (fun ω => x ω i s) 2 μ) (hn : 3 ≤ n) (i j : Fin c) (k : Half n) :
    ∫ ω, starRingEnd ℂ (segFft (x ω i) k) * segFft (x ω j) k ∂μ =
      n / 16 * (4 * noDc (fftR (R i j)) k.bin + noDc (fftR (R i j)) (k.bin - 1) + noDc (fftR (R i j)) (k.bin + 1)) := by
  have hI : ∀ a b, Integrable (fun ω => (leak k.bin a * leak k.bin b : ℂ) * (starRingEnd ℂ (fftR (x ω i) a) * fftR (x ω j) b)) μ :=
    fun a b => ((show MemLp (fun ω => starRingEnd ℂ (fftR (x ω i) a)) 2 μ from (fftR_memLp hx i a).star).integrable_mul
      (fftR_memLp hx j b)).const_mul _
  have h1 : ∀ ω, starRingEnd ℂ (segFft (x ω i) k) * segFft (x ω j) k =
      ∑ a, ∑ b, (leak k.bin a * leak k.bin b : ℂ) * (starRingEnd ℂ (fftR (x ω i) a) * fftR (x ω j) b) := by
    intro ω
    rw [segFft_leak hn, segFft_leak hn, map_sum, Finset.sum_mul_sum]
    refine Finset.sum_congr rfl fun a _ => Finset.sum_congr rfl fun b _ => ?_
    rw [map_mul, Complex.conj_ofReal]
    ring
  simp only [h1]
  rw [integral_finsetSum _ fun a _ => integrable_finsetSum _ fun b _ => hI a b]
  have h2 : ∀ a, ∫ ω, ∑ b, (leak k.bin a * leak k.bin b : ℂ) * (starRingEnd ℂ (fftR (x ω i) a) * fftR (x ω j) b) ∂μ =
      (fun r : ℝ => (r : ℂ) ^ 2) (leak k.bin a) * (n * fftR (R i j) a) := by
    intro a
    rw [integral_finsetSum _ fun b _ => hI a b]
    simp only [integral_const_mul, h.cross hx, mul_ite, mul_zero, Finset.sum_ite_eq, Finset.mem_univ, if_true]
    ring
  simp only [h2]
  rw [sum_leak hn k.bin (fun a => n * fftR (R i j) a) (fun r => (r : ℂ) ^ 2) (by simp)]
  have h3 : ∀ a, noDc (fun a => n * fftR (R i j) a) a = n * noDc (fftR (R i j)) a := by
    intro a
    unfold noDc
    split_ifs <;> simp
  simp only [h3]
  push_cast
  ring

/-- The cross spectra of stationary noise. -/
theorem pop_smooth {x : Ω → Fin c → ZMod n → ℝ} {R : Fin c → Fin c → ZMod n → ℝ} (h : Joint μ x R)
    (hx : ∀ i s, MemLp (fun ω => x ω i s) 2 μ) (hn : 3 ≤ n) (fs : ℝ) (i j : Fin c) (k : Half n) :
    popCsd μ x fs i j k = (if 1 ≤ (k : ℕ) ∧ 2 * (k : ℕ) < n then 2 else 1) / fs *
      ((noDc (fftR (R i j)) (k.bin - 1) + 4 * noDc (fftR (R i j)) k.bin + noDc (fftR (R i j)) (k.bin + 1)) / 6) := by
  have hn0 : (n : ℂ) ≠ 0 := Nat.cast_ne_zero.2 (NeZero.ne n)
  unfold popCsd csd1
  rw [integral_mul_const, h.seg hx hn, csdScale, hann_sum hn]
  split_ifs <;> push_cast <;> field_simp <;> ring

end Verif.Noise
