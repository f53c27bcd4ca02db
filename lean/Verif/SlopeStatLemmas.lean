import Verif.SlopeStatSpec
import Verif.UtilsProps
import Verif.NoiseLemmas
import Mathlib.Probability.Distributions.Gaussian.Real

/-! Auxiliary lemmas of property C162. -/

namespace Verif.SlopeStat
open Verif MeasureTheory

variable {n : ℕ} {Ω : Type*} [MeasurableSpace Ω] {μ : Measure Ω} {noise : Ω → Fin n → ℝ} {v : ℝ}

/-- The mean. -/
noncomputable def mid (x : Fin n → ℝ) : ℝ := (∑ i, x i) / n

/-- The sum of the squared distances from the mean. -/
noncomputable def sxx (x : Fin n → ℝ) : ℝ := ∑ i, (x i - mid x) ^ 2

theorem sum_dev (x : Fin n → ℝ) (hn : 0 < n) : ∑ i, (x i - mid x) = 0 := Utils.sum_centered x hn

theorem dev_mul (x : Fin n → ℝ) (hn : 0 < n) : ∑ i, (x i - mid x) * x i = sxx x := by
  have h := sum_dev x hn
  have : ∀ i, (x i - mid x) * x i = (x i - mid x) ^ 2 + (x i - mid x) * mid x := fun i => by ring
  simp_rw [this]
  rw [Finset.sum_add_distrib, ← Finset.sum_mul, h, zero_mul, add_zero, sxx]

/-- The slope as a weighted sum of the data. -/
theorem slope_weights (x y : Fin n → ℝ) (hn : 0 < n) : Utils.slope x y true = ∑ i, (x i - mid x) / sxx x * y i := by
  have h := sum_dev x hn
  unfold Utils.slope
  simp only [if_true]
  change (∑ i, (x i - mid x) * (y i - mid x)) / sxx x = _
  have : ∀ i, (x i - mid x) * (y i - mid x) = (x i - mid x) * y i - (x i - mid x) * mid x := fun i => by ring
  simp_rw [this]
  rw [Finset.sum_sub_distrib, ← Finset.sum_mul, h, zero_mul, sub_zero, Finset.sum_div]
  exact Finset.sum_congr rfl fun i _ => by ring

theorem slope_scattered (x : Fin n → ℝ) (hx : ∃ i j, x i ≠ x j) (a b : ℝ) (y : Fin n → ℝ) :
    Utils.slope x (scattered x a b y) true = a + ∑ i, (x i - mid x) / sxx x * y i := by
  have hn : 0 < n := by obtain ⟨i, _, _⟩ := hx; exact Fin.pos i
  have h1 := Utils.slope_linear x (fun i => a * x i + b) y hn 1 1
  simp only [one_mul] at h1
  rw [← slope_weights x y hn]
  rw [Utils.slope_affine x hx a b] at h1
  exact h1

theorem weights_sq (x : Fin n → ℝ) (hs : sxx x ≠ 0) : ∑ i, ((x i - mid x) / sxx x) ^ 2 = 1 / sxx x := by
  simp_rw [div_pow]
  rw [← Finset.sum_div]
  change sxx x / sxx x ^ 2 = _
  field_simp

theorem memLp_comb (h : ∀ i, MemLp (fun ω => noise ω i) 2 μ) (w : Fin n → ℝ) :
    MemLp (fun ω => ∑ i, w i * noise ω i) 2 μ :=
  memLp_finsetSum _ fun i _ => (h i).const_mul (w i)

theorem mean_comb (h1 : ∀ i, Integrable (fun ω => noise ω i) μ) (h0 : ∀ i, ∫ ω, noise ω i ∂μ = 0) (w : Fin n → ℝ) :
    Integrable (fun ω => ∑ i, w i * noise ω i) μ ∧ ∫ ω, ∑ i, w i * noise ω i ∂μ = 0 := by
  refine ⟨integrable_finsetSum _ fun i _ => (h1 i).const_mul _, ?_⟩
  rw [integral_finsetSum _ fun i _ => (h1 i).const_mul _]
  refine Finset.sum_eq_zero fun i _ => ?_
  rw [integral_const_mul, h0, mul_zero]

theorem var_comb (h : White μ noise v) (w : Fin n → ℝ) : ∫ ω, (∑ i, w i * noise ω i) ^ 2 ∂μ = v * ∑ i, w i ^ 2 := by
  have hint : ∀ i j, Integrable (fun ω => w i * noise ω i * (w j * noise ω j)) μ := by
    intro i j
    exact ((h.sq_int i).const_mul (w i)).integrable_mul ((h.sq_int j).const_mul (w j))
  have e : ∀ ω, (∑ i, w i * noise ω i) ^ 2 = ∑ i, ∑ j, w i * noise ω i * (w j * noise ω j) := by
    intro ω
    rw [sq, Finset.sum_mul_sum]
  simp_rw [e]
  rw [integral_finsetSum _ fun i _ => integrable_finsetSum _ fun j _ => hint i j]
  rw [Finset.mul_sum]
  refine Finset.sum_congr rfl fun i _ => ?_
  rw [integral_finsetSum _ fun j _ => hint i j, Finset.sum_eq_single i]
  · have : ∀ ω, w i * noise ω i * (w i * noise ω i) = w i ^ 2 * (noise ω i * noise ω i) := fun ω => by ring
    simp_rw [this]
    rw [integral_const_mul, h.cov, if_pos rfl]
    ring
  · intro j _ hj
    have : ∀ ω, w i * noise ω i * (w j * noise ω j) = w i * w j * (noise ω i * noise ω j) := fun ω => by ring
    simp_rw [this]
    rw [integral_const_mul, h.cov, if_neg (Ne.symm hj), mul_zero]
  · simp

/-- Weights which give the slope of every line. -/
theorem weights_excess (x w : Fin n → ℝ) (hs : sxx x ≠ 0) (h0 : ∑ i, w i = 0) (h1 : ∑ i, w i * x i = 1) :
    ∑ i, w i ^ 2 = 1 / sxx x + ∑ i, (w i - (x i - mid x) / sxx x) ^ 2 := by
  have hd : ∑ i, w i * (x i - mid x) = 1 := by
    simp_rw [mul_sub]
    rw [Finset.sum_sub_distrib, ← Finset.sum_mul, h0, h1]
    ring
  have : ∀ i, (w i - (x i - mid x) / sxx x) ^ 2 = w i ^ 2 - 2 / sxx x * (w i * (x i - mid x)) + ((x i - mid x) / sxx x) ^ 2 :=
    fun i => by ring
  simp_rw [this]
  rw [Finset.sum_add_distrib, Finset.sum_sub_distrib, ← Finset.mul_sum, hd, weights_sq x hs]
  ring

/-- The samples of the default time axis. -/
theorem sxx_times (n : ℕ) {fs : ℝ} (hn : 0 < n) :
    sxx (fun i : Fin n => (i : ℝ) / fs) = n * (n ^ 2 - 1) / (12 * fs ^ 2) := by
  have hn' : (n : ℝ) ≠ 0 := by exact_mod_cast hn.ne'
  have g1 : ∀ m : ℕ, (∑ k ∈ Finset.range m, (k : ℝ)) = m * (m - 1) / 2 := by
    intro m
    induction m with
    | zero => simp
    | succ m ih =>
      rw [Finset.sum_range_succ, ih]
      push_cast
      ring
  have g2 : ∀ m : ℕ, (∑ k ∈ Finset.range m, (k : ℝ) ^ 2) = m * (m - 1) * (2 * m - 1) / 6 := by
    intro m
    induction m with
    | zero => simp
    | succ m ih =>
      rw [Finset.sum_range_succ, ih]
      push_cast
      ring
  have s1 : ∑ i : Fin n, (i : ℝ) = n * (n - 1) / 2 := by rw [← g1, Finset.sum_range]
  have s2 : ∑ i : Fin n, (i : ℝ) ^ 2 = n * (n - 1) * (2 * n - 1) / 6 := by rw [← g2, Finset.sum_range]
  have hm : mid (fun i : Fin n => (i : ℝ) / fs) = (n - 1) / 2 / fs := by
    rw [mid, ← Finset.sum_div, s1]
    field_simp
  rw [sxx, hm]
  have : ∀ i : Fin n, ((i : ℝ) / fs - (n - 1) / 2 / fs) ^ 2 = ((i : ℝ) ^ 2 - (n - 1) * i + (n - 1) ^ 2 / 4) / fs ^ 2 :=
    fun i => by ring
  simp_rw [this]
  rw [← Finset.sum_div, Finset.sum_add_distrib, Finset.sum_sub_distrib, ← Finset.mul_sum, s1, s2, Finset.sum_const,
    Finset.card_univ, Fintype.card_fin, nsmul_eq_mul]
  rw [show (12 * fs ^ 2) = fs ^ 2 * 12 by ring, ← div_div]
  ring

/-- What remains of the scatter after the fitted slope is removed. -/
theorem scatter_removed (x y : Fin n → ℝ) (hx : ∃ i j, x i ≠ x j) :
    ∑ i, ((y i - Utils.slope x y true * x i) - mid (fun i => y i - Utils.slope x y true * x i)) ^ 2 =
      ∑ i, y i ^ 2 - n * mid y ^ 2 - Utils.slope x y true ^ 2 * sxx x := by
  have hn : 0 < n := by obtain ⟨i, _, _⟩ := hx; exact Fin.pos i
  have hn' : (n : ℝ) ≠ 0 := by exact_mod_cast hn.ne'
  have hS : 0 < sxx x := Utils.sxx_pos x hx _
  have hs := slope_weights x y hn
  have hs' : ∑ i, (x i - mid x) * y i = Utils.slope x y true * sxx x := by
    rw [hs, Finset.sum_mul]
    refine Finset.sum_congr rfl fun i _ => ?_
    field_simp
  generalize Utils.slope x y true = s at *
  have hm : mid (fun i => y i - s * x i) = mid y - s * mid x := by
    simp only [mid, Finset.sum_sub_distrib, ← Finset.mul_sum]
    ring
  have hy : ∑ i, y i = n * mid y := by
    rw [mid]
    field_simp
  have hd := sum_dev x hn
  rw [hm]
  have : ∀ i, (y i - s * x i - (mid y - s * mid x)) ^ 2 = y i ^ 2 - 2 * mid y * y i + mid y ^ 2 - 2 * s * ((x i - mid x) * y i) +
      2 * s * mid y * (x i - mid x) + s ^ 2 * (x i - mid x) ^ 2 := fun i => by ring
  simp_rw [this]
  simp only [Finset.sum_add_distrib, Finset.sum_sub_distrib, ← Finset.mul_sum, hy, hs', hd, Finset.sum_const, Finset.card_univ,
    Fintype.card_fin, nsmul_eq_mul]
  rw [← sxx]
  ring

/-- The scatter left, on average, after the fitted slope is removed. -/
theorem scatter_mean [IsProbabilityMeasure μ] {x : Fin n → ℝ} (hx : ∃ i j, x i ≠ x j) (h : White μ noise v) (a b : ℝ) :
    ∫ ω, (∑ i, ((scattered x a b (noise ω) i - Utils.slope x (scattered x a b (noise ω)) true * x i) -
      (∑ j, (scattered x a b (noise ω) j - Utils.slope x (scattered x a b (noise ω)) true * x j)) / n) ^ 2) ∂μ = (n - 2) * v := by
  have hn : 0 < n := by obtain ⟨i, _, _⟩ := hx; exact Fin.pos i
  have hn' : (n : ℝ) ≠ 0 := by exact_mod_cast hn.ne'
  have hS : 0 < sxx x := Utils.sxx_pos x hx _
  have e : ∀ ω, ∑ i, ((scattered x a b (noise ω) i - Utils.slope x (scattered x a b (noise ω)) true * x i) -
      (∑ j, (scattered x a b (noise ω) j - Utils.slope x (scattered x a b (noise ω)) true * x j)) / n) ^ 2 =
      ∑ i, noise ω i ^ 2 - n * (∑ i, (n : ℝ)⁻¹ * noise ω i) ^ 2 - sxx x * (∑ i, (x i - mid x) / sxx x * noise ω i) ^ 2 := by
    intro ω
    have h1 := scatter_removed x (noise ω) hx
    have h2 : mid (noise ω) = ∑ i, (n : ℝ)⁻¹ * noise ω i := by
      rw [mid, ← Finset.mul_sum]
      ring
    rw [h2, slope_weights x (noise ω) hn, mul_comm _ (sxx x)] at h1
    rw [← h1]
    have h3 := slope_scattered x hx a b (noise ω)
    have h4 : ∀ i, scattered x a b (noise ω) i - Utils.slope x (scattered x a b (noise ω)) true * x i =
        (noise ω i - (∑ i, (x i - mid x) / sxx x * noise ω i) * x i) + b := by
      intro i
      rw [h3, scattered]
      ring
    simp_rw [h4]
    generalize (∑ i, (x i - mid x) / sxx x * noise ω i) = t
    refine Finset.sum_congr rfl fun i _ => ?_
    rw [mid, Finset.sum_add_distrib, Finset.sum_const, Finset.card_univ, Fintype.card_fin, nsmul_eq_mul, add_div,
      mul_div_cancel_left₀ _ hn']
    ring
  simp_rw [e]
  have i1 : ∀ i, Integrable (fun ω => noise ω i ^ 2) μ := fun i => (h.sq_int i).integrable_sq
  have i2 : Integrable (fun ω => (n : ℝ) * (∑ i, (n : ℝ)⁻¹ * noise ω i) ^ 2) μ :=
    (memLp_comb h.sq_int _).integrable_sq.const_mul _
  have i3 : Integrable (fun ω => sxx x * (∑ i, (x i - mid x) / sxx x * noise ω i) ^ 2) μ :=
    (memLp_comb h.sq_int _).integrable_sq.const_mul _
  have i0 : Integrable (fun ω => ∑ i, noise ω i ^ 2) μ := integrable_finsetSum _ fun i _ => i1 i
  have i4 : Integrable (fun ω => ∑ i, noise ω i ^ 2 - (n : ℝ) * (∑ i, (n : ℝ)⁻¹ * noise ω i) ^ 2) μ := i0.sub i2
  rw [integral_sub i4 i3, integral_sub i0 i2, integral_finsetSum _ fun i _ => i1 i, integral_const_mul,
    integral_const_mul, var_comb h, var_comb h, weights_sq x hS.ne']
  have h5 : ∀ i, ∫ ω, noise ω i ^ 2 ∂μ = v := by
    intro i
    simp_rw [sq]
    rw [h.cov, if_pos rfl]
  simp_rw [h5]
  rw [Finset.sum_const, Finset.sum_const, Finset.card_univ, Fintype.card_fin, nsmul_eq_mul, nsmul_eq_mul]
  field_simp
  ring

end Verif.SlopeStat
