import Verif.OFOtherSpec
import Verif.OFStatProps

/-! Auxiliary lemmas of property C157. -/

namespace Verif.OF
open Verif Verif.Dft MeasureTheory

variable {n : ℕ} [NeZero n]
variable {Ω : Type*} [MeasurableSpace Ω] {μ : Measure Ω} {noise : Ω → ZMod n → ℝ} {R J : ZMod n → ℝ}
  {psd : ZMod n → WithTop ℝ} {fs : ℝ}

theorem psd_re (hR : HasPsd R fs fun k => (J k : WithTop ℝ)) (k : ZMod n) : (fftR R k).re = fs * J k := by
  rw [hR k (J k) rfl, Complex.ofReal_re]

/-- The variance of the inner product of the noise with a pulse. -/
theorem Stationary.ip_var (h : Stationary μ noise R) (hR : HasPsd R fs fun k => (J k : WithTop ℝ))
    (hs : ∀ k, psd (-k) = psd k) (hfs : 0 < fs) (ac : Bool) (p : ZMod n → ℝ) :
    ∫ ω, (ip fs (weight psd ac) p (noise ω)) ^ 2 ∂μ =
      ∑ k, ‖fftR p k / (fs : ℂ)‖ ^ 2 * weight psd ac k ^ 2 * J k * (fs / n) := by
  have hn : (n : ℝ) ≠ 0 := Nat.cast_ne_zero.2 (NeZero.ne n)
  simp only [ip_gOpt fs _ p _ (weight_symm hs ac)]
  rw [h.var, Finset.sum_div]
  refine Finset.sum_congr rfl fun k _ => ?_
  rw [gOpt_fft fs _ p (weight_symm hs ac), psd_re hR]
  simp only [norm_div, norm_mul, Complex.norm_real, Real.norm_eq_abs, abs_of_pos hfs, mul_pow, div_pow, sq_abs]
  field_simp

omit [NeZero n] in
/-- Noise power times weight. -/
theorem within_weight {ac : Bool} {c C : ℝ} (hpsd : ∀ k, 0 < psd k) (hw : Within psd ac J c C) {k : ZMod n}
    (hu : Used psd ac k) : 0 < weight psd ac k ∧ c ≤ weight psd ac k * J k ∧ weight psd ac k * J k ≤ C := by
  obtain ⟨p, h1, h2⟩ := weight_used hu
  have hp : 0 < p := by have := hpsd k; rw [h1] at this; exact_mod_cast this
  obtain ⟨e1, e2⟩ := hw k p hu h1
  rw [h2, inv_mul_eq_div]
  exact ⟨inv_pos.2 hp, (le_div_iff₀ hp).2 e1, (div_le_iff₀ hp).2 e2⟩

/-- Bin by bin between the bounds. -/
theorem sum_within {ac : Bool} {c C : ℝ} (hpsd : ∀ k, 0 < psd k) (hw : Within psd ac J c C) {f : ZMod n → ℝ}
    (hf : ∀ k, Used psd ac k → 0 ≤ f k) (h0 : ∀ k, ¬ Used psd ac k → f k = 0) :
    c * ∑ k, f k ≤ ∑ k, f k * (weight psd ac k * J k) ∧ ∑ k, f k * (weight psd ac k * J k) ≤ C * ∑ k, f k := by
  rw [Finset.mul_sum, Finset.mul_sum]
  constructor <;> refine Finset.sum_le_sum fun k _ => ?_
  all_goals
    by_cases hu : Used psd ac k
    · obtain ⟨-, e1, e2⟩ := within_weight hpsd hw hu
      have := hf k hu
      nlinarith
    · simp [h0 k hu]

/-- The share of a bin in the norm of the template. -/
noncomputable def share (fs : ℝ) (psd : ZMod n → WithTop ℝ) (ac : Bool) (T : ZMod n → ℝ) (k : ZMod n) : ℝ :=
  ‖fftR T k / (fs : ℂ)‖ ^ 2 * weight psd ac k * (fs / n) / traceChi2 fs (weight psd ac) T

theorem share_sum {ac : Bool} {T : ZMod n → ℝ} (hN : traceChi2 fs (weight psd ac) T ≠ 0) :
    ∑ k, share fs psd ac T k = 1 := by
  unfold share
  rw [← Finset.sum_div]
  exact div_self hN

theorem share_bounds {ac : Bool} {T : ZMod n → ℝ} (hpsd : ∀ k, 0 < psd k) (hfs : 0 < fs)
    (hN : traceChi2 fs (weight psd ac) T ≠ 0) (k : ZMod n) : 0 ≤ share fs psd ac T k ∧ share fs psd ac T k ≤ 1 := by
  have h0 : ∀ k, 0 ≤ share fs psd ac T k := fun k => by
    have h1 : 0 ≤ traceChi2 fs (weight psd ac) T := ip_nonneg fs _ T hfs.le (weight_nonneg psd ac hpsd)
    have h2 := weight_nonneg psd ac hpsd k
    unfold share
    positivity
  refine ⟨h0 k, ?_⟩
  rw [← share_sum hN]
  exact Finset.single_le_sum (f := share fs psd ac T) (fun k _ => h0 k) (Finset.mem_univ k)

theorem share_unused {ac : Bool} {T : ZMod n → ℝ} {k : ZMod n} (h : ¬ Used psd ac k) : share fs psd ac T k = 0 := by
  rw [share, weight_unused h]
  simp

/-- A roll does not change the power in a bin. -/
theorem norm_roll (T : ZMod n → ℝ) (m k : ZMod n) : ‖fftR (roll T m) k / (fs : ℂ)‖ = ‖fftR T k / (fs : ℂ)‖ := by
  rw [fftR_roll, norm_div, norm_mul, norm_e, one_mul, norm_div]

/-- The spread of the amplitude as a weighted mean of the ratio of the two spectra. -/
theorem var_share (h : Stationary μ noise R) (hR : HasPsd R fs fun k => (J k : WithTop ℝ))
    (hs : ∀ k, psd (-k) = psd k) (hfs : 0 < fs) {ac : Bool} {T : ZMod n → ℝ} (m : ZMod n) :
    (∫ ω, (ip fs (weight psd ac) (roll T m) (noise ω)) ^ 2 ∂μ) / traceChi2 fs (weight psd ac) T =
      ∑ k, share fs psd ac T k * (weight psd ac k * J k) := by
  rw [h.ip_var hR hs hfs, Finset.sum_div]
  refine Finset.sum_congr rfl fun k _ => ?_
  rw [norm_roll, share]
  ring

end Verif.OF
