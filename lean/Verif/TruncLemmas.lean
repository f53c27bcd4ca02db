import Verif.Trunc
import Verif.TruncSpec
import Mathlib.MeasureTheory.Integral.IntervalIntegral.FundThmCalculus
import Mathlib.MeasureTheory.Integral.IntervalIntegral.IntegrationByParts
import Mathlib.Analysis.SpecialFunctions.Log.Deriv
import Mathlib.Analysis.Calculus.Deriv.Inv
import Mathlib.Analysis.Calculus.Deriv.Pow
import Mathlib.Analysis.Calculus.Deriv.MeanValue
import Mathlib.Tactic.FieldSimp
import Mathlib.Tactic.Linarith
import Mathlib.Analysis.Complex.ExponentialBounds
import Mathlib.Analysis.SpecialFunctions.Integrals.Basic
import Verif.CutLemmas

/-! Helper lemmas for the truncated-normal estimators. -/

namespace Verif.Trunc
open Verif

theorem c_pos : 0 < Real.sqrt (2 * Real.pi) := Real.sqrt_pos.2 (by have := Real.pi_pos; linarith)

theorem φ_pos (z : ℝ) : 0 < φ z := div_pos (Real.exp_pos _) c_pos

theorem φ_cont : Continuous φ := by
  unfold φ
  fun_prop

theorem φ_neg (z : ℝ) : φ (-z) = φ z := by unfold φ; rw [neg_sq]

theorem φ_inj {a b : ℝ} (h : φ a = φ b) : a ^ 2 = b ^ 2 := by
  unfold φ at h
  have := Real.exp_injective ((div_left_inj' c_pos.ne').1 h)
  linarith

theorem Φ_deriv (z : ℝ) : HasDerivAt Φ (φ z) z := by
  unfold Φ
  have := intervalIntegral.integral_hasDerivAt_right (φ_cont.intervalIntegrable 0 z)
    (φ_cont.stronglyMeasurableAtFilter _ _) φ_cont.continuousAt
  exact this.const_add _

theorem Φ_strictMono : StrictMono Φ := by
  apply strictMono_of_deriv_pos
  intro z
  rw [(Φ_deriv z).deriv]
  exact φ_pos z

theorem Φ_sub (a b : ℝ) : Φ b - Φ a = ∫ u in a..b, φ u := by
  unfold Φ
  have := intervalIntegral.integral_add_adjacent_intervals (φ_cont.intervalIntegrable 0 a)
    (φ_cont.intervalIntegrable (μ := MeasureTheory.volume) a b)
  linarith

theorem density_eq {μ σ : ℝ} (hσ : 0 < σ) (v : ℝ) : density μ σ v = pdf v μ σ := by
  unfold density pdf φ
  rw [div_div, mul_comm σ]
  congr 2
  field_simp

theorem density_int {a b μ σ : ℝ} (hσ : 0 < σ) :
    ∫ u in a..b, density μ σ u = cdf b μ σ - cdf a μ σ := by
  unfold cdf
  rw [Φ_sub]
  have h1 : ∀ u, density μ σ u = σ⁻¹ * φ (u / σ - μ / σ) := by
    intro u
    rw [density_eq hσ, pdf, sub_div]
    ring
  simp_rw [h1]
  rw [intervalIntegral.integral_const_mul, intervalIntegral.integral_comp_div_sub _ hσ.ne',
    smul_eq_mul, inv_mul_cancel_left₀ hσ.ne', sub_div, sub_div]

theorem Z_pos {a b μ σ : ℝ} (hσ : 0 < σ) (hab : a < b) : 0 < cdf b μ σ - cdf a μ σ := by
  unfold cdf
  rw [sub_pos]
  apply Φ_strictMono
  gcongr

/-- The log likelihood in closed form. -/
theorem logLik_eq {a b μ σ : ℝ} (hσ : 0 < σ) (hab : a < b) (x : List ℝ) :
    logLik x a b μ σ = -((x.map fun v => v ^ 2).sum - 2 * μ * x.sum + x.length * μ ^ 2) / (2 * σ ^ 2) -
      x.length * Real.log σ - x.length * Real.log (Real.sqrt (2 * Real.pi)) -
      x.length * Real.log (cdf b μ σ - cdf a μ σ) := by
  induction x with
  | nil => simp [logLik]
  | cons v x ih =>
    have hz := Z_pos (μ := μ) hσ hab
    have hd : Real.log (density μ σ v / ∫ u in a..b, density μ σ u) =
        -(v - μ) ^ 2 / (2 * σ ^ 2) - Real.log σ - Real.log (Real.sqrt (2 * Real.pi)) -
          Real.log (cdf b μ σ - cdf a μ σ) := by
      rw [density_int hσ, density,
        Real.log_div (div_ne_zero (Real.exp_pos _).ne' (mul_pos hσ c_pos).ne') hz.ne',
        Real.log_div (Real.exp_pos _).ne' (mul_pos hσ c_pos).ne', Real.log_exp,
        Real.log_mul hσ.ne' c_pos.ne']
      ring
    have hc : logLik (v :: x) a b μ σ =
        Real.log (density μ σ v / ∫ u in a..b, density μ σ u) + logLik x a b μ σ := by
      simp [logLik]
    rw [hc, hd, ih]
    simp only [List.map_cons, List.sum_cons, List.length_cons, Nat.cast_add, Nat.cast_one]
    field_simp
    ring

theorem cdf_deriv_μ {x μ σ : ℝ} : HasDerivAt (fun m => cdf x m σ) (-pdf x μ σ) μ := by
  unfold cdf pdf
  have h1 : HasDerivAt (fun m : ℝ => (x - m) / σ) (-1 / σ) μ :=
    ((hasDerivAt_id μ).const_sub x).div_const σ
  have := (Φ_deriv ((x - μ) / σ)).comp μ h1
  refine this.congr_deriv ?_
  ring

theorem cdf_deriv_σ {x μ σ : ℝ} (hσ : 0 < σ) :
    HasDerivAt (fun s => cdf x μ s) (-((x - μ) * pdf x μ σ) / σ) σ := by
  unfold cdf pdf
  have h1 : HasDerivAt (fun s : ℝ => (x - μ) / s) (-(x - μ) / σ ^ 2) σ := by
    have := (hasDerivAt_inv hσ.ne').const_mul (x - μ)
    refine (this.congr_deriv ?_).congr_of_eventuallyEq ?_
    · rw [div_eq_mul_inv]; ring
    · exact Filter.Eventually.of_forall fun s => div_eq_mul_inv _ _
  have := (Φ_deriv ((x - μ) / σ)).comp σ h1
  refine this.congr_deriv ?_
  field_simp

/-- The score in the mean. -/
theorem logLik_deriv_μ {a b μ σ : ℝ} (hσ : 0 < σ) (hab : a < b) (x : List ℝ) :
    HasDerivAt (fun m => logLik x a b m σ)
      ((x.sum - x.length * μ + x.length * σ ^ 2 / (cdf b μ σ - cdf a μ σ) *
        (pdf b μ σ - pdf a μ σ)) / σ ^ 2) μ := by
  have hz := Z_pos (μ := μ) hσ hab
  have hfun : (fun m => logLik x a b m σ) = fun m =>
      -((x.map fun v => v ^ 2).sum - 2 * m * x.sum + x.length * m ^ 2) / (2 * σ ^ 2) -
      x.length * Real.log σ - x.length * Real.log (Real.sqrt (2 * Real.pi)) -
      x.length * Real.log (cdf b m σ - cdf a m σ) := funext fun m => logLik_eq hσ hab x
  rw [hfun]
  have h1 : HasDerivAt (fun m : ℝ => (x.map fun v => v ^ 2).sum - 2 * m * x.sum + x.length * m ^ 2)
      (-(2 * x.sum) + x.length * (2 * μ)) μ := by
    have e1 : HasDerivAt (fun m : ℝ => 2 * m * x.sum) (2 * x.sum) μ := by
      simpa using ((hasDerivAt_id μ).const_mul 2).mul_const x.sum
    have e2 : HasDerivAt (fun m : ℝ => (x.length : ℝ) * m ^ 2) (x.length * (2 * μ)) μ := by
      simpa using (hasDerivAt_pow 2 μ).const_mul (x.length : ℝ)
    exact (e1.const_sub _).add e2
  have h2 : HasDerivAt (fun m => Real.log (cdf b m σ - cdf a m σ))
      ((-pdf b μ σ - -pdf a μ σ) / (cdf b μ σ - cdf a μ σ)) μ :=
    (cdf_deriv_μ.sub cdf_deriv_μ).log hz.ne'
  have := (((h1.neg.div_const (2 * σ ^ 2)).sub_const (x.length * Real.log σ)).sub_const
    (x.length * Real.log (Real.sqrt (2 * Real.pi)))).sub (h2.const_mul (x.length : ℝ))
  refine this.congr_deriv ?_
  field_simp
  ring

/-- The score in the standard deviation. -/
theorem logLik_deriv_σ {a b μ σ : ℝ} (hσ : 0 < σ) (hab : a < b) (x : List ℝ) :
    HasDerivAt (fun s => logLik x a b μ s) (stdEqn x a b μ σ / σ ^ 3) σ := by
  have hz := Z_pos (μ := μ) hσ hab
  have hfun : (fun s => logLik x a b μ s) =ᶠ[nhds σ] fun s =>
      -((x.map fun v => v ^ 2).sum - 2 * μ * x.sum + x.length * μ ^ 2) / 2 * (s ^ 2)⁻¹ -
      x.length * Real.log s - x.length * Real.log (Real.sqrt (2 * Real.pi)) -
      x.length * Real.log (cdf b μ s - cdf a μ s) := by
    filter_upwards [lt_mem_nhds hσ] with s hs
    rw [logLik_eq hs hab x, ← div_div, div_eq_mul_inv _ (s ^ 2)]
  refine HasDerivAt.congr_of_eventuallyEq ?_ hfun
  set Q := (x.map fun v => v ^ 2).sum - 2 * μ * x.sum + x.length * μ ^ 2 with hQ
  have h1 : HasDerivAt (fun s : ℝ => (s ^ 2)⁻¹) (-(2 * σ) / (σ ^ 2) ^ 2) σ := by
    have := (hasDerivAt_pow 2 σ).inv (pow_ne_zero 2 hσ.ne')
    refine (this.congr_deriv ?_).congr_of_eventuallyEq (Filter.Eventually.of_forall fun s => rfl)
    simp
  have h2 : HasDerivAt (fun s => Real.log (cdf b μ s - cdf a μ s))
      ((-((b - μ) * pdf b μ σ) / σ - -((a - μ) * pdf a μ σ) / σ) / (cdf b μ σ - cdf a μ σ)) σ :=
    ((cdf_deriv_σ hσ).sub (cdf_deriv_σ hσ)).log hz.ne'
  have := (((h1.const_mul (-Q / 2)).sub ((Real.hasDerivAt_log hσ.ne').const_mul (x.length : ℝ))).sub_const
    (x.length * Real.log (Real.sqrt (2 * Real.pi)))).sub (h2.const_mul (x.length : ℝ))
  refine this.congr_deriv ?_
  unfold stdEqn
  rw [← hQ]
  field_simp
  ring

/-- The densities at the two bounds agree only for a centred mean. -/
theorem pdf_eq_iff {a b μ σ : ℝ} (hσ : 0 < σ) (hab : a < b) :
    pdf b μ σ = pdf a μ σ ↔ μ = (a + b) / 2 := by
  unfold pdf
  rw [div_left_inj' hσ.ne']
  constructor
  · intro h
    have := φ_inj h
    rw [div_pow, div_pow, div_left_inj' (by positivity)] at this
    have h2 : (b - a) * (b + a - 2 * μ) = 0 := by ring_nf; ring_nf at this; linarith
    rcases mul_eq_zero.1 h2 with h3 | h3
    · linarith
    · linarith
  · rintro rfl
    rw [← φ_neg]
    congr 1
    ring

theorem pdf_scale {c x μ σ : ℝ} (hc : 0 < c) : pdf (c * x) (c * μ) (c * σ) = pdf x μ σ / c := by
  unfold pdf
  rw [← mul_sub, mul_div_mul_left _ _ hc.ne', div_div, mul_comm σ]

theorem cdf_scale {c x μ σ : ℝ} (hc : 0 < c) : cdf (c * x) (c * μ) (c * σ) = cdf x μ σ := by
  unfold cdf
  rw [← mul_sub, mul_div_mul_left _ _ hc.ne']

/-! ### A concrete solution of the two equations -/

theorem exp_neg_le {x : ℝ} (hx : 0 ≤ x) : Real.exp (-x) ≤ 1 - x + x ^ 2 / 2 := by
  have h1 := Real.quadratic_le_exp_of_nonneg hx
  have h2 : 0 < 1 + x + x ^ 2 / 2 := by positivity
  rw [Real.exp_neg, inv_le_comm₀ (Real.exp_pos x) (by nlinarith [sq_nonneg (x - 1)])]
  refine le_trans ?_ h1
  rw [inv_le_iff_one_le_mul₀ (by nlinarith [sq_nonneg (x - 1)])]
  nlinarith [sq_nonneg (x ^ 2)]

/-- The integral of the unnormalised density over `[-1/2, 1]`. -/
noncomputable def J : ℝ := ∫ u in (-1 / 2 : ℝ)..1, Real.exp (-(u ^ 2) / 2)

theorem J_lower : 21 / 16 ≤ J := by
  have h : ∫ u in (-1 / 2 : ℝ)..1, (1 - u ^ 2 / 2) ≤ J := by
    apply intervalIntegral.integral_mono_on (by norm_num)
    · exact (by fun_prop : Continuous fun u : ℝ => 1 - u ^ 2 / 2).intervalIntegrable _ _
    · exact (by fun_prop : Continuous fun u : ℝ => Real.exp (-(u ^ 2) / 2)).intervalIntegrable _ _
    · intro u _
      have := Real.add_one_le_exp (-(u ^ 2) / 2)
      linarith
  refine le_trans (le_of_eq ?_) h
  rw [intervalIntegral.integral_sub (by simp) (by
    exact (by fun_prop : Continuous fun u : ℝ => u ^ 2 / 2).intervalIntegrable _ _),
    intervalIntegral.integral_div, integral_pow]
  norm_num

theorem J_upper : J ≤ 27 / 20 := by
  have h : J ≤ ∫ u in (-1 / 2 : ℝ)..1, (1 - u ^ 2 / 2 + u ^ 4 / 8) := by
    apply intervalIntegral.integral_mono_on (by norm_num)
    · exact (by fun_prop : Continuous fun u : ℝ => Real.exp (-(u ^ 2) / 2)).intervalIntegrable _ _
    · exact (by fun_prop : Continuous fun u : ℝ => 1 - u ^ 2 / 2 + u ^ 4 / 8).intervalIntegrable _ _
    · intro u _
      have := exp_neg_le (x := u ^ 2 / 2) (by positivity)
      rw [neg_div]
      refine this.trans (le_of_eq ?_)
      ring
  refine h.trans ?_
  rw [intervalIntegral.integral_add (by
    exact (by fun_prop : Continuous fun u : ℝ => 1 - u ^ 2 / 2).intervalIntegrable _ _) (by
    exact (by fun_prop : Continuous fun u : ℝ => u ^ 4 / 8).intervalIntegrable _ _),
    intervalIntegral.integral_sub (by simp) (by
    exact (by fun_prop : Continuous fun u : ℝ => u ^ 2 / 2).intervalIntegrable _ _),
    intervalIntegral.integral_div, intervalIntegral.integral_div, integral_pow, integral_pow]
  norm_num

/-- Two points in `[-1, 2]` for which `mu = 0`, `std = 2` solves both equations. -/
theorem solution_exists : ∃ p q : ℝ, (-1 ≤ p ∧ p ≤ 2) ∧ (-1 ≤ q ∧ q ≤ 2) ∧
    muEqn [p, q] (-1) 2 0 2 = 0 ∧ stdEqn [p, q] (-1) 2 0 2 = 0 := by
  have hJ1 := J_lower
  have hJ2 := J_upper
  have hJ : 0 < J := by linarith
  set E0 := Real.exp (-(1 / 2 : ℝ)) with hE0
  set E1 := Real.exp (-(1 / 8 : ℝ)) with hE1
  have a1 : E0 ≤ 5 / 8 := by have := exp_neg_le (x := 1 / 2) (by norm_num); norm_num at this ⊢; linarith
  have a2 : E1 ≤ 113 / 128 := by
    have := exp_neg_le (x := 1 / 8) (by norm_num); norm_num at this ⊢; linarith
  have a3 : 7 / 8 ≤ E1 := by have := Real.add_one_le_exp (-(1 / 8 : ℝ)); linarith
  have a4 : 3 / 5 ≤ E0 := by
    have h1 : E0 * E0 = Real.exp (-1) := by rw [hE0, ← Real.exp_add]; norm_num
    have h2 : 9 / 25 ≤ Real.exp (-1) := by
      rw [Real.exp_neg, le_inv_comm₀ (by norm_num) (Real.exp_pos 1)]
      have := Real.exp_one_lt_d9
      norm_num
      linarith
    have h3 : 0 < E0 := Real.exp_pos _
    nlinarith
  set c := Real.sqrt (2 * Real.pi) with hc
  have hcp : 0 < c := c_pos
  have hZ : cdf 2 0 2 - cdf (-1) 0 2 = J / c := by
    unfold cdf
    rw [Φ_sub, J, ← intervalIntegral.integral_div]
    have e1 : ((-1 : ℝ) - 0) / 2 = -1 / 2 := by norm_num
    have e2 : ((2 : ℝ) - 0) / 2 = 1 := by norm_num
    rw [e1, e2]
    rfl
  have hb : pdf 2 0 2 = E0 / (2 * c) := by
    unfold pdf φ
    rw [div_div, mul_comm c, hE0]
    norm_num
  have ha : pdf (-1) 0 2 = E1 / (2 * c) := by
    unfold pdf φ
    rw [div_div, mul_comm c, hE1]
    norm_num
  set v := (E1 - E0) / (2 * J) with hv
  set W := 4 - (4 * E0 + 2 * E1) / J - v ^ 2 with hW
  have hv1 : 0 ≤ v := div_nonneg (by linarith) (by linarith)
  have hv2 : v ≤ 1 / 8 := by rw [hv, div_le_iff₀ (by linarith)]; linarith
  have hq1 : (4 * E0 + 2 * E1) / J ≤ 7 / 2 := by rw [div_le_iff₀ hJ]; linarith
  have hq2 : 3 ≤ (4 * E0 + 2 * E1) / J := by rw [le_div_iff₀ hJ]; linarith
  have hW0 : 0 ≤ W := by nlinarith
  have hW1 : W ≤ 1 := by nlinarith [sq_nonneg v]
  have hw0 := Real.sqrt_nonneg W
  have hw1 : Real.sqrt W ≤ 1 := Real.sqrt_le_one.2 hW1
  have hsq : Real.sqrt W ^ 2 = W := Real.sq_sqrt hW0
  refine ⟨v - Real.sqrt W, v + Real.sqrt W, ⟨by linarith, by linarith⟩, ⟨by linarith, by linarith⟩,
    ?_, ?_⟩
  · unfold muEqn
    rw [hZ, ha, hb]
    simp only [List.sum_cons, List.sum_nil, List.length_cons, List.length_nil]
    rw [hv]
    field_simp
    push_cast
    ring
  · unfold stdEqn
    rw [hZ, ha, hb]
    simp only [List.map_cons, List.map_nil, List.sum_cons, List.sum_nil, List.length_cons,
      List.length_nil]
    have h1 : (v - Real.sqrt W) ^ 2 + ((v + Real.sqrt W) ^ 2 + 0) = 2 * v ^ 2 + 2 * W := by
      linear_combination 2 * hsq
    rw [h1, hW]
    field_simp
    push_cast
    ring

/-! ### The loop -/

theorem isLoopU_mask (solve : Solver) (data : List ℝ) (cut : ℝ) (cutoff : WithTop ℝ) :
    ∀ (fuel : ℕ) (m s : ℝ) (k : ℕ), (isLoopU solve data cut cutoff fuel m s k).map (·.mask) =
      (Cut.isLoop data cut cutoff fuel m s k).map (·.mask) := by
  intro fuel
  induction fuel with
  | zero => intro m s k; rfl
  | succ f ih =>
    intro m s k
    unfold isLoopU Cut.isLoop
    simp only
    split_ifs
    all_goals first | rfl | exact ih _ _ _

/-- What the loop returns. -/
theorem isLoopU_result (solve : Solver) (data : List ℝ) (cut : ℝ) (cutoff : WithTop ℝ) :
    ∀ (fuel : ℕ) (m s : ℝ) (k : ℕ) (r : Cut.Stat), isLoopU solve data cut cutoff fuel m s k = some r →
      r = ⟨some (Cut.avg data), some (Cut.std data), List.replicate data.length true⟩ ∨
      ∃ mask : List Bool, ∃ p, r.mask = mask ∧ Cut.sel data mask ≠ [] ∧
        p = unbiased solve (Cut.sel data mask)
          (Cut.avg (Cut.sel data mask) - cut * Cut.std (Cut.sel data mask))
          (Cut.avg (Cut.sel data mask) + cut * Cut.std (Cut.sel data mask)) ∧
        r.mean = p.map (·.1) ∧ r.std = p.map (·.2) := by
  intro fuel
  induction fuel with
  | zero => intro m s k r h; cases h
  | succ f ih =>
    intro m s k r h
    unfold isLoopU at h
    simp only at h
    by_cases hcount : (Cut.isMask data cut m s).count true ≤ 1
    · rw [if_pos hcount] at h
      cases h
      exact .inl rfl
    · rw [if_neg hcount] at h
      split_ifs at h
      all_goals first
        | exact ih _ _ _ _ h
        | (cases h
           refine .inr ⟨_, _, rfl, ?_, rfl, rfl, rfl⟩
           rw [Cut.sel_isMask]
           intro he
           rw [Cut.count_isMask, he] at hcount
           exact hcount (Nat.zero_le 1))

end Verif.Trunc
