import Verif.DidvErrGlue
import Verif.DidvShiftLemmas

import Mathlib.Analysis.SpecialFunctions.ExpDeriv
import Mathlib.Analysis.Calculus.ContDiff.Operations

/-! Helper lemmas for C153: responses with one, two and three poles depend smoothly on their parameters, and the derivatives
determine the parameters. -/

namespace Verif.Device
open Verif Verif.Dft Verif.Didv MeasureTheory Filter Topology

/-- A response with the impedance `Z`, delayed. -/
noncomputable def shifted {d : ℕ} (Z : (Fin d → ℝ) → ℂ) (f : ℝ) (i : Fin d) (v : Fin d → ℝ) : ℂ :=
  1 / Z v * Complex.exp (-2 * Complex.I * Real.pi * f * v i)

theorem real_smooth {d : ℕ} (i : Fin d) (x : Fin d → ℝ) : ContDiffAt ℝ 1 (fun v : Fin d → ℝ => (v i : ℂ)) x :=
  (Complex.ofRealCLM.contDiff.contDiffAt (x := x i)).comp x (contDiff_apply ℝ ℝ i).contDiffAt

theorem smooth_div {d : ℕ} {a b : (Fin d → ℝ) → ℂ} {x : Fin d → ℝ} (ha : ContDiffAt ℝ 1 a x) (hb : ContDiffAt ℝ 1 b x) (h0 : b x ≠ 0) :
    ContDiffAt ℝ 1 (fun v => a v / b v) x := by
  simp only [div_eq_mul_inv]
  exact ha.mul (hb.inv h0)

theorem shifted_smooth {d : ℕ} {Z : (Fin d → ℝ) → ℂ} {x : Fin d → ℝ} (hZ : ContDiffAt ℝ 1 Z x) (h0 : Z x ≠ 0) (f : ℝ) (i : Fin d) :
    ContDiffAt ℝ 1 (shifted Z f i) x :=
  (smooth_div contDiffAt_const hZ h0).mul (contDiffAt_const.mul (real_smooth i x)).cexp

theorem line_deriv {d : ℕ} (x u : Fin d → ℝ) (i : Fin d) : HasDerivAt (fun s : ℝ => (((x + s • u) i : ℝ) : ℂ)) (u i) 0 := by
  have : HasDerivAt (fun s : ℝ => x i + s * u i) (u i) 0 := by
    simpa using ((hasDerivAt_id (0 : ℝ)).mul_const (u i)).const_add (x i)
  exact this.ofReal_comp

/-- Where a response does not change to first order. -/
theorem shifted_still {d : ℕ} {Z : (Fin d → ℝ) → ℂ} {x : Fin d → ℝ} (hZ : ContDiffAt ℝ 1 Z x) (h0 : Z x ≠ 0) {f : ℝ} {i : Fin d}
    {u : Fin d → ℝ} (h : fderiv ℝ (shifted Z f i) x u = 0) {Z' : ℂ} (hZ' : HasDerivAt (fun s : ℝ => Z (x + s • u)) Z' 0) :
    Z' + jw f * u i * Z x = 0 := by
  have hl : HasDerivAt (fun s : ℝ => x + s • u) u 0 := by
    simpa using ((hasDerivAt_id (0 : ℝ)).smul_const u).const_add x
  have e0 : x + (0 : ℝ) • u = x := by simp
  have hd : HasFDerivAt (shifted Z f i) (fderiv ℝ (shifted Z f i) x) (x + (0 : ℝ) • u) := by
    rw [e0]
    exact ((shifted_smooth hZ h0 f i).differentiableAt (by simp)).hasFDerivAt
  have h1 : HasDerivAt (fun s : ℝ => shifted Z f i (x + s • u)) (fderiv ℝ (shifted Z f i) x u) 0 := HasFDerivAt.comp_hasDerivAt (f := fun s : ℝ => x + s • u) (0 : ℝ) hd hl
  have h2 := ((line_deriv x u i).const_mul (-2 * Complex.I * Real.pi * f)).cexp
  have h3 : HasDerivAt (fun s : ℝ => shifted Z f i (x + s • u)) _ 0 := ((hasDerivAt_const (0 : ℝ) (1 : ℂ)).div hZ' (by rw [e0]; exact h0)).mul h2
  have h4 := h1.unique h3
  rw [h, e0] at h4
  have hE := Complex.exp_ne_zero (-2 * Complex.I * Real.pi * f * (x i : ℂ))
  simp only [Pi.div_apply, e0] at h4
  generalize Complex.exp (-2 * Complex.I * Real.pi * f * (x i : ℂ)) = E at h4 hE
  have h5 : E * (Z' + jw f * u i * Z x) = 0 := by
    unfold jw
    field_simp at h4
    linear_combination h4
  exact (mul_eq_zero.1 h5).resolve_left hE

open Polynomial in
/-- A polynomial without coefficients beyond as many as it has zeros vanishes. -/
theorem coeffs_zero {f0 : ℝ} (hf : f0 ≠ 0) {N : ℕ} {c : ℕ → ℂ}
    (h : ∀ j : ℕ, j < N → ∑ i ∈ Finset.range N, c i * jw ((2 * j + 1) * f0) ^ i = 0) : ∀ i < N, c i = 0 := by
  set P : ℂ[X] := ∑ i ∈ Finset.range N, C (c i) * X ^ i with hP
  have hco : ∀ i < N, P.coeff i = c i := by
    intro i hi
    simp only [hP, finsetSum_coeff, coeff_C_mul, coeff_X_pow]
    simp [hi]
  have hz : P = 0 := by
    rcases Nat.eq_zero_or_pos N with h0 | h0
    · simp [hP, h0]
    have hdeg : P.natDegree < N := by
      have : P.natDegree ≤ N - 1 := natDegree_sum_le_of_forall_le _ _ fun i hi => by
        have := Finset.mem_range.1 hi
        exact (natDegree_C_mul_X_pow_le _ _).trans (by omega)
      omega
    refine Polynomial.eq_zero_of_natDegree_lt_card_of_eval_eq_zero P (f := fun j : Fin N => jw ((2 * (j : ℕ) + 1) * f0)) ?_ (fun j => ?_)
      (by simpa using hdeg)
    · intro a b hab
      unfold jw at hab
      have h1 : ((2 * ((a : ℕ) : ℝ) + 1) * f0 : ℝ) = (2 * ((b : ℕ) : ℝ) + 1) * f0 := by
        have h2 := mul_left_cancel₀ (show (2 * Complex.I * Real.pi : ℂ) ≠ 0 by simp [Real.pi_ne_zero]) hab
        exact_mod_cast h2
      have h2 := mul_right_cancel₀ hf h1
      have h3 : ((a : ℕ) : ℝ) = ((b : ℕ) : ℝ) := by linarith
      exact Fin.ext (by exact_mod_cast h3)
    · rw [← h j j.2, hP, eval_finsetSum]
      simp
  intro i hi
  rw [← hco i hi, hz, coeff_zero]

/-! ### One pole -/

noncomputable def z1 (f : ℝ) (v : Fin 3 → ℝ) : ℂ := onePoleZ f (v 0) (v 1)

theorem z1_smooth (f : ℝ) (x : Fin 3 → ℝ) : ContDiffAt ℝ 1 (z1 f) x := by
  unfold z1 onePoleZ
  exact (real_smooth 0 x).mul (contDiffAt_const.add (contDiffAt_const.mul (real_smooth 1 x)))

theorem z1_line (f : ℝ) (x u : Fin 3 → ℝ) : HasDerivAt (fun s : ℝ => z1 f (x + s • u))
    (u 0 * (1 + jw f * x 1) + x 0 * (jw f * u 1)) 0 := by
  have := (line_deriv x u 0).mul (((line_deriv x u 1).const_mul (jw f)).const_add 1)
  refine this.congr_deriv ?_
  simp

theorem z1_inj {f0 : ℝ} (hf : f0 ≠ 0) {x u : Fin 3 → ℝ} (hx : x 0 ≠ 0) (hx1 : x 1 ≠ 0)
    (h : ∀ j : ℕ, j < 3 → u 0 * (1 + jw ((2 * j + 1) * f0) * x 1) + x 0 * (jw ((2 * j + 1) * f0) * u 1) +
      jw ((2 * j + 1) * f0) * u 2 * z1 ((2 * j + 1) * f0) x = 0) : u = 0 := by
  have hc := coeffs_zero hf (N := 3) (c := fun i => ((if i = 0 then u 0 else if i = 1 then u 0 * x 1 + x 0 * u 1 + u 2 * x 0
    else u 2 * x 0 * x 1 : ℝ) : ℂ)) fun j hj => by
      rw [← h j hj]
      simp only [Finset.sum_range_succ, Finset.sum_range_zero, z1, onePoleZ]
      simp
      ring
  have c0 := hc 0 (by norm_num)
  have c1 := hc 1 (by norm_num)
  have c2 := hc 2 (by norm_num)
  simp only [Complex.ofReal_eq_zero] at c0 c1 c2
  norm_num at c0 c1 c2
  have h2 : u 2 = 0 := by tauto
  rw [c0, h2] at c1
  have h1 : u 1 = 0 := by
    have : x 0 * u 1 = 0 := by linarith
    exact (mul_eq_zero.1 this).resolve_left hx
  funext i
  fin_cases i <;> simp [c0, h1, h2]

/-! ### Two poles -/

noncomputable def z2 (f : ℝ) (v : Fin 5 → ℝ) : ℂ := twoPoleZ f (v 0) (v 1) (v 2) (v 3)

theorem z2_smooth (f : ℝ) (x : Fin 5 → ℝ) : ContDiffAt ℝ 1 (z2 f) x := by
  unfold z2 twoPoleZ
  exact ((real_smooth 0 x).mul (contDiffAt_const.add (contDiffAt_const.mul (real_smooth 3 x)))).add
    (smooth_div (real_smooth 1 x) (contDiffAt_const.add (contDiffAt_const.mul (real_smooth 2 x))) (one_jw_ne _ _))

theorem z2_line (f : ℝ) (x u : Fin 5 → ℝ) : HasDerivAt (fun s : ℝ => z2 f (x + s • u))
    (u 0 * (1 + jw f * x 3) + x 0 * (jw f * u 3) + (u 1 * (1 + jw f * x 2) - x 1 * (jw f * u 2)) / (1 + jw f * x 2) ^ 2) 0 := by
  have e0 : x + (0 : ℝ) • u = x := by simp
  have := ((line_deriv x u 0).mul (((line_deriv x u 3).const_mul (jw f)).const_add 1)).add
    ((line_deriv x u 1).div (((line_deriv x u 2).const_mul (jw f)).const_add 1) (one_jw_ne _ _))
  refine this.congr_deriv ?_
  simp only [e0]

theorem z2_inj {f0 : ℝ} (hf : f0 ≠ 0) {x u : Fin 5 → ℝ} (hx : x 0 ≠ 0) (hx1 : x 1 ≠ 0) (hx2 : x 2 ≠ 0) (hx3 : x 3 ≠ 0)
    (h : ∀ j : ℕ, j < 5 → u 0 * (1 + jw ((2 * j + 1) * f0) * x 3) + x 0 * (jw ((2 * j + 1) * f0) * u 3) +
      (u 1 * (1 + jw ((2 * j + 1) * f0) * x 2) - x 1 * (jw ((2 * j + 1) * f0) * u 2)) / (1 + jw ((2 * j + 1) * f0) * x 2) ^ 2 +
      jw ((2 * j + 1) * f0) * u 4 * z2 ((2 * j + 1) * f0) x = 0) : u = 0 := by
  have hc := coeffs_zero hf (N := 5) (c := fun i => ((
    if i = 0 then u 0 + u 1
    else if i = 1 then 2 * u 0 * x 2 + (u 0 * x 3 + x 0 * u 3) + u 1 * x 2 - x 1 * u 2 + u 4 * (x 0 + x 1)
    else if i = 2 then u 0 * x 2 ^ 2 + 2 * x 2 * (u 0 * x 3 + x 0 * u 3) + u 4 * (2 * x 0 * x 2 + x 0 * x 3 + x 1 * x 2)
    else if i = 3 then (u 0 * x 3 + x 0 * u 3) * x 2 ^ 2 + u 4 * (x 0 * x 2 ^ 2 + 2 * x 0 * x 2 * x 3)
    else u 4 * x 0 * x 3 * x 2 ^ 2 : ℝ) : ℂ)) fun j hj => by
      have h1 := h j hj
      have hn := one_jw_ne ((2 * j + 1) * f0) (x 2)
      simp only [Finset.sum_range_succ, Finset.sum_range_zero]
      unfold z2 twoPoleZ at h1
      generalize jw ((2 * j + 1) * f0) = w at *
      field_simp at h1
      simp
      linear_combination h1
  have c0 := hc 0 (by norm_num)
  have c1 := hc 1 (by norm_num)
  have c2 := hc 2 (by norm_num)
  have c3 := hc 3 (by norm_num)
  have c4 := hc 4 (by norm_num)
  simp only [Complex.ofReal_eq_zero] at c0 c1 c2 c3 c4
  norm_num at c0 c1 c2 c3 c4
  have h4 : u 4 = 0 := by tauto
  rw [h4] at c1 c2 c3
  have e : u 0 * x 3 + x 0 * u 3 = 0 := by
    have : (u 0 * x 3 + x 0 * u 3) * x 2 ^ 2 = 0 := by linarith
    simpa [hx2] using this
  rw [e] at c1 c2
  have h0 : u 0 = 0 := by
    have : u 0 * x 2 ^ 2 = 0 := by linarith
    simpa [hx2] using this
  rw [h0] at e c0 c1
  have h3 : u 3 = 0 := by
    have : x 0 * u 3 = 0 := by linarith
    exact (mul_eq_zero.1 this).resolve_left hx
  have h1 : u 1 = 0 := by linarith
  rw [h1] at c1
  have h2 : u 2 = 0 := by
    have : x 1 * u 2 = 0 := by linarith
    exact (mul_eq_zero.1 this).resolve_left hx1
  funext i
  fin_cases i <;> simp [h0, h1, h2, h3, h4]

/-! ### Three poles -/

noncomputable def z3 (f : ℝ) (v : Fin 7 → ℝ) : ℂ :=
  v 0 * (1 + jw f * v 4) + v 1 / (1 + jw f * v 3 - v 2 / (1 + jw f * v 5))

theorem z3_smooth {f : ℝ} {x : Fin 7 → ℝ} (h : 1 + jw f * x 3 - x 2 / (1 + jw f * x 5) ≠ 0) : ContDiffAt ℝ 1 (z3 f) x := by
  unfold z3
  exact ((real_smooth 0 x).mul (contDiffAt_const.add (contDiffAt_const.mul (real_smooth 4 x)))).add
    (smooth_div (real_smooth 1 x) ((contDiffAt_const.add (contDiffAt_const.mul (real_smooth 3 x))).sub
      (smooth_div (real_smooth 2 x) (contDiffAt_const.add (contDiffAt_const.mul (real_smooth 5 x))) (one_jw_ne _ _))) h)

theorem z3_line {f : ℝ} {x : Fin 7 → ℝ} (h : 1 + jw f * x 3 - x 2 / (1 + jw f * x 5) ≠ 0) (u : Fin 7 → ℝ) :
    HasDerivAt (fun s : ℝ => z3 f (x + s • u))
    (u 0 * (1 + jw f * x 4) + x 0 * (jw f * u 4) + (u 1 * (1 + jw f * x 3 - x 2 / (1 + jw f * x 5)) -
      x 1 * (jw f * u 3 - (u 2 * (1 + jw f * x 5) - x 2 * (jw f * u 5)) / (1 + jw f * x 5) ^ 2)) /
        (1 + jw f * x 3 - x 2 / (1 + jw f * x 5)) ^ 2) 0 := by
  have e0 : x + (0 : ℝ) • u = x := by simp
  have := ((line_deriv x u 0).mul (((line_deriv x u 4).const_mul (jw f)).const_add 1)).add
    ((line_deriv x u 1).div ((((line_deriv x u 3).const_mul (jw f)).const_add 1).sub
      ((line_deriv x u 2).div (((line_deriv x u 5).const_mul (jw f)).const_add 1) (one_jw_ne _ _))) (by
        simpa [e0] using h))
  refine this.congr_deriv ?_
  simp

theorem z3_inj {f0 : ℝ} (hf : f0 ≠ 0) {x u : Fin 7 → ℝ} (hx : x 0 ≠ 0) (hx1 : x 1 ≠ 0) (hx2 : x 2 ≠ 0) (hx3 : x 3 ≠ 0)
    (hx4 : x 4 ≠ 0) (hx5 : x 5 ≠ 0)
    (h : ∀ j : ℕ, j < 7 → 1 + jw ((2 * j + 1) * f0) * x 3 - x 2 / (1 + jw ((2 * j + 1) * f0) * x 5) ≠ 0 ∧
      u 0 * (1 + jw ((2 * j + 1) * f0) * x 4) + x 0 * (jw ((2 * j + 1) * f0) * u 4) +
      (u 1 * (1 + jw ((2 * j + 1) * f0) * x 3 - x 2 / (1 + jw ((2 * j + 1) * f0) * x 5)) -
      x 1 * (jw ((2 * j + 1) * f0) * u 3 - (u 2 * (1 + jw ((2 * j + 1) * f0) * x 5) - x 2 * (jw ((2 * j + 1) * f0) * u 5)) /
        (1 + jw ((2 * j + 1) * f0) * x 5) ^ 2)) / (1 + jw ((2 * j + 1) * f0) * x 3 - x 2 / (1 + jw ((2 * j + 1) * f0) * x 5)) ^ 2 +
      jw ((2 * j + 1) * f0) * u 6 * z3 ((2 * j + 1) * f0) x = 0) : u = 0 := by
  -- the denominator is q0 + q1 w + q2 w²
  set q0 := 1 - x 2 with hq0
  set q1 := x 3 + x 5 with hq1
  set q2 := x 3 * x 5 with hq2
  set e := u 0 * x 4 + x 0 * u 4 with he
  have hc := coeffs_zero hf (N := 7) (c := fun i => ((
    if i = 0 then u 0 * q0 ^ 2 + u 1 * q0 + x 1 * u 2
    else if i = 1 then u 0 * (2 * q0 * q1) + e * q0 ^ 2 + u 1 * (q1 + x 5 * q0) - x 1 * x 2 * u 5 - x 1 * u 3 + x 1 * u 2 * x 5 +
      u 6 * (x 0 * q0 ^ 2 + x 1 * q0)
    else if i = 2 then u 0 * (2 * q0 * q2 + q1 ^ 2) + e * (2 * q0 * q1) + u 1 * (q2 + x 5 * q1) - 2 * x 1 * u 3 * x 5 +
      u 6 * (x 0 * (2 * q0 * q1) + x 0 * x 4 * q0 ^ 2 + x 1 * (q1 + x 5 * q0))
    else if i = 3 then u 0 * (2 * q1 * q2) + e * (2 * q0 * q2 + q1 ^ 2) + u 1 * (x 5 * q2) - x 1 * u 3 * x 5 ^ 2 +
      u 6 * (x 0 * (2 * q0 * q2 + q1 ^ 2) + x 0 * x 4 * (2 * q0 * q1) + x 1 * (q2 + x 5 * q1))
    else if i = 4 then u 0 * q2 ^ 2 + e * (2 * q1 * q2) +
      u 6 * (x 0 * (2 * q1 * q2) + x 0 * x 4 * (2 * q0 * q2 + q1 ^ 2) + x 1 * (x 5 * q2))
    else if i = 5 then e * q2 ^ 2 + u 6 * (x 0 * q2 ^ 2 + x 0 * x 4 * (2 * q1 * q2))
    else u 6 * x 0 * x 4 * q2 ^ 2 : ℝ) : ℂ)) fun j hj => by
      obtain ⟨hq, h1⟩ := h j hj
      have hn := one_jw_ne ((2 * j + 1) * f0) (x 5)
      simp only [Finset.sum_range_succ, Finset.sum_range_zero]
      unfold z3 at h1
      generalize jw ((2 * j + 1) * f0) = w at *
      have e1 : 1 + w * x 3 - x 2 / (1 + w * x 5) = ((1 + w * x 3) * (1 + w * x 5) - x 2) / (1 + w * x 5) := by field_simp
      rw [e1] at hq h1
      have hQ : (1 + w * x 3) * (1 + w * x 5) - x 2 ≠ 0 := fun h0 => hq (by rw [h0, zero_div])
      field_simp at h1
      simp [hq0, hq1, hq2, he]
      linear_combination h1
  have c0 := hc 0 (by norm_num)
  have c1 := hc 1 (by norm_num)
  have c2 := hc 2 (by norm_num)
  have c3 := hc 3 (by norm_num)
  have c4 := hc 4 (by norm_num)
  have c5 := hc 5 (by norm_num)
  have c6 := hc 6 (by norm_num)
  simp only [Complex.ofReal_eq_zero] at c0 c1 c2 c3 c4 c5 c6
  norm_num at c0 c1 c2 c3 c4 c5 c6
  have hq2' : q2 ≠ 0 := mul_ne_zero hx3 hx5
  have h6 : u 6 = 0 := by tauto
  rw [h6] at c1 c2 c3 c4 c5
  have e0 : e = 0 := by
    have : e * q2 ^ 2 = 0 := by linarith
    simpa [hq2'] using this
  rw [e0] at c1 c2 c3 c4
  have h0 : u 0 = 0 := by
    have : u 0 * q2 ^ 2 = 0 := by linarith
    simpa [hq2'] using this
  rw [h0] at c0 c1 c2 c3
  have h4 : u 4 = 0 := by
    have : x 0 * u 4 = 0 := by rw [he, h0] at e0; linarith
    exact (mul_eq_zero.1 this).resolve_left hx
  -- the third coefficient, then the second
  have d3 : u 1 * x 3 = x 1 * u 3 := by
    have : x 5 ^ 2 * (u 1 * x 3 - x 1 * u 3) = 0 := by rw [hq2] at c3; linear_combination c3
    have := (mul_eq_zero.1 this).resolve_left (by positivity)
    linarith
  have h1 : u 1 = 0 := by
    have : x 5 ^ 2 * u 1 = 0 := by rw [hq2, hq1] at c2; linear_combination c2 - 2 * x 5 * d3
    exact (mul_eq_zero.1 this).resolve_left (by positivity)
  rw [h1] at c0 c1 d3
  have h3 : u 3 = 0 := by
    have : x 1 * u 3 = 0 := by linarith
    exact (mul_eq_zero.1 this).resolve_left hx1
  have h2 : u 2 = 0 := by
    have : x 1 * u 2 = 0 := by linarith
    exact (mul_eq_zero.1 this).resolve_left hx1
  rw [h2, h3] at c1
  have h5 : u 5 = 0 := by
    have : x 1 * x 2 * u 5 = 0 := by linarith
    have := (mul_eq_zero.1 this).resolve_left (mul_ne_zero hx1 hx2)
    exact this
  funext i
  fin_cases i <;> simp [h0, h1, h2, h3, h4, h5, h6]

/-! ### The fits -/

theorem jw_conj (f : ℝ) : jw (-f) = starRingEnd ℂ (jw f) := by
  unfold jw
  simp [Complex.conj_ofNat]

theorem shifted_conj {d : ℕ} {Z Z' : (Fin d → ℝ) → ℂ} {v : Fin d → ℝ} (h : Z' v = starRingEnd ℂ (Z v)) (f : ℝ) (i : Fin d) :
    shifted Z' (-f) i v = starRingEnd ℂ (shifted Z f i v) := by
  unfold shifted
  rw [h, map_mul, map_div₀, map_one, ← Complex.exp_conj]
  congr 2
  simp [Complex.conj_ofNat]

theorem recip_shifted {z y : ℂ} {E : ℂ} (h : (recipZ z).map (fun y => y * E) = .ok y) : z ≠ 0 ∧ 1 / z * E = y := by
  unfold recipZ at h
  split_ifs at h with h0
  · cases h
  · exact ⟨h0, Except.ok.inj h⟩

theorem recip_of_ne {z : ℂ} (h : z ≠ 0) (E : ℂ) : (recipZ z).map (fun y => y * E) = .ok (1 / z * E) := by
  unfold recipZ
  rw [if_neg h]
  rfl

theorem fit1_ok {f : ℝ} {v : Fin 3 → ℝ} (hv : z1 f v ≠ 0) : fitY f (List.ofFn v) = .ok (shifted (z1 f) f 2 v) := by
  rw [show List.ofFn v = [v 0, v 1, v 2] by simp [List.ofFn_succ]]
  exact recip_of_ne hv _

theorem fit2_ok {f : ℝ} {v : Fin 5 → ℝ} (hv : z2 f v ≠ 0) : fitY f (List.ofFn v) = .ok (shifted (z2 f) f 4 v) := by
  rw [show List.ofFn v = [v 0, v 1, v 2, v 3, v 4] by simp [List.ofFn_succ]]
  exact recip_of_ne hv _

theorem fit3_ok {f : ℝ} {v : Fin 7 → ℝ} (hq : 1 + jw f * v 3 - v 2 / (1 + jw f * v 5) ≠ 0) (hv : z3 f v ≠ 0) :
    fitY f (List.ofFn v) = .ok (shifted (z3 f) f 6 v) := by
  rw [show List.ofFn v = [v 0, v 1, v 2, v 3, v 4, v 5, v 6] by simp [List.ofFn_succ]]
  unfold fitY threePoleY threePoleZ
  simp only
  rw [if_neg hq]
  exact recip_of_ne hv _

section
variable {o : Obj} {n : ℕ} [NeZero n] {W : ZMod n → ℂ} {c : Option ℝ} {f0 : ℝ} {Ω : Type*} [MeasurableSpace Ω] {μ : Measure Ω}
  [IsProbabilityMeasure μ] {noise : Ω → ZMod n → ℝ} {R : ZMod n → ℝ} {r : Ω → ℝ → Result}

theorem one_family (hf : DrivenBelow o c n f0 3) {x : Fin 3 → ℝ} (h0 : x 0 ≠ 0)
    (h1 : x 1 ≠ 0) (hW : Delayed o.fs W (fun f => onePoleY f (x 0) (x 1)) (x 2)) :
    (∀ k : ZMod n, (∀ᶠ v in 𝓝 x, fitY (fftfreq o.fs k) (List.ofFn v) = .ok (shifted (z1 (fftfreq o.fs k)) (fftfreq o.fs k) 2 v)) ∧
      ContDiffAt ℝ 1 (shifted (z1 (fftfreq o.fs k)) (fftfreq o.fs k) 2) x) ∧
    (∀ k : ZMod n, shifted (z1 (fftfreq o.fs k)) (fftfreq o.fs k) 2 x = W k) ∧
    ∀ u, (∀ k : ZMod n, Below o.fs c k → drive o k ≠ 0 → fderiv ℝ (shifted (z1 (fftfreq o.fs k)) (fftfreq o.fs k) 2) x u = 0) → u = 0 := by
  have hne : ∀ k, z1 (fftfreq o.fs k) x ≠ 0 ∧ shifted (z1 (fftfreq o.fs k)) (fftfreq o.fs k) 2 x = W k :=
    fun k => recip_shifted (hW k)
  refine ⟨fun k => ⟨?_, ?_⟩, fun k => (hne k).2, fun u hu => ?_⟩
  · filter_upwards [(z1_smooth (fftfreq o.fs k) x).continuousAt.eventually_ne (hne k).1] with v hv
    exact fit1_ok hv
  · exact shifted_smooth (z1_smooth _ _) (hne k).1 _ _
  · refine z1_inj hf.1 h0 h1 fun j hj => ?_
    obtain ⟨k, a1, a2, a3⟩ := hf.2 j hj
    rw [← a3]
    exact shifted_still (z1_smooth _ _) (hne k).1 (hu k a1 a2) (z1_line _ _ _)

theorem one_doubled (hst : OF.Stationary μ noise R) (hm : Mirrored o c R) (hf : DrivenBelow o c n f0 3) {x : Fin 3 → ℝ} (h0 : x 0 ≠ 0)
    (h1 : x 1 ≠ 0) (hW : Delayed o.fs W (fun f => onePoleY f (x 0) (x 1)) (x 2))
    (h : Approaching o W noise R 1 c (List.ofFn x) r) : Doubled μ 3 (List.ofFn x) r := by
  obtain ⟨a1, a2, a3⟩ := one_family hf h0 h1 hW
  exact doubled_of (G := fun f => shifted (z1 f) f 2) a1 (fun f v => shifted_conj (by simp [z1, onePoleZ, jw_conj]) _ _) a2 a3 hst hm h

theorem two_family (hf : DrivenBelow o c n f0 5) {x : Fin 5 → ℝ} (h0 : x 0 ≠ 0)
    (h1 : x 1 ≠ 0) (h2 : x 2 ≠ 0) (h3 : x 3 ≠ 0) (hW : Delayed o.fs W (fun f => twoPoleY f (x 0) (x 1) (x 2) (x 3)) (x 4)) :
    (∀ k : ZMod n, (∀ᶠ v in 𝓝 x, fitY (fftfreq o.fs k) (List.ofFn v) = .ok (shifted (z2 (fftfreq o.fs k)) (fftfreq o.fs k) 4 v)) ∧
      ContDiffAt ℝ 1 (shifted (z2 (fftfreq o.fs k)) (fftfreq o.fs k) 4) x) ∧
    (∀ k : ZMod n, shifted (z2 (fftfreq o.fs k)) (fftfreq o.fs k) 4 x = W k) ∧
    ∀ u, (∀ k : ZMod n, Below o.fs c k → drive o k ≠ 0 → fderiv ℝ (shifted (z2 (fftfreq o.fs k)) (fftfreq o.fs k) 4) x u = 0) → u = 0 := by
  have hne : ∀ k, z2 (fftfreq o.fs k) x ≠ 0 ∧ shifted (z2 (fftfreq o.fs k)) (fftfreq o.fs k) 4 x = W k :=
    fun k => recip_shifted (hW k)
  refine ⟨fun k => ⟨?_, ?_⟩, fun k => (hne k).2, fun u hu => ?_⟩
  · filter_upwards [(z2_smooth (fftfreq o.fs k) x).continuousAt.eventually_ne (hne k).1] with v hv
    exact fit2_ok hv
  · exact shifted_smooth (z2_smooth _ _) (hne k).1 _ _
  · refine z2_inj hf.1 h0 h1 h2 h3 fun j hj => ?_
    obtain ⟨k, a1, a2, a3⟩ := hf.2 j hj
    rw [← a3]
    exact shifted_still (z2_smooth _ _) (hne k).1 (hu k a1 a2) (z2_line _ _ _)

theorem two_doubled (hst : OF.Stationary μ noise R) (hm : Mirrored o c R) (hf : DrivenBelow o c n f0 5) {x : Fin 5 → ℝ} (h0 : x 0 ≠ 0)
    (h1 : x 1 ≠ 0) (h2 : x 2 ≠ 0) (h3 : x 3 ≠ 0) (hW : Delayed o.fs W (fun f => twoPoleY f (x 0) (x 1) (x 2) (x 3)) (x 4))
    (h : Approaching o W noise R 2 c (List.ofFn x) r) : Doubled μ 5 (List.ofFn x) r := by
  obtain ⟨a1, a2, a3⟩ := two_family hf h0 h1 h2 h3 hW
  exact doubled_of (G := fun f => shifted (z2 f) f 4) a1 (fun f v => shifted_conj (by simp [z2, twoPoleZ, jw_conj]) _ _) a2 a3 hst hm h

theorem delayed_three {fs : ℝ} {A B K t1 t2 t3 dt : ℝ} (hW : Delayed fs W (fun f => threePoleY f A B K t1 t2 t3) dt) (k : ZMod n) :
    1 + jw (fftfreq fs k) * t1 - K / (1 + jw (fftfreq fs k) * t3) ≠ 0 ∧
      (recipZ (A * (1 + jw (fftfreq fs k) * t2) + B / (1 + jw (fftfreq fs k) * t1 - K / (1 + jw (fftfreq fs k) * t3)))).map
        (fun y => y * Complex.exp (-2 * Complex.I * Real.pi * fftfreq fs k * dt)) = .ok (W k) := by
  have h1 := hW k
  unfold threePoleY threePoleZ at h1
  simp only at h1
  split_ifs at h1 with h0
  · cases h1
  · exact ⟨h0, h1⟩

theorem three_family (hf : DrivenBelow o c n f0 7) {x : Fin 7 → ℝ}
    (h0 : x 0 ≠ 0) (h1 : x 1 ≠ 0) (h2 : x 2 ≠ 0) (h3 : x 3 ≠ 0) (h4 : x 4 ≠ 0) (h5 : x 5 ≠ 0)
    (hW : Delayed o.fs W (fun f => threePoleY f (x 0) (x 1) (x 2) (x 3) (x 4) (x 5)) (x 6)) :
    (∀ k : ZMod n, (∀ᶠ v in 𝓝 x, fitY (fftfreq o.fs k) (List.ofFn v) = .ok (shifted (z3 (fftfreq o.fs k)) (fftfreq o.fs k) 6 v)) ∧
      ContDiffAt ℝ 1 (shifted (z3 (fftfreq o.fs k)) (fftfreq o.fs k) 6) x) ∧
    (∀ k : ZMod n, shifted (z3 (fftfreq o.fs k)) (fftfreq o.fs k) 6 x = W k) ∧
    ∀ u, (∀ k : ZMod n, Below o.fs c k → drive o k ≠ 0 → fderiv ℝ (shifted (z3 (fftfreq o.fs k)) (fftfreq o.fs k) 6) x u = 0) → u = 0 := by
  have hne : ∀ k, 1 + jw (fftfreq o.fs k) * x 3 - x 2 / (1 + jw (fftfreq o.fs k) * x 5) ≠ 0 ∧ z3 (fftfreq o.fs k) x ≠ 0 ∧
      shifted (z3 (fftfreq o.fs k)) (fftfreq o.fs k) 6 x = W k :=
    fun k => ⟨(delayed_three hW k).1, recip_shifted (delayed_three hW k).2⟩
  refine ⟨fun k => ⟨?_, ?_⟩, fun k => (hne k).2.2, fun u hu => ?_⟩
  · have hq : ContinuousAt (fun v : Fin 7 → ℝ => 1 + jw (fftfreq o.fs k) * v 3 - v 2 / (1 + jw (fftfreq o.fs k) * v 5)) x :=
      ((contDiffAt_const.add (contDiffAt_const.mul (real_smooth 3 _))).sub
        (smooth_div (real_smooth 2 _) (contDiffAt_const.add (contDiffAt_const.mul (real_smooth 5 _))) (one_jw_ne _ _))).continuousAt
    filter_upwards [(z3_smooth (f := fftfreq o.fs k) (x := x) (hne k).1).continuousAt.eventually_ne (hne k).2.1,
      hq.eventually_ne (hne k).1] with v hv hv'
    exact fit3_ok hv' hv
  · exact shifted_smooth (z3_smooth (hne k).1) (hne k).2.1 _ _
  · refine z3_inj hf.1 h0 h1 h2 h3 h4 h5 fun j hj => ?_
    obtain ⟨k, a1, a2, a3⟩ := hf.2 j hj
    rw [← a3]
    exact ⟨(hne k).1, shifted_still (z3_smooth (hne k).1) (hne k).2.1 (hu k a1 a2) (z3_line (hne k).1 _)⟩

theorem three_doubled (hst : OF.Stationary μ noise R) (hm : Mirrored o c R) (hf : DrivenBelow o c n f0 7) {x : Fin 7 → ℝ}
    (h0 : x 0 ≠ 0) (h1 : x 1 ≠ 0) (h2 : x 2 ≠ 0) (h3 : x 3 ≠ 0) (h4 : x 4 ≠ 0) (h5 : x 5 ≠ 0)
    (hW : Delayed o.fs W (fun f => threePoleY f (x 0) (x 1) (x 2) (x 3) (x 4) (x 5)) (x 6))
    (h : Approaching o W noise R 3 c (List.ofFn x) r) : Doubled μ 7 (List.ofFn x) r := by
  obtain ⟨a1, a2, a3⟩ := three_family hf h0 h1 h2 h3 h4 h5 hW
  exact doubled_of (G := fun f => shifted (z3 f) f 6) a1 (fun f v => shifted_conj (by simp [z3,  jw_conj]) _ _) a2 a3 hst hm h

omit [NeZero n] in
theorem not_covered {d : ℕ} {truth : List ℝ} (h : Doubled μ d truth r) : ¬Covered μ d truth r := by
  rintro ⟨D', C', ⟨h1, h2⟩, i, h3⟩
  obtain ⟨D, C, ⟨a1, a2⟩, hpos, -, -, hcov⟩ := h
  have hD : D' = D := by
    funext ω i
    exact tendsto_nhds_unique (h1 ω i) (a1 ω i)
  obtain ⟨ω⟩ : Nonempty Ω := μ.nonempty_of_neZero
  have hC : C' i i = C i i := tendsto_nhds_unique (h2 ω i i) (a2 ω i i)
  rw [hD, hC] at h3
  have := hcov i i
  simp only [← pow_two] at this
  linarith [hpos i]

end

end Verif.Device
