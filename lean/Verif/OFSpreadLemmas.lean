import Verif.OFRateLemmas
import Verif.SimOFLemmas
import Mathlib.Probability.Moments.MGFAnalytic

/-! Auxiliary lemmas of property C143: fourth moments of normal draws. -/

namespace Verif.OF
open Verif Verif.Dft MeasureTheory ProbabilityTheory

variable {n : ℕ} [NeZero n]

/-- A linear combination of draws. -/
def lin (a w : ZMod n → ℝ) : ℝ := ∑ j, a j * w j

theorem lin_mgf (a : ZMod n → ℝ) : mgf (lin a) (normalDraws n) = fun t => Real.exp ((∑ j, a j ^ 2) * t ^ 2 / 2) := by
  funext t
  have hind : iIndepFun (fun (j : ZMod n) (ω : ZMod n → ℝ) => a j * ω j) (normalDraws n) :=
    iIndepFun_pi (μ := fun _ : ZMod n => gaussianReal 0 1) (X := fun j y => a j * y) fun j => by fun_prop
  have e : lin a = ∑ j, fun ω : ZMod n → ℝ => a j * ω j := by
    funext ω
    rw [Finset.sum_apply]
    rfl
  rw [e, hind.mgf_sum (fun j => by fun_prop)]
  have h1 : ∀ j, mgf (fun ω : ZMod n → ℝ => a j * ω j) (normalDraws n) t = Real.exp (a j ^ 2 * t ^ 2 / 2) := by
    intro j
    have hm : MeasurePreserving (Function.eval j) (normalDraws n) (gaussianReal 0 1) := measurePreserving_eval _ j
    have h2 := congrFun (mgf_id_gaussianReal (μ := 0) (v := 1)) (t * a j)
    unfold mgf at h2 ⊢
    rw [← hm.map_eq, integral_map hm.measurable.aemeasurable (by fun_prop)] at h2
    simp only [id, Function.eval] at h2
    simp only [← mul_assoc]
    rw [h2]
    congr 1
    rw [NNReal.coe_one, zero_mul, zero_add, one_mul]
    ring
  simp only [h1]
  rw [← Real.exp_sum, ← Finset.sum_div, ← Finset.sum_mul]

theorem lin_exp (a : ZMod n → ℝ) : integrableExpSet (lin a) (normalDraws n) = Set.univ := by
  ext t
  simp only [Set.mem_univ, iff_true]
  by_contra h
  have h1 := congrFun (lin_mgf a) t
  unfold mgf at h1
  rw [integral_undef h] at h1
  exact (Real.exp_pos _).ne h1

/-- The fourth moment of a normal variable. -/
theorem lin_four (a : ZMod n → ℝ) : ∫ ω, lin a ω ^ 4 ∂(normalDraws n) = 3 * (∑ j, a j ^ 2) ^ 2 := by
  have h0 : (0 : ℝ) ∈ interior (integrableExpSet (lin a) (normalDraws n)) := by rw [lin_exp]; simp
  have h := iteratedDeriv_mgf_zero h0 4
  rw [lin_mgf] at h
  set v := ∑ j, a j ^ 2
  have hd : ∀ (p q : ℝ → ℝ), (∀ t, HasDerivAt p (q t) t) → ∀ t, HasDerivAt (fun t => p t * Real.exp (v * t ^ 2 / 2))
      ((q t + p t * (v * t)) * Real.exp (v * t ^ 2 / 2)) t := by
    intro p q hp t
    have h1 : HasDerivAt (fun t : ℝ => v * t ^ 2 / 2) (v * t) t := by
      have := ((hasDerivAt_pow 2 t).const_mul v).div_const 2
      refine this.congr_deriv ?_
      norm_num
      ring
    refine ((hp t).mul h1.exp).congr_deriv ?_
    ring
  have d1 := hd (fun _ => 1) (fun _ => 0) (fun t => hasDerivAt_const _ _)
  have d2 := hd (fun t => v * t) (fun _ => v) (fun t => by simpa using (hasDerivAt_id t).const_mul v)
  have d3 := hd (fun t => v + v ^ 2 * t ^ 2) (fun t => v ^ 2 * (2 * t)) (fun t => by
    have := ((hasDerivAt_pow 2 t).const_mul (v ^ 2)).const_add v
    refine this.congr_deriv ?_
    norm_num)
  have d4 := hd (fun t => 3 * v ^ 2 * t + v ^ 3 * t ^ 3) (fun t => 3 * v ^ 2 + v ^ 3 * (3 * t ^ 2)) (fun t => by
    have := ((hasDerivAt_id t).const_mul (3 * v ^ 2)).add ((hasDerivAt_pow 3 t).const_mul (v ^ 3))
    refine this.congr_deriv ?_
    norm_num)
  have e1 : deriv (fun t => Real.exp (v * t ^ 2 / 2)) = fun t => v * t * Real.exp (v * t ^ 2 / 2) := by
    funext t
    have := (d1 t).deriv
    simp only [one_mul, zero_add] at this
    exact this
  have e2 : deriv (fun t => v * t * Real.exp (v * t ^ 2 / 2)) = fun t => (v + v ^ 2 * t ^ 2) * Real.exp (v * t ^ 2 / 2) := by
    funext t
    rw [(d2 t).deriv]
    ring
  have e3 : deriv (fun t => (v + v ^ 2 * t ^ 2) * Real.exp (v * t ^ 2 / 2)) =
      fun t => (3 * v ^ 2 * t + v ^ 3 * t ^ 3) * Real.exp (v * t ^ 2 / 2) := by
    funext t
    rw [(d3 t).deriv]
    ring
  rw [iteratedDeriv_succ, iteratedDeriv_succ, iteratedDeriv_succ, iteratedDeriv_succ, iteratedDeriv_zero, e1, e2, e3,
    (d4 0).deriv] at h
  simp only [Pi.pow_apply] at h
  rw [← h]
  norm_num

theorem lin_memLp (a : ZMod n → ℝ) (p : NNReal) : MemLp (lin a) p (normalDraws n) :=
  memLp_of_mem_interior_integrableExpSet (by rw [lin_exp]; simp) p

theorem lin_int_four (a : ZMod n → ℝ) : Integrable (fun ω => lin a ω ^ 4) (normalDraws n) := by
  have := (lin_memLp a 4).integrable_norm_pow (by norm_num)
  refine this.congr (Filter.Eventually.of_forall fun ω => ?_)
  show |lin a ω| ^ 4 = lin a ω ^ 4
  exact Even.pow_abs (by decide) _

/-- Isserlis' formula for two squares. -/
theorem lin_sq_sq (a b : ZMod n → ℝ) :
    Integrable (fun ω => lin a ω ^ 2 * lin b ω ^ 2) (normalDraws n) ∧
    ∫ ω, lin a ω ^ 2 * lin b ω ^ 2 ∂(normalDraws n) =
      (∑ j, a j ^ 2) * (∑ j, b j ^ 2) + 2 * (∑ j, a j * b j) ^ 2 := by
  have hp : ∀ ω, lin (fun j => a j + b j) ω = lin a ω + lin b ω := fun ω => by
    simp only [lin, add_mul, Finset.sum_add_distrib]
  have hm : ∀ ω, lin (fun j => a j - b j) ω = lin a ω - lin b ω := fun ω => by
    simp only [lin, sub_mul, Finset.sum_sub_distrib]
  have e : (fun ω => lin a ω ^ 2 * lin b ω ^ 2) = fun ω => (lin (fun j => a j + b j) ω ^ 4 + lin (fun j => a j - b j) ω ^ 4 -
      2 * lin a ω ^ 4 - 2 * lin b ω ^ 4) / 12 := by
    funext ω
    rw [hp, hm]
    ring
  have i1 : Integrable (fun ω => lin (fun j => a j + b j) ω ^ 4 + lin (fun j => a j - b j) ω ^ 4) (normalDraws n) :=
    (lin_int_four _).add (lin_int_four _)
  have i2 : Integrable (fun ω => lin (fun j => a j + b j) ω ^ 4 + lin (fun j => a j - b j) ω ^ 4 - 2 * lin a ω ^ 4)
      (normalDraws n) := i1.sub ((lin_int_four a).const_mul 2)
  have i3 := i2.sub ((lin_int_four b).const_mul 2)
  rw [e]
  refine ⟨i3.div_const 12, ?_⟩
  rw [integral_div, integral_sub i2 ((lin_int_four b).const_mul 2), integral_sub i1 ((lin_int_four a).const_mul 2),
    integral_add (lin_int_four _) (lin_int_four _), integral_const_mul, integral_const_mul, lin_four, lin_four, lin_four,
    lin_four]
  have s1 : ∑ j, (a j + b j) ^ 2 = (∑ j, a j ^ 2) + 2 * (∑ j, a j * b j) + ∑ j, b j ^ 2 := by
    rw [Finset.mul_sum, ← Finset.sum_add_distrib, ← Finset.sum_add_distrib]
    exact Finset.sum_congr rfl fun j _ => by ring
  have s2 : ∑ j, (a j - b j) ^ 2 = (∑ j, a j ^ 2) - 2 * (∑ j, a j * b j) + ∑ j, b j ^ 2 := by
    rw [Finset.mul_sum, ← Finset.sum_sub_distrib, ← Finset.sum_add_distrib]
    exact Finset.sum_congr rfl fun j _ => by ring
  rw [s1, s2]
  ring

/-- A complex linear combination. -/
noncomputable def clin (u : ZMod n → ℂ) (w : ZMod n → ℝ) : ℂ := ∑ j, u j * w j

theorem clin_sq (u : ZMod n → ℂ) (w : ZMod n → ℝ) :
    ‖clin u w‖ ^ 2 = lin (fun j => (u j).re) w ^ 2 + lin (fun j => (u j).im) w ^ 2 := by
  rw [← Complex.normSq_eq_norm_sq, Complex.normSq_apply, clin, Complex.re_sum, Complex.im_sum, lin, lin]
  simp only [Complex.re_mul_ofReal, Complex.im_mul_ofReal]
  ring

/-- Isserlis' formula for two complex amplitudes. -/
theorem clin_sq_sq (u v : ZMod n → ℂ) :
    Integrable (fun ω => ‖clin u ω‖ ^ 2 * ‖clin v ω‖ ^ 2) (normalDraws n) ∧
    ∫ ω, ‖clin u ω‖ ^ 2 * ‖clin v ω‖ ^ 2 ∂(normalDraws n) =
      (∑ j, ‖u j‖ ^ 2) * (∑ j, ‖v j‖ ^ 2) + ‖∑ j, u j * starRingEnd ℂ (v j)‖ ^ 2 + ‖∑ j, u j * v j‖ ^ 2 := by
  have q := fun (a b : ZMod n → ℝ) => lin_sq_sq a b
  set ur := fun j => (u j).re with hur
  set ui := fun j => (u j).im with hui
  set vr := fun j => (v j).re with hvr
  set vi := fun j => (v j).im with hvi
  have e : (fun ω => ‖clin u ω‖ ^ 2 * ‖clin v ω‖ ^ 2) = fun ω => lin ur ω ^ 2 * lin vr ω ^ 2 + lin ur ω ^ 2 * lin vi ω ^ 2 +
      lin ui ω ^ 2 * lin vr ω ^ 2 + lin ui ω ^ 2 * lin vi ω ^ 2 := by
    funext ω
    rw [clin_sq, clin_sq]
    ring
  have j1 : Integrable (fun ω => lin ur ω ^ 2 * lin vr ω ^ 2 + lin ur ω ^ 2 * lin vi ω ^ 2) (normalDraws n) :=
    (q ur vr).1.add (q ur vi).1
  have j2 : Integrable (fun ω => lin ur ω ^ 2 * lin vr ω ^ 2 + lin ur ω ^ 2 * lin vi ω ^ 2 + lin ui ω ^ 2 * lin vr ω ^ 2)
      (normalDraws n) := j1.add (q ui vr).1
  rw [e]
  refine ⟨(((q ur vr).1.add (q ur vi).1).add (q ui vr).1).add (q ui vi).1, ?_⟩
  rw [integral_add j2 (q ui vi).1, integral_add j1 (q ui vr).1, integral_add (q ur vr).1 (q ur vi).1,
    (q ur vr).2, (q ur vi).2, (q ui vr).2, (q ui vi).2]
  have hu : ∑ j, ‖u j‖ ^ 2 = (∑ j, ur j ^ 2) + ∑ j, ui j ^ 2 := by
    rw [← Finset.sum_add_distrib]
    refine Finset.sum_congr rfl fun j _ => ?_
    rw [← Complex.normSq_eq_norm_sq, Complex.normSq_apply, hur, hui]
    ring
  have hv : ∑ j, ‖v j‖ ^ 2 = (∑ j, vr j ^ 2) + ∑ j, vi j ^ 2 := by
    rw [← Finset.sum_add_distrib]
    refine Finset.sum_congr rfl fun j _ => ?_
    rw [← Complex.normSq_eq_norm_sq, Complex.normSq_apply, hvr, hvi]
    ring
  have hp : ‖∑ j, u j * starRingEnd ℂ (v j)‖ ^ 2 = ((∑ j, ur j * vr j) + ∑ j, ui j * vi j) ^ 2 +
      ((∑ j, ui j * vr j) - ∑ j, ur j * vi j) ^ 2 := by
    rw [← Complex.normSq_eq_norm_sq, Complex.normSq_apply, Complex.re_sum, Complex.im_sum, ← Finset.sum_add_distrib,
      ← Finset.sum_sub_distrib]
    simp only [Complex.mul_re, Complex.mul_im, Complex.conj_re, Complex.conj_im, hur, hui, hvr, hvi, mul_neg, sub_neg_eq_add,
      pow_two]
    congr 2 <;> exact Finset.sum_congr rfl fun j _ => by ring
  have hq : ‖∑ j, u j * v j‖ ^ 2 = ((∑ j, ur j * vr j) - ∑ j, ui j * vi j) ^ 2 +
      ((∑ j, ui j * vr j) + ∑ j, ur j * vi j) ^ 2 := by
    rw [← Complex.normSq_eq_norm_sq, Complex.normSq_apply, Complex.re_sum, Complex.im_sum, ← Finset.sum_add_distrib,
      ← Finset.sum_sub_distrib]
    simp only [Complex.mul_re, Complex.mul_im, hur, hui, hvr, hvi, pow_two]
    congr 2 <;> exact Finset.sum_congr rfl fun j _ => by ring
  rw [hu, hv, hp, hq]
  ring

theorem fftR_clin (w : ZMod n → ℝ) (k : ZMod n) : fftR w k = clin (fun j => e (-(j * k))) w := fftR_apply w k

/-- Second moments of the powers of two bins of normal draws. -/
theorem power_power (k l : ZMod n) :
    Integrable (fun ω : ZMod n → ℝ => ‖fftR ω k‖ ^ 2 * ‖fftR ω l‖ ^ 2) (normalDraws n) ∧
    ∫ ω : ZMod n → ℝ, ‖fftR ω k‖ ^ 2 * ‖fftR ω l‖ ^ 2 ∂(normalDraws n) =
      n ^ 2 * (1 + (if k = l then 1 else 0) + if k = -l then 1 else 0) := by
  simp only [fftR_clin]
  refine ⟨(clin_sq_sq _ _).1, ?_⟩
  rw [(clin_sq_sq _ _).2]
  simp only [norm_e, one_pow, Finset.sum_const, Finset.card_univ, ZMod.card, nsmul_eq_mul, mul_one, conj_e, ← e_add]
  have h1 : ∑ j : ZMod n, e (-(j * k) + - -(j * l)) = if k = l then (n : ℂ) else 0 := by
    have := sum_e_mul (n := n) (l - k)
    rw [show (if k = l then (n : ℂ) else 0) = if l - k = 0 then (n : ℂ) else 0 by
      simp only [sub_eq_zero, eq_comm], ← this]
    exact Finset.sum_congr rfl fun j _ => by congr 1; ring
  have h2 : ∑ j : ZMod n, e (-(j * k) + -(j * l)) = if k = -l then (n : ℂ) else 0 := by
    have := sum_e_mul (n := n) (-(k + l))
    rw [show (if k = -l then (n : ℂ) else 0) = if -(k + l) = 0 then (n : ℂ) else 0 by
      simp only [neg_eq_zero, add_eq_zero_iff_eq_neg], ← this]
    exact Finset.sum_congr rfl fun j _ => by congr 1; ring
  rw [h1, h2]
  split_ifs <;> simp <;> ring

/-- Moments of the square of a linear combination and the power of a bin. -/
theorem lin_power (z : ZMod n → ℝ) (k : ZMod n) :
    Integrable (fun ω : ZMod n → ℝ => ‖fftR ω k‖ ^ 2 * lin z ω ^ 2) (normalDraws n) ∧
    ∫ ω : ZMod n → ℝ, ‖fftR ω k‖ ^ 2 * lin z ω ^ 2 ∂(normalDraws n) = n * (∑ j, z j ^ 2) + 2 * ‖fftR z k‖ ^ 2 := by
  have hz : ∀ ω, lin z ω ^ 2 = ‖clin (fun j => (z j : ℂ)) ω‖ ^ 2 := fun ω => by
    rw [clin_sq]
    simp [lin]
  simp only [hz, fftR_clin]
  refine ⟨(clin_sq_sq _ _).1, ?_⟩
  rw [(clin_sq_sq _ _).2]
  simp only [norm_e, one_pow, Finset.sum_const, Finset.card_univ, ZMod.card, nsmul_eq_mul, mul_one, Complex.conj_ofReal,
    Complex.norm_real, Real.norm_eq_abs, sq_abs, clin]
  ring

theorem power_mean (k : ZMod n) : Integrable (fun ω : ZMod n → ℝ => ‖fftR ω k‖ ^ 2) (normalDraws n) ∧
    ∫ ω : ZMod n → ℝ, ‖fftR ω k‖ ^ 2 ∂(normalDraws n) = n := by
  refine ⟨normalDraws_stationary.int_bin k, ?_⟩
  rw [normalDraws_stationary.bin, fftR_apply, Finset.sum_eq_single 0]
  · simp
  · intro j _ hj; simp [hj]
  · simp

theorem lin_mean (z : ZMod n → ℝ) : Integrable (fun ω : ZMod n → ℝ => lin z ω ^ 2) (normalDraws n) ∧
    ∫ ω, lin z ω ^ 2 ∂(normalDraws n) = ∑ j, z j ^ 2 := by
  simp only [lin, pow_two]
  refine ⟨normalDraws_stationary.int_lin2 z z, ?_⟩
  rw [normalDraws_stationary.lin2 z z]
  refine Finset.sum_congr rfl fun i _ => ?_
  rw [Finset.sum_eq_single i]
  · simp
  · intro j _ hj
    rw [if_neg (sub_ne_zero.2 hj.symm), mul_zero]
  · simp

/-- The total power in a set of bins. -/
noncomputable def total (S : Finset (ZMod n)) (w : ZMod n → ℝ) : ℝ := ∑ k ∈ S, ‖fftR w k‖ ^ 2 / n

theorem total_mean (S : Finset (ZMod n)) : Integrable (total S) (normalDraws n) ∧
    ∫ ω, total S ω ∂(normalDraws n) = S.card := by
  have hn : (n : ℝ) ≠ 0 := Nat.cast_ne_zero.2 (NeZero.ne n)
  unfold total
  refine ⟨integrable_finsetSum _ fun k _ => (power_mean k).1.div_const _, ?_⟩
  rw [integral_finsetSum _ fun k _ => (power_mean k).1.div_const _]
  simp only [integral_div, (power_mean _).2, div_self hn, Finset.sum_const, nsmul_eq_mul, mul_one]

theorem total_sq (S : Finset (ZMod n)) (hS : ∀ k ∈ S, -k ∈ S) :
    Integrable (fun ω => total S ω ^ 2) (normalDraws n) ∧
    ∫ ω, total S ω ^ 2 ∂(normalDraws n) = S.card ^ 2 + 2 * S.card := by
  have hn : (n : ℝ) ≠ 0 := Nat.cast_ne_zero.2 (NeZero.ne n)
  have e1 : (fun ω : ZMod n → ℝ => total S ω ^ 2) = fun ω => ∑ k ∈ S, ∑ l ∈ S, ‖fftR ω k‖ ^ 2 * ‖fftR ω l‖ ^ 2 / n ^ 2 := by
    funext ω
    rw [total, pow_two, Finset.sum_mul_sum]
    exact Finset.sum_congr rfl fun k _ => Finset.sum_congr rfl fun l _ => by field_simp
  have hi : ∀ k l : ZMod n, Integrable (fun ω : ZMod n → ℝ => ‖fftR ω k‖ ^ 2 * ‖fftR ω l‖ ^ 2 / n ^ 2) (normalDraws n) :=
    fun k l => (power_power k l).1.div_const _
  rw [e1]
  refine ⟨integrable_finsetSum _ fun k _ => integrable_finsetSum _ fun l _ => hi k l, ?_⟩
  rw [integral_finsetSum _ fun k _ => integrable_finsetSum _ fun l _ => hi k l]
  have h2 : ∀ k ∈ S, ∫ ω : ZMod n → ℝ, ∑ l ∈ S, ‖fftR ω k‖ ^ 2 * ‖fftR ω l‖ ^ 2 / n ^ 2 ∂(normalDraws n) = S.card + 2 := by
    intro k hk
    rw [integral_finsetSum _ fun l _ => hi k l]
    have h3 : ∀ l, ∫ ω : ZMod n → ℝ, ‖fftR ω k‖ ^ 2 * ‖fftR ω l‖ ^ 2 / n ^ 2 ∂(normalDraws n) =
        1 + (if l = k then 1 else 0) + if l = -k then 1 else 0 := by
      intro l
      rw [integral_div, (power_power k l).2, mul_div_cancel_left₀ _ (pow_ne_zero 2 hn)]
      simp only [eq_comm (a := l) (b := k), eq_comm (a := l) (b := -k), neg_eq_iff_eq_neg]
    simp only [h3, Finset.sum_add_distrib, Finset.sum_ite_eq', hk, hS k hk, if_true, Finset.sum_const, nsmul_eq_mul, mul_one]
    ring
  rw [Finset.sum_congr rfl h2, Finset.sum_const, nsmul_eq_mul]
  ring

theorem total_lin (S : Finset (ZMod n)) (z : ZMod n → ℝ) (hz : ∑ j, z j ^ 2 = 1) (hS : ∀ k, k ∉ S → fftR z k = 0) :
    Integrable (fun ω => total S ω * lin z ω ^ 2) (normalDraws n) ∧
    ∫ ω, total S ω * lin z ω ^ 2 ∂(normalDraws n) = S.card + 2 := by
  have hn : (n : ℝ) ≠ 0 := Nat.cast_ne_zero.2 (NeZero.ne n)
  have e1 : (fun ω : ZMod n → ℝ => total S ω * lin z ω ^ 2) = fun ω => ∑ k ∈ S, ‖fftR ω k‖ ^ 2 * lin z ω ^ 2 / n := by
    funext ω
    rw [total, Finset.sum_mul]
    exact Finset.sum_congr rfl fun k _ => by ring
  rw [e1]
  refine ⟨integrable_finsetSum _ fun k _ => (lin_power z k).1.div_const _, ?_⟩
  rw [integral_finsetSum _ fun k _ => (lin_power z k).1.div_const _]
  simp only [integral_div, (lin_power z _).2, hz, ← Finset.sum_div, Finset.sum_add_distrib, Finset.sum_const, nsmul_eq_mul,
    ← Finset.mul_sum]
  have : ∑ k ∈ S, ‖fftR z k‖ ^ 2 = n := by
    rw [Finset.sum_subset (Finset.subset_univ S) fun k _ hk => by rw [hS k hk]; simp, parseval, hz, mul_one]
  rw [this]
  field_simp

/-- What is left after removing one degree of freedom. -/
theorem total_sub (S : Finset (ZMod n)) (h0 : ∀ k ∈ S, -k ∈ S) (z : ZMod n → ℝ) (hz : ∑ j, z j ^ 2 = 1)
    (hS : ∀ k, k ∉ S → fftR z k = 0) :
    MemLp (fun ω => total S ω - lin z ω ^ 2) 2 (normalDraws n) ∧
    ∫ ω, total S ω - lin z ω ^ 2 ∂(normalDraws n) = S.card - 1 ∧
    ∫ ω, (total S ω - lin z ω ^ 2) ^ 2 ∂(normalDraws n) = (S.card - 1) ^ 2 + 2 * (S.card - 1) := by
  have e1 : (fun ω => (total S ω - lin z ω ^ 2) ^ 2) = fun ω => total S ω ^ 2 - 2 * (total S ω * lin z ω ^ 2) + lin z ω ^ 4 := by
    funext ω
    ring
  have i1 : Integrable (fun ω => total S ω ^ 2 - 2 * (total S ω * lin z ω ^ 2)) (normalDraws n) :=
    (total_sq S h0).1.sub ((total_lin S z hz hS).1.const_mul 2)
  have hi : Integrable (fun ω => (total S ω - lin z ω ^ 2) ^ 2) (normalDraws n) := by
    rw [e1]
    exact i1.add (lin_int_four z)
  have h1 : Integrable (fun ω => total S ω - lin z ω ^ 2) (normalDraws n) := (total_mean S).1.sub (lin_mean z).1
  refine ⟨(memLp_two_iff_integrable_sq h1.1).2 hi, ?_, ?_⟩
  · rw [integral_sub (total_mean S).1 (lin_mean z).1, (total_mean S).2, (lin_mean z).2, hz]
  · rw [e1, integral_add i1 (lin_int_four z), integral_sub (total_sq S h0).1 ((total_lin S z hz hS).1.const_mul 2),
      integral_const_mul, (total_sq S h0).2, (total_lin S z hz hS).2, lin_four, hz]
    ring

/-- Mean and variance from the first two moments. -/
theorem total_var (S : Finset (ZMod n)) (hS : ∀ k ∈ S, -k ∈ S) :
    MemLp (total S) 2 (normalDraws n) ∧ Var[total S; normalDraws n] = 2 * S.card := by
  have h : MemLp (total S) 2 (normalDraws n) := (memLp_two_iff_integrable_sq (total_mean S).1.1).2 (total_sq S hS).1
  refine ⟨h, ?_⟩
  rw [variance_eq_sub h, (total_mean S).2]
  simp only [Pi.pow_apply]
  rw [(total_sq S hS).2]
  ring

theorem total_sub_var (S : Finset (ZMod n)) (h0 : ∀ k ∈ S, -k ∈ S) (z : ZMod n → ℝ) (hz : ∑ j, z j ^ 2 = 1)
    (hS : ∀ k, k ∉ S → fftR z k = 0) :
    Var[fun ω => total S ω - lin z ω ^ 2; normalDraws n] = 2 * (S.card - 1) := by
  obtain ⟨h, h1, h2⟩ := total_sub S h0 z hz hS
  rw [variance_eq_sub h, h1]
  simp only [Pi.pow_apply]
  rw [h2]
  ring

section Gen
variable {psd : ZMod n → ℝ} {fs : ℝ} {ac : Bool}

open Classical in
/-- The bins used. -/
noncomputable def usedBins (psd : ZMod n → ℝ) (ac : Bool) : Finset (ZMod n) :=
  Finset.univ.filter fun k => Used (fun k => (psd k : WithTop ℝ)) ac k

theorem usedBins_neg (psd : ZMod n → ℝ) (ac : Bool) : ∀ k ∈ usedBins psd ac, -k ∈ usedBins psd ac := by
  classical
  intro k hk
  rw [usedBins, Finset.mem_filter] at hk ⊢
  refine ⟨Finset.mem_univ _, WithTop.coe_ne_top, fun h => hk.2.2 ⟨h.1, neg_eq_zero.1 h.2⟩⟩

/-- The chi-square of generated noise is the power of the draws in the bins used. -/
theorem gen_chi (hpsd : ∀ k, 0 < psd k) (hs : ∀ k, psd (-k) = psd k) (hfs : 0 < fs) (w : ZMod n → ℝ) :
    traceChi2 fs (weight (fun k => (psd k : WithTop ℝ)) ac) (Noise.genNoise psd fs w) = total (usedBins psd ac) w := by
  classical
  have hn : (n : ℝ) ≠ 0 := Nat.cast_ne_zero.2 (NeZero.ne n)
  unfold traceChi2 total usedBins
  rw [Finset.sum_filter]
  refine Finset.sum_congr rfl fun k _ => ?_
  split_ifs with hu
  · rw [Noise.genNoise_fft psd fs _ hs, norm_div, norm_mul, Complex.norm_real, Complex.norm_real, div_pow, mul_pow,
      Real.norm_eq_abs, Real.norm_eq_abs, sq_abs, sq_abs, Real.sq_sqrt (mul_nonneg (hpsd k).le hfs.le)]
    have : weight (fun k => (psd k : WithTop ℝ)) ac k = 1 / psd k := by
      rw [weight, if_neg hu.2]
      simp [recip]
    rw [this]
    have := (hpsd k).ne'
    field_simp
  · rw [weight_unused hu]
    ring

/-- The inner product of generated noise with a pulse. -/
theorem gen_ip (hpsd : ∀ k, 0 < psd k) (hs : ∀ k, psd (-k) = psd k) (hfs : 0 < fs) (p : ZMod n → ℝ) :
    ∃ z : ZMod n → ℝ, (∀ w, ip fs (weight (fun k => (psd k : WithTop ℝ)) ac) p (Noise.genNoise psd fs w) = lin z w) ∧
      ∑ j, z j ^ 2 = traceChi2 fs (weight (fun k => (psd k : WithTop ℝ)) ac) p ∧
      ∀ k, k ∉ usedBins psd ac → fftR z k = 0 := by
  classical
  have hpsd' : ∀ k, (0 : WithTop ℝ) < psd k := fun k => by exact_mod_cast hpsd k
  have hs' : ∀ k, ((psd (-k) : ℝ) : WithTop ℝ) = psd k := fun k => by rw [hs]
  set wt := weight (fun k => (psd k : WithTop ℝ)) ac
  have hz : ∀ w, ip fs wt p (Noise.genNoise psd fs w) = lin (Noise.genNoise psd fs (gOpt fs wt p)) w := by
    intro w
    rw [ip_gOpt fs _ p _ (weight_symm hs' ac), lin, genNoise_conv psd fs hs, genNoise_conv psd fs hs]
    simp only [Finset.mul_sum, Finset.sum_mul]
    rw [Finset.sum_comm]
    refine Finset.sum_congr rfl fun i _ => Finset.sum_congr rfl fun j _ => ?_
    rw [← impulse_even psd fs hs, neg_sub]
    ring
  refine ⟨_, hz, ?_, fun k hk => ?_⟩
  · obtain ⟨R, h, hR⟩ := genNoise_stationary psd hs (fun k => (hpsd k).le) hfs.le (normalDraws_stationary (n := n))
    rw [← (lin_mean _).2, ← h.ip_sq hR hpsd' hs' hfs ac p]
    exact integral_congr_ae (Filter.Eventually.of_forall fun ω => by simp only [hz, wt] at *)
  · have hu : ¬ Used (fun k => (psd k : WithTop ℝ)) ac k := fun hu => hk (by
      rw [usedBins, Finset.mem_filter]
      exact ⟨Finset.mem_univ _, hu⟩)
    rw [Noise.genNoise_fft psd fs _ hs, gOpt_fft fs _ p (weight_symm hs' ac), weight_unused hu]
    simp

open Classical in
/-- The bins used up to a cutoff. -/
noncomputable def lowBins (psd : ZMod n → ℝ) (fs : ℝ) (ac : Bool) (fc : ℝ) : Finset (ZMod n) :=
  Finset.univ.filter fun k => Used (fun k => (psd k : WithTop ℝ)) ac k ∧ |fftfreq fs k| ≤ fc

theorem lowBins_neg (psd : ZMod n → ℝ) (fs : ℝ) (ac : Bool) (fc : ℝ) :
    ∀ k ∈ lowBins psd fs ac fc, -k ∈ lowBins psd fs ac fc := by
  classical
  intro k hk
  rw [lowBins, Finset.mem_filter] at hk ⊢
  refine ⟨Finset.mem_univ _, ⟨WithTop.coe_ne_top, fun h => hk.2.1.2 ⟨h.1, neg_eq_zero.1 h.2⟩⟩, ?_⟩
  rw [(sq_eq_sq_iff_abs_eq_abs _ _).1 (Verif.Sim.fftfreq_neg_sq fs k)]
  exact hk.2.2

theorem gen_low (hpsd : ∀ k, 0 < psd k) (hs : ∀ k, psd (-k) = psd k) (hfs : 0 < fs) (T : ZMod n → ℝ) (a fc : ℝ) (wc : ℤ)
    (w : ZMod n → ℝ) :
    (chi2Lowfreq (init (pulse T a wc (Noise.genNoise psd fs w)) T (fun k => psd k) fs ac false) a (wc / fs) fc).1 =
      total (lowBins psd fs ac fc) w := by
  classical
  have hn : (n : ℝ) ≠ 0 := Nat.cast_ne_zero.2 (NeZero.ne n)
  have e1 : ∀ k, (init (pulse T a wc (Noise.genNoise psd fs w)) T (fun k => psd k) fs ac false).v k -
      (a : ℂ) * Complex.exp (-2 * Complex.I * Real.pi * ((wc / fs : ℝ) : ℂ) * (fftfreq fs k : ℝ)) *
        (init (pulse T a wc (Noise.genNoise psd fs w)) T (fun k => psd k) fs ac false).s k =
      fftR (Noise.genNoise psd fs w) k / (fs : ℂ) := by
    intro k
    have hexp : Complex.exp (-2 * Complex.I * Real.pi * ((wc / fs : ℝ) : ℂ) * (fftfreq fs k : ℝ)) =
        e (-((wc : ZMod n) * k)) := by
      have := exp_freq fs hfs.ne' (-wc) k (-(wc / fs)) (by push_cast; ring)
      push_cast at this
      rw [← neg_mul, ← this]
      congr 1; push_cast; ring
    rw [hexp, init_v, init_s]
    unfold pulse
    rw [fftR_add (fun j => a * roll T (wc : ZMod n) j), fftR_smul, fftR_roll]
    ring
  simp only [chi2Lowfreq, init_freqs, e1, init_w, init_df]
  unfold total lowBins
  rw [Finset.sum_filter]
  refine Finset.sum_congr rfl fun k _ => ?_
  by_cases hf : |fftfreq fs k| ≤ fc
  · by_cases hu : Used (fun k => (psd k : WithTop ℝ)) ac k
    · rw [if_pos hf, if_pos ⟨hu, hf⟩, Noise.genNoise_fft psd fs _ hs, norm_div, norm_mul, Complex.norm_real, Complex.norm_real,
        div_pow, mul_pow, Real.norm_eq_abs, Real.norm_eq_abs, sq_abs, sq_abs,
        Real.sq_sqrt (mul_nonneg (hpsd k).le hfs.le)]
      have : weight (fun k => (psd k : WithTop ℝ)) ac k = 1 / psd k := by
        rw [weight, if_neg hu.2]
        simp [recip]
      rw [this]
      have := (hpsd k).ne'
      field_simp
    · rw [if_pos hf, if_neg fun h => hu h.1, weight_unused hu]
      ring
  · rw [if_neg hf, if_neg fun h => hf h.2]

/-- The chi-square of the fit without delay. -/
theorem nodelay_gen (hpsd : ∀ k, 0 < psd k) (hs : ∀ k, psd (-k) = psd k) (hfs : 0 < fs) (ac : Bool)
    (T : ZMod n → ℝ) (hN : traceChi2 fs (weight (fun k => (psd k : WithTop ℝ)) ac) T ≠ 0) (a : ℝ) (wc : ℤ) :
    ∃ z : ZMod n → ℝ,
      (∀ ω, (nodelay (init (pulse T a wc (Noise.genNoise psd fs ω)) T (fun k => psd k) fs ac false) wc).1.2 =
        total (usedBins psd ac) ω - lin z ω ^ 2) ∧
      ∑ j, z j ^ 2 = 1 ∧ ∀ k, k ∉ usedBins psd ac → fftR z k = 0 := by
  obtain ⟨z, h1, h2, h3⟩ := gen_ip (ac := ac) hpsd hs hfs (roll T (wc : ZMod n))
  rw [traceChi2_roll] at h2
  have hpos : 0 < traceChi2 fs (weight (fun k => (psd k : WithTop ℝ)) ac) T := by
    refine lt_of_le_of_ne ?_ hN.symm
    rw [← h2]
    exact Finset.sum_nonneg fun j _ => sq_nonneg _
  set N := traceChi2 fs (weight (fun k => (psd k : WithTop ℝ)) ac) T
  have hsq := Real.sq_sqrt hpos.le
  have hsq0 := (Real.sqrt_pos.2 hpos).ne'
  refine ⟨fun j => (1 / Real.sqrt N) * z j, fun ω => ?_, ?_, fun k hk => ?_⟩
  · rw [nodelay_pulse hfs.ne' ac T hN, h1, gen_chi hpsd hs hfs]
    have : lin (fun j => (1 / Real.sqrt N) * z j) ω = (1 / Real.sqrt N) * lin z ω := by
      simp only [lin, Finset.mul_sum, mul_assoc]
    rw [this, mul_pow, div_pow, hsq, one_pow]
    ring
  · simp only [mul_pow, div_pow, hsq, one_pow]
    rw [← Finset.mul_sum, h2]
    field_simp
  · rw [fftR_smul, h3 k hk, mul_zero]

end Gen

end Verif.OF
