import Verif.NonLinErrLemmas

import Mathlib.Algebra.Polynomial.Roots
import Mathlib.Algebra.Polynomial.BigOperators

/-! C152: sums of three and four poles. -/

namespace Verif.NonLin

open Verif Verif.Dft Filter Topology

section multi

open Polynomial in
/-- Where a sum of a constant and simple poles vanishes at more points than it has poles, it is zero. -/
theorem simple_poles {m : ℕ} {τ : Fin m → ℂ} (hinj : Function.Injective τ) (h0 : ∀ i, τ i ≠ 0) {α : Fin m → ℂ} {γ : ℂ} {s : Finset ℂ}
    (hs : m < s.card) (hne : ∀ x ∈ s, ∀ i, 1 + τ i * x ≠ 0) (h : ∀ x ∈ s, γ + ∑ i, α i / (1 + τ i * x) = 0) (i : Fin m) : α i = 0 := by
  set L : Fin m → ℂ[X] := fun i => 1 + C (τ i) * X with hL
  have hLe : ∀ i x, (L i).eval x = 1 + τ i * x := fun i x => by simp [hL]
  have hLd : ∀ i, (L i).natDegree ≤ 1 := fun i => by
    refine (natDegree_add_le _ _).trans (max_le (by simp) ((natDegree_C_mul_le _ _).trans natDegree_X_le))
  set P : ℂ[X] := C γ * ∏ i, L i + ∑ i, C (α i) * ∏ j ∈ Finset.univ.erase i, L j with hP
  have hdeg : P.natDegree ≤ m := by
    refine (natDegree_add_le _ _).trans (max_le ?_ ?_)
    · refine (natDegree_C_mul_le _ _).trans ((natDegree_prod_le _ _).trans ((Finset.sum_le_sum fun i _ => hLd i).trans (by simp)))
    · refine natDegree_sum_le_of_forall_le _ _ fun i _ => ?_
      refine (natDegree_C_mul_le _ _).trans ((natDegree_prod_le _ _).trans ((Finset.sum_le_sum fun i _ => hLd i).trans (by simp)))
  have hP0 : P = 0 := by
    refine eq_zero_of_natDegree_lt_card_of_eval_eq_zero' P s (fun x hx => ?_) (hdeg.trans_lt hs)
    have hpr : ∀ i, ∏ j ∈ Finset.univ.erase i, (1 + τ j * x) = (∏ j, (1 + τ j * x)) / (1 + τ i * x) := fun i => by
      rw [eq_div_iff (hne x hx i), mul_comm, Finset.mul_prod_erase _ (fun j => 1 + τ j * x) (Finset.mem_univ i)]
    simp only [hP, eval_add, eval_mul, eval_C, eval_finsetSum, eval_prod, hLe, hpr]
    have := congrArg (· * ∏ j, (1 + τ j * x)) (h x hx)
    simp only [zero_mul, add_mul, Finset.sum_mul] at this
    rw [← this]
    congr 1
    exact Finset.sum_congr rfl fun i _ => by ring
  have hroot : ∀ j, 1 + τ j * (-1 / τ i) = (τ i - τ j) / τ i := fun j => by field_simp [h0 i]; ring
  have e := congrArg (eval (-1 / τ i)) hP0
  simp only [hP, eval_add, eval_mul, eval_C, eval_finsetSum, eval_prod, hLe, hroot, eval_zero] at e
  rw [Finset.prod_eq_zero (Finset.mem_univ i) (by simp), mul_zero, zero_add, Finset.sum_eq_single i] at e
  · refine (mul_eq_zero.1 e).resolve_right (Finset.prod_ne_zero_iff.2 fun j hj => div_ne_zero (sub_ne_zero.2 fun h => ?_) (h0 i))
    exact (Finset.mem_erase.1 hj).1 (hinj h).symm
  · intro j _ hj
    rw [Finset.prod_eq_zero (Finset.mem_erase.2 ⟨hj.symm, Finset.mem_univ i⟩) (by simp), mul_zero]
  · simp

open Polynomial in
/-- The same with double poles. -/
theorem double_poles {m : ℕ} {τ : Fin m → ℂ} (hinj : Function.Injective τ) (h0 : ∀ i, τ i ≠ 0) {α β : Fin m → ℂ} {γ : ℂ} {s : Finset ℂ}
    (hs : 2 * m < s.card) (hne : ∀ x ∈ s, ∀ i, 1 + τ i * x ≠ 0)
    (h : ∀ x ∈ s, γ + ∑ i, (α i / (1 + τ i * x) + β i / (1 + τ i * x) ^ 2) = 0) (i : Fin m) : α i = 0 ∧ β i = 0 := by
  set L : Fin m → ℂ[X] := fun i => 1 + C (τ i) * X with hL
  have hLe : ∀ i x, (L i).eval x = 1 + τ i * x := fun i x => by simp [hL]
  have hLd : ∀ i, (L i).natDegree ≤ 1 := fun i => by
    refine (natDegree_add_le _ _).trans (max_le (by simp) ((natDegree_C_mul_le _ _).trans natDegree_X_le))
  have hL2 : ∀ i, (L i ^ 2).natDegree ≤ 2 := fun i => natDegree_pow_le.trans (by have := hLd i; omega)
  set P : ℂ[X] := C γ * ∏ i, L i ^ 2 + ∑ i, (C (α i) * L i + C (β i)) * ∏ j ∈ Finset.univ.erase i, L j ^ 2 with hP
  have hdeg : P.natDegree ≤ 2 * m := by
    refine (natDegree_add_le _ _).trans (max_le ?_ ?_)
    · refine (natDegree_C_mul_le _ _).trans ((natDegree_prod_le _ _).trans ((Finset.sum_le_sum fun i _ => hL2 i).trans (by simp [mul_comm])))
    · refine natDegree_sum_le_of_forall_le _ _ fun i _ => ?_
      refine natDegree_mul_le.trans ?_
      have e1 : (C (α i) * L i + C (β i)).natDegree ≤ 1 :=
        (natDegree_add_le _ _).trans (max_le ((natDegree_C_mul_le _ _).trans (hLd i)) (by simp))
      have e2 : (∏ j ∈ Finset.univ.erase i, L j ^ 2).natDegree ≤ (m - 1) * 2 :=
        (natDegree_prod_le _ _).trans ((Finset.sum_le_sum fun i _ => hL2 i).trans (by simp))
      have := i.pos
      omega
  have hP0 : P = 0 := by
    refine eq_zero_of_natDegree_lt_card_of_eval_eq_zero' P s (fun x hx => ?_) (hdeg.trans_lt hs)
    have hpr : ∀ i, ∏ j ∈ Finset.univ.erase i, (1 + τ j * x) ^ 2 = (∏ j, (1 + τ j * x) ^ 2) / (1 + τ i * x) ^ 2 := fun i => by
      rw [eq_div_iff (pow_ne_zero 2 (hne x hx i)), mul_comm, Finset.mul_prod_erase _ (fun j => (1 + τ j * x) ^ 2) (Finset.mem_univ i)]
    simp only [hP, eval_add, eval_mul, eval_C, eval_finsetSum, eval_prod, eval_pow, hLe, hpr]
    have := congrArg (· * ∏ j, (1 + τ j * x) ^ 2) (h x hx)
    simp only [zero_mul, add_mul, Finset.sum_mul] at this
    rw [← this]
    congr 1
    refine Finset.sum_congr rfl fun i _ => ?_
    have := hne x hx i
    field_simp
  have hroot : ∀ i j, 1 + τ j * (-1 / τ i) = (τ i - τ j) / τ i := fun i j => by field_simp [h0 i]; ring
  have hβ : ∀ i, β i = 0 := by
    intro i
    have e := congrArg (eval (-1 / τ i)) hP0
    simp only [hP, eval_add, eval_mul, eval_C, eval_finsetSum, eval_prod, eval_pow, hLe, hroot, eval_zero] at e
    rw [Finset.prod_eq_zero (Finset.mem_univ i) (by simp), mul_zero, zero_add, Finset.sum_eq_single i] at e
    · rw [sub_self, zero_div, mul_zero, zero_add] at e
      refine (mul_eq_zero.1 e).resolve_right (Finset.prod_ne_zero_iff.2 fun j hj => pow_ne_zero 2 (div_ne_zero (sub_ne_zero.2 fun h => ?_) (h0 i)))
      exact (Finset.mem_erase.1 hj).1 (hinj h).symm
    · intro j _ hj
      rw [Finset.prod_eq_zero (Finset.mem_erase.2 ⟨hj.symm, Finset.mem_univ i⟩) (by simp), mul_zero]
    · simp
  refine ⟨simple_poles hinj h0 (γ := γ) (s := s) (by omega) hne (fun x hx => ?_) i, hβ i⟩
  simpa [hβ] using h x hx

variable {n : ℕ} [NeZero n]

/-- A sum of poles as a function of the coefficients, the times, and the delay. -/
noncomputable def multi (n : ℕ) [NeZero n] (fs : ℝ) {m : ℕ} (a τ : Fin m → ℝ) (t : ℝ) (k : ZMod n) : ℂ :=
  (∑ i, (a i : ℂ) * pole (τ i) (2 * Real.pi * fftfreq fs k)) * Complex.exp (-Complex.I * (2 * Real.pi * fftfreq fs k : ℝ) * t) *
    Real.sqrt (fs / n)

theorem multi_contDiff {fs : ℝ} {m : ℕ} {V : Type*} [NormedAddCommGroup V] [NormedSpace ℝ V] {a τ : V → Fin m → ℝ} {t : V → ℝ} {v : V}
    (ha : ∀ i, ContDiffAt ℝ 1 (fun p => a p i) v) (hτ : ∀ i, ContDiffAt ℝ 1 (fun p => τ p i) v) (ht : ContDiffAt ℝ 1 t v) :
    ContDiffAt ℝ 1 (fun p => multi n fs (a p) (τ p) (t p)) v := by
  refine contDiffAt_pi.2 fun k => ?_
  have hof : ∀ {f : V → ℝ}, ContDiffAt ℝ 1 f v → ContDiffAt ℝ 1 (fun p => ((f p : ℝ) : ℂ)) v := fun hf =>
    Complex.ofRealCLM.contDiff.contDiffAt.comp v hf
  have h1 : ∀ {f : V → ℝ}, ContDiffAt ℝ 1 f v → ContDiffAt ℝ 1
      (fun p => (1 + ((2 * Real.pi * fftfreq fs k : ℝ) : ℂ) * (f p : ℂ) * Complex.I)) v := fun hf =>
    contDiffAt_const.add ((contDiffAt_const.mul (hof hf)).mul contDiffAt_const)
  have he : ContDiffAt ℝ 1 (fun p => Complex.exp (-Complex.I * (2 * Real.pi * fftfreq fs k : ℝ) * (t p : ℂ))) v :=
    (contDiffAt_const.mul (hof ht)).cexp
  have hd : ∀ {f g : V → ℂ}, ContDiffAt ℝ 1 f v → ContDiffAt ℝ 1 g v → g v ≠ 0 → ContDiffAt ℝ 1 (fun p => f p / g p) v :=
    fun hf hg h0 => by
      simp only [div_eq_mul_inv]
      exact hf.mul (hg.inv h0)
  unfold multi pole
  exact ((ContDiffAt.sum fun i _ => (hof (ha i)).mul (hd (hof (hτ i)) (h1 (hτ i)) (one_add_ne _ _))).mul he).mul contDiffAt_const

theorem multi_herm (fs : ℝ) (hodd : Odd n) {m : ℕ} (a τ : Fin m → ℝ) (t : ℝ) (k : ZMod n) :
    multi n fs a τ t (-k) = starRingEnd ℂ (multi n fs a τ t k) := by
  have hw : 2 * Real.pi * fftfreq fs (-k) = -(2 * Real.pi * fftfreq fs k) := by
    unfold fftfreq
    rw [Didv.freqIdx_neg k (by rcases hodd with ⟨a, ha⟩; omega)]
    push_cast
    ring
  unfold multi
  rw [hw]
  simp only [map_mul, map_sum, Complex.conj_ofReal, pole_conj, exp_conj]

/-- What it means, in one bin, that the derivative along a line vanishes. -/
theorem multi_bin {fs : ℝ} (hfs : 0 < fs) {m : ℕ} {a τ a' τ' : Fin m → ℝ} {t t' : ℝ}
    (h : HasDerivAt (fun s => multi n fs (fun i => a i + s * a' i) (fun i => τ i + s * τ' i) (t + s * t')) 0 0)
    (k : ZMod n) (ω : ℝ) (hω : ω = 2 * Real.pi * fftfreq fs k) :
    (-(t' : ℂ) * ∑ i, (a i : ℂ)) + ∑ i, (((a' i * τ i + t' * a i : ℝ) : ℂ) / (1 + τ i * (ω * Complex.I)) +
      ((a i * τ' i : ℝ) : ℂ) / (1 + τ i * (ω * Complex.I)) ^ 2) = 0 := by
  have hn0 : (0 : ℝ) < n := by exact_mod_cast NeZero.pos n
  have hcst : ((Real.sqrt (fs / n) : ℝ) : ℂ) ≠ 0 := by exact_mod_cast (Real.sqrt_pos.2 (by positivity)).ne'
  have hlin : ∀ x u : ℝ, HasDerivAt (fun s : ℝ => ((x + s * u : ℝ) : ℂ)) (u : ℂ) 0 := fun x u => by
    have : HasDerivAt (fun s : ℝ => x + s * u) u 0 := by simpa using ((hasDerivAt_id (0 : ℝ)).mul_const u).const_add x
    exact this.ofReal_comp
  have h1 := (hasDerivAt_pi.1 h k)
  have hp : ∀ i, HasDerivAt (fun s : ℝ => ((a i + s * a' i : ℝ) : ℂ) * pole (τ i + s * τ' i) ω)
      (a' i * pole (τ i) ω + a i * (τ' i / (1 + ω * τ i * Complex.I) ^ 2)) 0 := by
    intro i
    have e := one_add_ne ω (τ i)
    have d1 : HasDerivAt (fun s : ℝ => (1 + ω * ((τ i + s * τ' i : ℝ) : ℂ) * Complex.I)) (ω * τ' i * Complex.I) 0 :=
      (((hlin (τ i) (τ' i)).const_mul (ω : ℂ)).mul_const Complex.I).const_add 1
    have d2 := (hlin (τ i) (τ' i)).fun_div d1 (by simpa using e)
    have d3 := (hlin (a i) (a' i)).fun_mul d2
    simp only [zero_mul, add_zero] at d3
    unfold pole
    refine d3.congr_deriv ?_
    field_simp
    ring
  have he : HasDerivAt (fun s : ℝ => Complex.exp (-Complex.I * ω * ((t + s * t' : ℝ) : ℂ)))
      (Complex.exp (-Complex.I * ω * t) * (-Complex.I * ω * t')) 0 := by
    have := ((hlin t t').const_mul (-Complex.I * ω)).cexp
    simpa using this
  have hall := ((HasDerivAt.fun_sum (u := Finset.univ) fun i _ => hp i).fun_mul he).mul_const (Real.sqrt (fs / n) : ℂ)
  simp only [zero_mul, add_zero] at hall
  have h2 : (fun s : ℝ => multi n fs (fun i => a i + s * a' i) (fun i => τ i + s * τ' i) (t + s * t') k) = fun s : ℝ =>
      (∑ i, ((a i + s * a' i : ℝ) : ℂ) * pole (τ i + s * τ' i) ω) * Complex.exp (-Complex.I * ω * ((t + s * t' : ℝ) : ℂ)) *
        (Real.sqrt (fs / n) : ℂ) := by
    funext s
    rw [hω]
    rfl
  rw [h2] at h1
  have h3 := h1.unique hall
  rw [Pi.zero_apply] at h3
  have h4 := (mul_eq_zero.1 h3.symm).resolve_right hcst
  have hex := Complex.exp_ne_zero (-Complex.I * ω * t)
  have h5 : (∑ i, ((a' i : ℂ) * pole (τ i) ω + a i * (τ' i / (1 + ω * τ i * Complex.I) ^ 2))) +
      (∑ i, (a i : ℂ) * pole (τ i) ω) * (-Complex.I * ω * t') = 0 := by
    refine mul_left_cancel₀ hex ?_
    rw [mul_zero, ← h4]
    ring
  rw [Finset.sum_mul, ← Finset.sum_add_distrib] at h5
  rw [← h5, Finset.mul_sum, ← Finset.sum_add_distrib]
  refine Finset.sum_congr rfl fun i _ => ?_
  have e := one_add_ne ω (τ i)
  have e' : (1 + (τ i : ℂ) * (ω * Complex.I)) = 1 + ω * τ i * Complex.I := by ring
  rw [e']
  unfold pole
  push_cast
  generalize hE : (1 + (ω : ℂ) * τ i * Complex.I) = E at *
  field_simp
  rw [← hE]
  ring

theorem multi_inj {fs : ℝ} (hfs : 0 < fs) {m : ℕ} (hn : 4 * m + 2 < n) {a τ a' τ' : Fin m → ℝ} {t t' : ℝ} (ha : ∀ i, a i ≠ 0)
    (hinj : Function.Injective τ) (hτ : ∀ i, 0 < τ i)
    (h : HasDerivAt (fun s => multi n fs (fun i => a i + s * a' i) (fun i => τ i + s * τ' i) (t + s * t')) 0 0) (i : Fin m) :
    τ' i = 0 ∧ a' i * τ i + t' * a i = 0 := by
  have hn0 : (0 : ℝ) < n := by exact_mod_cast NeZero.pos n
  have key := multi_bin hfs h
  have hfreq : ∀ j : ℕ, 2 * j < n → 2 * Real.pi * fftfreq fs ((j : ℕ) : ZMod n) = j * (2 * Real.pi * fs / n) := by
    intro j hj
    unfold fftfreq freqIdx
    rw [ZMod.val_cast_of_lt (by omega), if_pos (by omega)]
    push_cast
    ring
  have hpi := Real.pi_pos
  set w := 2 * Real.pi * fs / n with hw
  have hw0 : w ≠ 0 := by positivity
  set s : Finset ℂ := (Finset.range (2 * m + 1)).image fun j : ℕ => (((j : ℝ) * w : ℝ) : ℂ) * Complex.I with hs
  have hcard : s.card = 2 * m + 1 := by
    rw [hs, Finset.card_image_of_injective, Finset.card_range]
    intro x y hxy
    have h1 : (((x : ℝ) * w : ℝ) : ℂ) = (((y : ℝ) * w : ℝ) : ℂ) := mul_right_cancel₀ Complex.I_ne_zero hxy
    have h2 : (x : ℝ) * w = y * w := by exact_mod_cast h1
    exact_mod_cast mul_right_cancel₀ hw0 h2
  obtain ⟨e1, e2⟩ := double_poles (τ := fun i => (τ i : ℂ)) (α := fun i => ((a' i * τ i + t' * a i : ℝ) : ℂ))
    (β := fun i => ((a i * τ' i : ℝ) : ℂ)) (γ := -(t' : ℂ) * ∑ i, (a i : ℂ)) (s := s)
    (fun x y hxy => hinj (Complex.ofReal_injective hxy)) (fun i => by exact_mod_cast (hτ i).ne') (by omega)
    (by
      intro x hx i
      obtain ⟨j, -, rfl⟩ := Finset.mem_image.1 hx
      have := one_add_ne (j * w) (τ i)
      rwa [show (1 + (τ i : ℂ) * ((((j : ℝ) * w : ℝ) : ℂ) * Complex.I)) = 1 + ((j * w : ℝ) : ℂ) * τ i * Complex.I by ring])
    (by
      intro x hx
      obtain ⟨j, hj, rfl⟩ := Finset.mem_image.1 hx
      exact key (j : ZMod n) _ (hfreq j (by have := Finset.mem_range.1 hj; omega)).symm) i
  refine ⟨?_, by exact_mod_cast e1⟩
  have : a i * τ' i = 0 := by exact_mod_cast e2
  exact (mul_eq_zero.1 this).resolve_left (ha i)

theorem three_model {psd : ZMod n → ℝ} {fs errscale : ℝ} {tmpl : Option (List ℝ)} {tau : Option ℝ} {scale : Bool}
    (pulse' : ZMod n → ℝ) (npole : ℤ) (A B τr τ1 τ2 t : ℝ) :
    ((init psd fs tmpl).prepare pulse' npole errscale tau scale).threepole A B τr τ1 τ2 t =
      multi n fs ![A, B, -(A + B)] ![τ1, τ2, τr] t := by
  funext k
  simp only [Obj.threepole, multi, Obj.omega, Obj.df, Obj.prepare, init, Fin.sum_univ_three, Matrix.cons_val_zero,
    Matrix.cons_val_one, Matrix.cons_val]
  push_cast
  ring

theorem four_model {psd : ZMod n → ℝ} {fs errscale : ℝ} {tmpl : Option (List ℝ)} {tau : Option ℝ} {scale : Bool}
    (pulse' : ZMod n → ℝ) (npole : ℤ) (A B C τr τ1 τ2 τ3 t : ℝ) :
    ((init psd fs tmpl).prepare pulse' npole errscale tau scale).fourpole A B C τr τ1 τ2 τ3 t =
      multi n fs ![A, B, C, -(A + B + C)] ![τ1, τ2, τ3, τr] t := by
  funext k
  simp only [Obj.fourpole, multi, Obj.omega, Obj.df, Obj.prepare, init, Fin.sum_univ_four, Matrix.cons_val_zero,
    Matrix.cons_val_one, Matrix.cons_val]
  push_cast
  ring

theorem three_inj {fs : ℝ} (hfs : 0 < fs) (hn : 60 < n) {A B τr τ1 τ2 t u0 u1 u2 u3 u4 u5 : ℝ} (hA : 0 < A) (hB : 0 < B)
    (hr : 0 < τr) (h1 : 0 < τ1) (h2 : 0 < τ2) (hd : [τ1, τ2, τr].Nodup) (hslope : A / τ1 + B / τ2 ≠ (A + B) / τr)
    (h : HasDerivAt (fun s => multi n fs ![A + s * u0, B + s * u1, -(A + s * u0 + (B + s * u1))] ![τ1 + s * u3, τ2 + s * u4, τr + s * u2]
      (t + s * u5)) 0 0) : u0 = 0 ∧ u1 = 0 ∧ u2 = 0 ∧ u3 = 0 ∧ u4 = 0 ∧ u5 = 0 := by
  have hinj : Function.Injective ![τ1, τ2, τr] := by
    have := List.nodup_ofFn.1 (show (List.ofFn ![τ1, τ2, τr]).Nodup by simpa [List.ofFn_succ] using hd)
    exact this
  have ea : ∀ s, ![A + s * u0, B + s * u1, -(A + s * u0 + (B + s * u1))] =
      fun i => ![A, B, -(A + B)] i + s * ![u0, u1, -(u0 + u1)] i := fun s => by
    funext i
    fin_cases i
    exacts [rfl, rfl, by simp; ring]
  have et : ∀ s, ![τ1 + s * u3, τ2 + s * u4, τr + s * u2] = fun i => ![τ1, τ2, τr] i + s * ![u3, u4, u2] i := fun s => by
    funext i
    fin_cases i <;> rfl
  simp only [ea, et] at h
  have key := multi_inj (n := n) hfs (by omega) (a := ![A, B, -(A + B)]) (τ := ![τ1, τ2, τr]) (a' := ![u0, u1, -(u0 + u1)]) (τ' := ![u3, u4, u2])
    (t := t) (t' := u5) (by intro i; fin_cases i; exacts [hA.ne', hB.ne', (neg_lt_zero.2 (add_pos hA hB)).ne]) hinj
    (by intro i; fin_cases i; exacts [h1, h2, hr]) h
  obtain ⟨a1, b1⟩ := key 0
  obtain ⟨a2, b2⟩ := key 1
  obtain ⟨a3, b3⟩ := key 2
  simp at a1 b1 a2 b2 a3 b3
  have hu : u5 = 0 := by
    have : u5 * (A / τ1 + B / τ2 - (A + B) / τr) = 0 := by
      have e1 : u0 = -(u5 * A) / τ1 := by rw [eq_div_iff h1.ne']; linarith
      have e2 : u1 = -(u5 * B) / τ2 := by rw [eq_div_iff h2.ne']; linarith
      have e3 : u0 + u1 = -(u5 * (A + B)) / τr := by rw [eq_div_iff hr.ne']; linarith
      rw [e1, e2] at e3
      linear_combination -e3
    exact (mul_eq_zero.1 this).resolve_right (sub_ne_zero.2 hslope)
  subst hu
  refine ⟨?_, ?_, a3, a1, a2, rfl⟩
  · exact (mul_eq_zero.1 (by linarith : u0 * τ1 = 0)).resolve_right h1.ne'
  · exact (mul_eq_zero.1 (by linarith : u1 * τ2 = 0)).resolve_right h2.ne'

theorem four_inj {fs : ℝ} (hfs : 0 < fs) (hn : 60 < n) {A B C τr τ1 τ2 τ3 t u0 u1 u2 u3 u4 u5 u6 u7 : ℝ} (hA : 0 < A) (hB : 0 < B)
    (hC : 0 < C) (hr : 0 < τr) (h1 : 0 < τ1) (h2 : 0 < τ2) (h3 : 0 < τ3) (hd : [τ1, τ2, τ3, τr].Nodup)
    (hslope : A / τ1 + B / τ2 + C / τ3 ≠ (A + B + C) / τr)
    (h : HasDerivAt (fun s => multi n fs ![A + s * u0, B + s * u1, C + s * u2, -(A + s * u0 + (B + s * u1) + (C + s * u2))]
      ![τ1 + s * u4, τ2 + s * u5, τ3 + s * u6, τr + s * u3] (t + s * u7)) 0 0) :
    u0 = 0 ∧ u1 = 0 ∧ u2 = 0 ∧ u3 = 0 ∧ u4 = 0 ∧ u5 = 0 ∧ u6 = 0 ∧ u7 = 0 := by
  have hinj : Function.Injective ![τ1, τ2, τ3, τr] := by
    have := List.nodup_ofFn.1 (show (List.ofFn ![τ1, τ2, τ3, τr]).Nodup by simpa [List.ofFn_succ] using hd)
    exact this
  have ea : ∀ s, ![A + s * u0, B + s * u1, C + s * u2, -(A + s * u0 + (B + s * u1) + (C + s * u2))] =
      fun i => ![A, B, C, -(A + B + C)] i + s * ![u0, u1, u2, -(u0 + u1 + u2)] i := fun s => by
    funext i
    fin_cases i
    exacts [rfl, rfl, rfl, by simp; ring]
  have et : ∀ s, ![τ1 + s * u4, τ2 + s * u5, τ3 + s * u6, τr + s * u3] =
      fun i => ![τ1, τ2, τ3, τr] i + s * ![u4, u5, u6, u3] i := fun s => by
    funext i
    fin_cases i <;> rfl
  simp only [ea, et] at h
  have key := multi_inj (n := n) hfs (by omega) (a := ![A, B, C, -(A + B + C)]) (τ := ![τ1, τ2, τ3, τr]) (a' := ![u0, u1, u2, -(u0 + u1 + u2)])
    (τ' := ![u4, u5, u6, u3])
    (t := t) (t' := u7) (by intro i; fin_cases i; exacts [hA.ne', hB.ne', hC.ne', (neg_lt_zero.2 (add_pos (add_pos hA hB) hC)).ne]) hinj
    (by intro i; fin_cases i; exacts [h1, h2, h3, hr]) h
  obtain ⟨a1, b1⟩ := key 0
  obtain ⟨a2, b2⟩ := key 1
  obtain ⟨a3, b3⟩ := key 2
  obtain ⟨a4, b4⟩ := key 3
  simp at a1 b1 a2 b2 a3 b3 a4 b4
  have hu : u7 = 0 := by
    have : u7 * (A / τ1 + B / τ2 + C / τ3 - (A + B + C) / τr) = 0 := by
      have e1 : u0 = -(u7 * A) / τ1 := by rw [eq_div_iff h1.ne']; linarith
      have e2 : u1 = -(u7 * B) / τ2 := by rw [eq_div_iff h2.ne']; linarith
      have e3 : u2 = -(u7 * C) / τ3 := by rw [eq_div_iff h3.ne']; linarith
      have e4 : u0 + u1 + u2 = -(u7 * (A + B + C)) / τr := by rw [eq_div_iff hr.ne']; linarith
      rw [e1, e2, e3] at e4
      linear_combination -e4
    exact (mul_eq_zero.1 this).resolve_right (sub_ne_zero.2 hslope)
  subst hu
  refine ⟨?_, ?_, ?_, a4, a1, a2, a3, rfl⟩
  · exact (mul_eq_zero.1 (by linarith : u0 * τ1 = 0)).resolve_right h1.ne'
  · exact (mul_eq_zero.1 (by linarith : u1 * τ2 = 0)).resolve_right h2.ne'
  · exact (mul_eq_zero.1 (by linarith : u2 * τ3 = 0)).resolve_right h3.ne'

/-- Two terms in order are not swapped. -/
theorem order_two {ε δ A B τ1 τ2 a b c d x3 x4 : ℝ} (hδ : τ1 + 2 * δ ≤ τ2) (h : [(a, c), (b, d)].Perm [(A, τ1), (B, τ2)])
    (hx : x3 < x4) (hε : ε ≤ δ) (h0 : 0 < δ) (h3 : |x3 - c| < ε) (h4 : |x4 - d| < ε) : a = A ∧ c = τ1 ∧ b = B ∧ d = τ2 := by
  have m1 : (a, c) ∈ [(A, τ1), (B, τ2)] := h.subset (by simp)
  have m2 : (b, d) ∈ [(A, τ1), (B, τ2)] := h.subset (by simp)
  have hnd : [c, d].Nodup := (h.map Prod.snd).nodup_iff.2 (by simp; linarith)
  simp only [List.mem_cons, Prod.mk.injEq, List.not_mem_nil, or_false] at m1 m2
  simp only [List.nodup_cons, List.mem_cons, List.not_mem_nil, or_false, not_false_eq_true, List.nodup_nil, and_true] at hnd
  have := abs_lt.1 h3
  have := abs_lt.1 h4
  rcases m1 with ⟨rfl, rfl⟩ | ⟨rfl, rfl⟩ <;> rcases m2 with ⟨rfl, rfl⟩ | ⟨rfl, rfl⟩
  · exact absurd rfl hnd
  · exact ⟨rfl, rfl, rfl, rfl⟩
  · exfalso; linarith
  · exact absurd rfl hnd

/-- Three terms in order are not permuted. -/
theorem order_three {ε δ A B C τ1 τ2 τ3 a b c d e f x4 x5 x6 : ℝ} (hδ : τ1 + 2 * δ ≤ τ2) (hδ' : τ2 + 2 * δ ≤ τ3)
    (h : [(a, d), (b, e), (c, f)].Perm [(A, τ1), (B, τ2), (C, τ3)])
    (hx : x4 < x5) (hx' : x5 < x6) (hε : ε ≤ δ) (h0 : 0 < δ) (h4 : |x4 - d| < ε) (h5 : |x5 - e| < ε) (h6 : |x6 - f| < ε) :
    a = A ∧ b = B ∧ c = C ∧ d = τ1 ∧ e = τ2 ∧ f = τ3 := by
  have m1 : (a, d) ∈ [(A, τ1), (B, τ2), (C, τ3)] := h.subset (by simp)
  have m2 : (b, e) ∈ [(A, τ1), (B, τ2), (C, τ3)] := h.subset (by simp)
  have m3 : (c, f) ∈ [(A, τ1), (B, τ2), (C, τ3)] := h.subset (by simp)
  have hnd : [d, e, f].Nodup := (h.map Prod.snd).nodup_iff.2 (by
    simp
    exact ⟨⟨by linarith, by linarith⟩, by linarith⟩)
  simp only [List.mem_cons, Prod.mk.injEq, List.not_mem_nil, or_false] at m1 m2 m3
  simp only [List.nodup_cons, List.mem_cons, List.not_mem_nil, or_false, not_or, not_false_eq_true, List.nodup_nil, and_true] at hnd
  have := abs_lt.1 h4
  have := abs_lt.1 h5
  have := abs_lt.1 h6
  obtain ⟨⟨n1, n2⟩, n3⟩ := hnd
  rcases m1 with ⟨rfl, rfl⟩ | ⟨rfl, rfl⟩ | ⟨rfl, rfl⟩ <;> rcases m2 with ⟨rfl, rfl⟩ | ⟨rfl, rfl⟩ | ⟨rfl, rfl⟩ <;>
    rcases m3 with ⟨rfl, rfl⟩ | ⟨rfl, rfl⟩ | ⟨rfl, rfl⟩ <;>
    first
      | exact ⟨rfl, rfl, rfl, rfl, rfl, rfl⟩
      | exact absurd rfl n1
      | exact absurd rfl n2
      | exact absurd rfl n3
      | (exfalso; linarith)

end multi

end Verif.NonLin
