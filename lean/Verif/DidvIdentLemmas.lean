import Verif.DidvObjLemmas
import Mathlib.Algebra.Polynomial.FieldDivision
import Mathlib.Tactic.ComputeDegree
import Mathlib.Tactic.LinearCombination

/-! Helper lemmas: the admittance at a few frequencies determines the parameters of the pole models. -/

namespace Verif.Didv
open Verif

/-- A cubic with real coefficients which vanishes at two points of the imaginary axis. -/
theorem cubic_zero {p0 p1 p2 p3 w v : ℝ} (hw : w ≠ 0) (hv : v ≠ 0) (hwv : w ^ 2 ≠ v ^ 2)
    (h1 : (p0 : ℂ) + p1 * (w * Complex.I) + p2 * (w * Complex.I) ^ 2 + p3 * (w * Complex.I) ^ 3 = 0)
    (h2 : (p0 : ℂ) + p1 * (v * Complex.I) + p2 * (v * Complex.I) ^ 2 + p3 * (v * Complex.I) ^ 3 = 0) :
    p0 = 0 ∧ p1 = 0 ∧ p2 = 0 ∧ p3 = 0 := by
  have key : ∀ u : ℝ, (p0 : ℂ) + p1 * (u * Complex.I) + p2 * (u * Complex.I) ^ 2 + p3 * (u * Complex.I) ^ 3 = 0 →
      p0 - p2 * u ^ 2 = 0 ∧ u * (p1 - p3 * u ^ 2) = 0 := by
    intro u h
    have e : (p0 : ℂ) + p1 * (u * Complex.I) + p2 * (u * Complex.I) ^ 2 + p3 * (u * Complex.I) ^ 3 =
        ((p0 - p2 * u ^ 2 : ℝ) : ℂ) + ((u * (p1 - p3 * u ^ 2) : ℝ) : ℂ) * Complex.I := by
      push_cast
      linear_combination ((p2 : ℂ) * u ^ 2 + p3 * u ^ 3 * Complex.I) * Complex.I_sq
    rw [e] at h
    have hr := congrArg Complex.re h
    have hi := congrArg Complex.im h
    simp only [Complex.add_re, Complex.add_im, Complex.re_ofReal_mul, Complex.im_ofReal_mul, Complex.ofReal_re,
      Complex.ofReal_im, Complex.I_re, Complex.I_im, Complex.zero_re, Complex.zero_im, mul_zero, mul_one,
      add_zero, zero_add] at hr hi
    exact ⟨hr, hi⟩
  obtain ⟨a1, a2⟩ := key w h1
  obtain ⟨b1, b2⟩ := key v h2
  have a3 := (mul_eq_zero.1 a2).resolve_left hw
  have b3 := (mul_eq_zero.1 b2).resolve_left hv
  have hd : w ^ 2 - v ^ 2 ≠ 0 := sub_ne_zero.2 hwv
  have e2 : p2 = 0 := (mul_eq_zero.1 (by linear_combination b1 - a1 : p2 * (w ^ 2 - v ^ 2) = 0)).resolve_right hd
  have e3 : p3 = 0 := (mul_eq_zero.1 (by linear_combination b3 - a3 : p3 * (w ^ 2 - v ^ 2) = 0)).resolve_right hd
  subst e2 e3
  exact ⟨by linarith, by linarith, rfl, rfl⟩

/-- An even polynomial which vanishes at three points. -/
theorem even_zero {p q r x y z : ℝ} (hxy : x ≠ y) (hxz : x ≠ z) (hyz : y ≠ z) (h1 : p - q * x + r * x ^ 2 = 0)
    (h2 : p - q * y + r * y ^ 2 = 0) (h3 : p - q * z + r * z ^ 2 = 0) : p = 0 ∧ q = 0 ∧ r = 0 := by
  have a : -q + r * (x + y) = 0 :=
    (mul_eq_zero.1 (by linear_combination h1 - h2 : (-q + r * (x + y)) * (x - y) = 0)).resolve_right
      (sub_ne_zero.2 hxy)
  have b : -q + r * (x + z) = 0 :=
    (mul_eq_zero.1 (by linear_combination h1 - h3 : (-q + r * (x + z)) * (x - z) = 0)).resolve_right
      (sub_ne_zero.2 hxz)
  have hr : r = 0 :=
    (mul_eq_zero.1 (by linear_combination a - b : r * (y - z) = 0)).resolve_right (sub_ne_zero.2 hyz)
  subst hr
  have hq : q = 0 := by linarith
  subst hq
  exact ⟨by linarith, rfl, rfl⟩

/-- A quintic with real coefficients which vanishes at three points of the imaginary axis. -/
theorem quintic_zero {p0 p1 p2 p3 p4 p5 w v u : ℝ} (hw : w ≠ 0) (hv : v ≠ 0) (hu : u ≠ 0) (hwv : w ^ 2 ≠ v ^ 2)
    (hwu : w ^ 2 ≠ u ^ 2) (hvu : v ^ 2 ≠ u ^ 2)
    (h : ∀ t, t = w ∨ t = v ∨ t = u → (p0 : ℂ) + p1 * (t * Complex.I) + p2 * (t * Complex.I) ^ 2 +
      p3 * (t * Complex.I) ^ 3 + p4 * (t * Complex.I) ^ 4 + p5 * (t * Complex.I) ^ 5 = 0) :
    p0 = 0 ∧ p1 = 0 ∧ p2 = 0 ∧ p3 = 0 ∧ p4 = 0 ∧ p5 = 0 := by
  have key : ∀ t : ℝ, (p0 : ℂ) + p1 * (t * Complex.I) + p2 * (t * Complex.I) ^ 2 +
      p3 * (t * Complex.I) ^ 3 + p4 * (t * Complex.I) ^ 4 + p5 * (t * Complex.I) ^ 5 = 0 →
      p0 - p2 * t ^ 2 + p4 * (t ^ 2) ^ 2 = 0 ∧ t * (p1 - p3 * t ^ 2 + p5 * (t ^ 2) ^ 2) = 0 := by
    intro t h
    have e : (p0 : ℂ) + p1 * (t * Complex.I) + p2 * (t * Complex.I) ^ 2 +
        p3 * (t * Complex.I) ^ 3 + p4 * (t * Complex.I) ^ 4 + p5 * (t * Complex.I) ^ 5 =
        ((p0 - p2 * t ^ 2 + p4 * (t ^ 2) ^ 2 : ℝ) : ℂ) +
          ((t * (p1 - p3 * t ^ 2 + p5 * (t ^ 2) ^ 2) : ℝ) : ℂ) * Complex.I := by
      have i3 : Complex.I ^ 3 = -Complex.I := Complex.I_pow_three
      have i4 : Complex.I ^ 4 = 1 := Complex.I_pow_four
      have i5 : Complex.I ^ 5 = Complex.I := by rw [pow_succ, i4, one_mul]
      push_cast
      simp only [mul_pow, i3, i4, i5, Complex.I_sq]
      ring
    rw [e] at h
    have hr := congrArg Complex.re h
    have hi := congrArg Complex.im h
    simp only [Complex.add_re, Complex.add_im, Complex.re_ofReal_mul, Complex.im_ofReal_mul, Complex.ofReal_re,
      Complex.ofReal_im, Complex.I_re, Complex.I_im, Complex.zero_re, Complex.zero_im, mul_zero, mul_one,
      add_zero, zero_add] at hr hi
    exact ⟨hr, hi⟩
  obtain ⟨a1, a2⟩ := key w (h w (Or.inl rfl))
  obtain ⟨b1, b2⟩ := key v (h v (Or.inr (Or.inl rfl)))
  obtain ⟨c1, c2⟩ := key u (h u (Or.inr (Or.inr rfl)))
  obtain ⟨d0, d2, d4⟩ := even_zero hwv hwu hvu a1 b1 c1
  obtain ⟨d1, d3, d5⟩ := even_zero hwv hwu hvu ((mul_eq_zero.1 a2).resolve_left hw)
    ((mul_eq_zero.1 b2).resolve_left hv) ((mul_eq_zero.1 c2).resolve_left hu)
  exact ⟨d0, d1, d2, d3, d4, d5⟩

/-- `jw` in terms of the angular frequency. -/
theorem jw_ang (f : ℝ) : jw f = ((2 * Real.pi * f : ℝ) : ℂ) * Complex.I := by
  unfold jw
  push_cast
  ring

theorem one_jw_ne (f t : ℝ) : 1 + jw f * t ≠ 0 := by
  rw [jw_ang]
  intro h
  have := congrArg Complex.re h
  simp at this

theorem ang_ne {f : ℝ} (h : f ≠ 0) : 2 * Real.pi * f ≠ 0 := mul_ne_zero (mul_ne_zero two_ne_zero Real.pi_ne_zero) h

theorem ang_sq_ne {f g : ℝ} (h : |f| ≠ |g|) : (2 * Real.pi * f) ^ 2 ≠ (2 * Real.pi * g) ^ 2 := by
  intro e
  rw [sq_eq_sq_iff_abs_eq_abs, abs_mul (2 * Real.pi) f, abs_mul (2 * Real.pi) g] at e
  exact h (mul_left_cancel₀ (abs_ne_zero.2 (mul_ne_zero two_ne_zero Real.pi_ne_zero)) e)

theorem recipZ_inj {z z' y : ℂ} (h : recipZ z = .ok y) (h' : recipZ z' = .ok y) : z = z' := by
  unfold recipZ at h h'
  split_ifs at h h' with a b
  have e := (Except.ok.inj h).trans (Except.ok.inj h').symm
  rwa [one_div, one_div, inv_inj] at e

theorem exp_map_inj {a b : Except Err ℂ} {c y : ℂ} (hc : c ≠ 0) (ha : a.map (fun y => y * c) = .ok y)
    (hb : b.map (fun y => y * c) = .ok y) : ∃ x, a = .ok x ∧ b = .ok x := by
  cases a with
  | error e => cases ha
  | ok u =>
    cases b with
    | error e => cases hb
    | ok v =>
      have e : u * c = v * c := (Except.ok.inj ha).trans (Except.ok.inj hb).symm
      exact ⟨u, rfl, by rw [mul_right_cancel₀ hc e]⟩

theorem fitY_one {f A t dt : ℝ} {y : ℂ} (h : fitY f [A, t, dt] = .ok y) :
    ∃ x, onePoleY f A t = .ok x ∧ y = x * Complex.exp (-2 * Complex.I * Real.pi * f * dt) := by
  unfold fitY at h
  simp only at h
  cases hx : onePoleY f A t with
  | error e => rw [hx] at h; cases h
  | ok x => rw [hx] at h; exact ⟨x, rfl, (Except.ok.inj h).symm⟩

/-- Two pole impedances which agree at two frequencies. -/
theorem twoPole_ident {A B t1 t2 A' B' t1' t2' f g : ℝ} (hA : A ≠ 0) (hB : B ≠ 0) (h1 : t1 ≠ 0)
    (hf : f ≠ 0) (hg : g ≠ 0) (hfg : |f| ≠ |g|) (e1 : twoPoleZ f A B t1 t2 = twoPoleZ f A' B' t1' t2')
    (e2 : twoPoleZ g A B t1 t2 = twoPoleZ g A' B' t1' t2') : A = A' ∧ B = B' ∧ t1 = t1' ∧ t2 = t2' := by
  have key : ∀ u : ℝ, twoPoleZ u A B t1 t2 = twoPoleZ u A' B' t1' t2' →
      ((A - A' + B - B' : ℝ) : ℂ) +
      ((A * t2 - A' * t2' + (A - A') * (t1 + t1') + B * t1' - B' * t1 : ℝ) : ℂ) *
        (((2 * Real.pi * u : ℝ) : ℂ) * Complex.I) +
      (((A * t2 - A' * t2') * (t1 + t1') + (A - A') * (t1 * t1') : ℝ) : ℂ) *
        (((2 * Real.pi * u : ℝ) : ℂ) * Complex.I) ^ 2 +
      (((A * t2 - A' * t2') * (t1 * t1') : ℝ) : ℂ) * (((2 * Real.pi * u : ℝ) : ℂ) * Complex.I) ^ 3 = 0 := by
    intro u h
    have n1 := one_jw_ne u t1
    have n2 := one_jw_ne u t1'
    unfold twoPoleZ at h
    rw [← jw_ang]
    generalize jw u = s at *
    field_simp at h
    push_cast
    linear_combination h
  obtain ⟨p0, p1, p2, p3⟩ := cubic_zero (ang_ne hf) (ang_ne hg) (ang_sq_ne hfg) (key f e1) (key g e2)
  have h1' : t1' ≠ 0 := by
    rintro rfl
    rw [mul_zero, mul_zero, add_zero, add_zero] at p2
    have hb := (mul_eq_zero.1 p2).resolve_right h1
    rw [hb] at p1
    exact hB (mul_right_cancel₀ h1 (by linear_combination t1 * p0 - p1))
  have hb := (mul_eq_zero.1 p3).resolve_right (mul_ne_zero h1 h1')
  rw [hb, zero_mul, zero_add] at p2
  have ha := (mul_eq_zero.1 p2).resolve_right (mul_ne_zero h1 h1')
  have eA : A = A' := by linarith
  have eB : B = B' := by linarith
  subst eA eB
  refine ⟨rfl, rfl, ?_, mul_left_cancel₀ hA (by linarith)⟩
  rw [hb, sub_self] at p1
  exact mul_left_cancel₀ hB (by linarith)

/-- Two equal three-pole impedances: if one is not degenerate, nor is the other. -/
theorem three_nondegenerate {a b B C t1 t3 B' C' t1' t3' : ℝ} (hB : B ≠ 0) (hC : C ≠ 0) (h1 : t1 ≠ 0) (h3 : t3 ≠ 0)
    (hD : t1' * t3' ≠ 0 ∨ t1' + t3' ≠ 0 ∨ 1 - C' ≠ 0)
    (p0 : a * ((1 - C) * (1 - C')) + B * (1 - C') - B' * (1 - C) = 0)
    (p1 : b * ((1 - C) * (1 - C')) + a * ((1 - C) * (t1' + t3') + (t1 + t3) * (1 - C')) + B * (t1' + t3') +
      B * t3 * (1 - C') - B' * (t1 + t3) - B' * t3' * (1 - C) = 0)
    (p2 : b * ((1 - C) * (t1' + t3') + (t1 + t3) * (1 - C')) +
      a * ((1 - C) * (t1' * t3') + (t1 + t3) * (t1' + t3') + t1 * t3 * (1 - C')) +
      B * (t1' * t3') + B * t3 * (t1' + t3') - B' * (t1 * t3) - B' * t3' * (t1 + t3) = 0)
    (p3 : b * ((1 - C) * (t1' * t3') + (t1 + t3) * (t1' + t3') + t1 * t3 * (1 - C')) +
      a * ((t1 + t3) * (t1' * t3') + t1 * t3 * (t1' + t3')) + B * t3 * (t1' * t3') - B' * t3' * (t1 * t3) = 0)
    (p4 : b * ((t1 + t3) * (t1' * t3') + t1 * t3 * (t1' + t3')) + a * (t1 * t3 * (t1' * t3')) = 0)
    (p5 : b * (t1 * t3 * (t1' * t3')) = 0) : t1' ≠ 0 ∧ t3' ≠ 0 ∧ B' ≠ 0 := by
  open Polynomial in
  let K : ℝ → ℝ[X] := Polynomial.C
  let D : ℝ[X] := K (t1 * t3) * X ^ 2 + K (t1 + t3) * X + K (1 - C)
  let D' : ℝ[X] := K (t1' * t3') * X ^ 2 + K (t1' + t3') * X + K (1 - C')
  let E : ℝ[X] := 1 + K t3 * X
  let E' : ℝ[X] := 1 + K t3' * X
  have hid : (K a + K b * X) * (D * D') + K B * E * D' - K B' * E' * D = 0 := by
    have e : (K a + K b * X) * (D * D') + K B * E * D' - K B' * E' * D =
        K (a * ((1 - C) * (1 - C')) + B * (1 - C') - B' * (1 - C)) +
        K (b * ((1 - C) * (1 - C')) + a * ((1 - C) * (t1' + t3') + (t1 + t3) * (1 - C')) + B * (t1' + t3') +
          B * t3 * (1 - C') - B' * (t1 + t3) - B' * t3' * (1 - C)) * X +
        K (b * ((1 - C) * (t1' + t3') + (t1 + t3) * (1 - C')) +
          a * ((1 - C) * (t1' * t3') + (t1 + t3) * (t1' + t3') + t1 * t3 * (1 - C')) +
          B * (t1' * t3') + B * t3 * (t1' + t3') - B' * (t1 * t3) - B' * t3' * (t1 + t3)) * X ^ 2 +
        K (b * ((1 - C) * (t1' * t3') + (t1 + t3) * (t1' + t3') + t1 * t3 * (1 - C')) +
          a * ((t1 + t3) * (t1' * t3') + t1 * t3 * (t1' + t3')) + B * t3 * (t1' * t3') - B' * t3' * (t1 * t3)) * X ^ 3 +
        K (b * ((t1 + t3) * (t1' * t3') + t1 * t3 * (t1' + t3')) + a * (t1 * t3 * (t1' * t3'))) * X ^ 4 +
        K (b * (t1 * t3 * (t1' * t3'))) * X ^ 5 := by
      simp only [D, D', E, E', K, Polynomial.C_add, Polynomial.C_sub, Polynomial.C_mul, Polynomial.C_1]
      ring
    rw [e, p0, p1, p2, p3, p4, p5]
    simp [K]
  have hcop : IsCoprime D E := by
    refine ⟨-K (1 / C), K (1 / C) * (1 + K t1 * X), ?_⟩
    have : K (1 / C) * K C = 1 := by
      simp only [K]
      rw [← Polynomial.C_mul, one_div_mul_cancel hC, Polynomial.C_1]
    simp only [D, E, K, Polynomial.C_add, Polynomial.C_sub, Polynomial.C_mul, Polynomial.C_1] at this ⊢
    linear_combination this
  have hdeg : D.natDegree = 2 := by
    simp only [D, K]
    exact Polynomial.natDegree_quadratic (mul_ne_zero h1 h3)
  have hB1 : IsUnit (K B) := Polynomial.isUnit_C.2 (isUnit_iff_ne_zero.2 hB)
  have hdvd : D ∣ D' := by
    have : D ∣ E * D' := by
      refine (hB1.dvd_mul_left).1 ⟨K B' * E' - (K a + K b * X) * D', ?_⟩
      linear_combination hid
    exact hcop.dvd_of_dvd_mul_left this
  have hD' : D' ≠ 0 := by
    intro h0
    have c : ∀ n, D'.coeff n = 0 := fun n => by rw [h0, Polynomial.coeff_zero]
    have c0 := c 0
    have c1 := c 1
    have c2 := c 2
    simp only [D', K, Polynomial.coeff_add, Polynomial.coeff_C_mul, Polynomial.coeff_X_pow, Polynomial.coeff_X,
      Polynomial.coeff_C] at c0 c1 c2
    norm_num at c0 c1 c2
    rcases hD with h | h | h
    · exact h (mul_eq_zero.2 c2)
    · exact h c1
    · exact h c0
  have hle := Polynomial.natDegree_le_of_dvd hdvd hD'
  rw [hdeg] at hle
  have hprod : t1' * t3' ≠ 0 := by
    intro h0
    have : D'.natDegree ≤ 1 := by
      simp only [D', h0, K, Polynomial.C_0, zero_mul, zero_add]
      exact Polynomial.natDegree_linear_le
    omega
  refine ⟨left_ne_zero_of_mul hprod, right_ne_zero_of_mul hprod, ?_⟩
  rintro rfl
  have : D * D' ∣ E * D' := by
    refine (hB1.dvd_mul_left).1 ⟨-(K a + K b * X), ?_⟩
    have : K 0 = 0 := Polynomial.C_0
    rw [this] at hid
    linear_combination hid
  have h2 : D ∣ E := (mul_dvd_mul_iff_right hD').1 this
  have h3 : IsUnit D := hcop.isUnit_of_dvd' dvd_rfl h2
  rw [Polynomial.natDegree_eq_zero_of_isUnit h3] at hdeg
  omega

/-- Three pole impedances which agree at three frequencies. -/
theorem threePole_ident {A B C t1 t2 t3 A' B' C' t1' t2' t3' f g k : ℝ} (hA : A ≠ 0) (hB : B ≠ 0) (hC : C ≠ 0)
    (h1 : t1 ≠ 0) (h3 : t3 ≠ 0)
    (hf : f ≠ 0) (hg : g ≠ 0) (hk : k ≠ 0) (hfg : |f| ≠ |g|) (hfk : |f| ≠ |k|) (hgk : |g| ≠ |k|)
    (h : ∀ u, u = f ∨ u = g ∨ u = k → ∃ z, threePoleZ u A B C t1 t2 t3 = .ok z ∧
      threePoleZ u A' B' C' t1' t2' t3' = .ok z) :
    A = A' ∧ B = B' ∧ C = C' ∧ t1 = t1' ∧ t2 = t2' ∧ t3 = t3' := by
  set a := A - A' with ha
  set b := A * t2 - A' * t2' with hb
  have key : ∀ u : ℝ, (∃ z, threePoleZ u A B C t1 t2 t3 = .ok z ∧ threePoleZ u A' B' C' t1' t2' t3' = .ok z) →
      ((a * ((1 - C) * (1 - C')) + B * (1 - C') - B' * (1 - C) : ℝ) : ℂ) +
      ((b * ((1 - C) * (1 - C')) + a * ((1 - C) * (t1' + t3') + (t1 + t3) * (1 - C')) + B * (t1' + t3') +
        B * t3 * (1 - C') - B' * (t1 + t3) - B' * t3' * (1 - C) : ℝ) : ℂ) *
        (((2 * Real.pi * u : ℝ) : ℂ) * Complex.I) +
      ((b * ((1 - C) * (t1' + t3') + (t1 + t3) * (1 - C')) +
        a * ((1 - C) * (t1' * t3') + (t1 + t3) * (t1' + t3') + t1 * t3 * (1 - C')) +
        B * (t1' * t3') + B * t3 * (t1' + t3') - B' * (t1 * t3) - B' * t3' * (t1 + t3) : ℝ) : ℂ) *
        (((2 * Real.pi * u : ℝ) : ℂ) * Complex.I) ^ 2 +
      ((b * ((1 - C) * (t1' * t3') + (t1 + t3) * (t1' + t3') + t1 * t3 * (1 - C')) +
        a * ((t1 + t3) * (t1' * t3') + t1 * t3 * (t1' + t3')) + B * t3 * (t1' * t3') - B' * t3' * (t1 * t3) : ℝ) : ℂ) *
        (((2 * Real.pi * u : ℝ) : ℂ) * Complex.I) ^ 3 +
      ((b * ((t1 + t3) * (t1' * t3') + t1 * t3 * (t1' + t3')) + a * (t1 * t3 * (t1' * t3')) : ℝ) : ℂ) *
        (((2 * Real.pi * u : ℝ) : ℂ) * Complex.I) ^ 4 +
      ((b * (t1 * t3 * (t1' * t3')) : ℝ) : ℂ) * (((2 * Real.pi * u : ℝ) : ℂ) * Complex.I) ^ 5 = 0 := by
    rintro u ⟨z, e, e'⟩
    have n3 := one_jw_ne u t3
    have n3' := one_jw_ne u t3'
    unfold threePoleZ at e e'
    split_ifs at e e' with d d'
    have hz := (Except.ok.inj e).trans (Except.ok.inj e').symm
    rw [← jw_ang, ha, hb]
    generalize jw u = s at *
    have hD : (1 + s * t1) * (1 + s * t3) - C ≠ 0 := by
      intro h0
      apply d
      rw [sub_eq_zero, eq_div_iff n3]
      linear_combination h0
    have hD' : (1 + s * t1') * (1 + s * t3') - C' ≠ 0 := by
      intro h0
      apply d'
      rw [sub_eq_zero, eq_div_iff n3']
      linear_combination h0
    have q1 : (B : ℂ) / (1 + s * t1 - C / (1 + s * t3)) = B * (1 + s * t3) / ((1 + s * t1) * (1 + s * t3) - C) := by
      rw [div_eq_div_iff d hD]
      field_simp
    have q2 : (B' : ℂ) / (1 + s * t1' - C' / (1 + s * t3')) =
        B' * (1 + s * t3') / ((1 + s * t1') * (1 + s * t3') - C') := by
      rw [div_eq_div_iff d' hD']
      field_simp
    rw [q1, q2, ← sub_eq_zero] at hz
    have hz2 : ((A - A') + s * (A * t2 - A' * t2')) * (((1 + s * t1) * (1 + s * t3) - C) *
          ((1 + s * t1') * (1 + s * t3') - C')) + B * (1 + s * t3) * ((1 + s * t1') * (1 + s * t3') - C') -
        B' * (1 + s * t3') * ((1 + s * t1) * (1 + s * t3) - C) = 0 := by
      have := congrArg (fun x => x * (((1 + s * t1) * (1 + s * t3) - C) * ((1 + s * t1') * (1 + s * t3') - C'))) hz
      simp only [zero_mul] at this
      rw [← this]
      field_simp
      ring
    push_cast
    linear_combination hz2
  obtain ⟨p0, p1, p2, p3, p4, p5⟩ := quintic_zero (ang_ne hf) (ang_ne hg) (ang_ne hk) (ang_sq_ne hfg)
    (ang_sq_ne hfk) (ang_sq_ne hgk) (by
      rintro t (rfl | rfl | rfl)
      · exact key f (h f (Or.inl rfl))
      · exact key g (h g (Or.inr (Or.inl rfl)))
      · exact key k (h k (Or.inr (Or.inr rfl))))
  have hD' : t1' * t3' ≠ 0 ∨ t1' + t3' ≠ 0 ∨ 1 - C' ≠ 0 := by
    by_contra hcon
    simp only [not_or, not_not] at hcon
    obtain ⟨c2, c1, c0⟩ := hcon
    obtain ⟨z, -, e'⟩ := h f (Or.inl rfl)
    unfold threePoleZ at e'
    split_ifs at e' with d'
    apply d'
    have n3' := one_jw_ne f t3'
    generalize jw f = s at *
    have c2' : (t1' : ℂ) * t3' = 0 := by exact_mod_cast c2
    have c1' : (t1' : ℂ) + t3' = 0 := by exact_mod_cast c1
    have c0' : (1 : ℂ) - C' = 0 := by exact_mod_cast c0
    rw [sub_eq_zero, eq_div_iff n3']
    linear_combination s ^ 2 * c2' + s * c1' + c0'
  obtain ⟨h1', h3', hB'⟩ := three_nondegenerate hB hC h1 h3 hD' p0 p1 p2 p3 p4 p5
  have t13 : t1 * t3 * (t1' * t3') ≠ 0 := mul_ne_zero (mul_ne_zero h1 h3) (mul_ne_zero h1' h3')
  have b0 : b = 0 := (mul_eq_zero.1 p5).resolve_right t13
  rw [b0, zero_mul, zero_add] at p4
  have a0 : a = 0 := (mul_eq_zero.1 p4).resolve_right t13
  rw [a0] at p0 p1 p2 p3
  rw [b0] at p1 p2 p3
  -- the value of the identity at `s = -1/t3`
  have hroot : B' * C * (t3 - t3') * t3 ^ 2 = 0 := by
    linear_combination -p3 + p2 * t3 - p1 * t3 ^ 2 + p0 * t3 ^ 3
  have e3 : t3 = t3' := by
    have := (mul_eq_zero.1 hroot).resolve_right (pow_ne_zero 2 h3)
    exact sub_eq_zero.1 ((mul_eq_zero.1 this).resolve_left (mul_ne_zero hB' hC))
  subst e3
  have q3 : B * t1' = B' * t1 :=
    mul_right_cancel₀ (pow_ne_zero 2 h3) (by linear_combination p3 : B * t1' * t3 ^ 2 = B' * t1 * t3 ^ 2)
  have q2 : B = B' := mul_right_cancel₀ (pow_ne_zero 2 h3) (by linear_combination p2 - 2 * t3 * q3 :
    B * t3 ^ 2 = B' * t3 ^ 2)
  subst q2
  have q1 : t1 = t1' := (mul_left_cancel₀ hB q3).symm
  have q0 : C = C' := mul_left_cancel₀ hB (by linear_combination p0)
  have eA : A = A' := by linarith
  refine ⟨eA, rfl, q0, q1, ?_, rfl⟩
  subst eA
  exact mul_left_cancel₀ hA (by linarith)

end Verif.Didv
