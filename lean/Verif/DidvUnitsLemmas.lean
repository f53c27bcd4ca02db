import Verif.DidvUnitsSpec
import Verif.PinvLemmas

/-! Helper lemmas for DidvUnitsProps.lean. -/

namespace Verif.Didv
open Verif Dft OF Matrix

variable (u : Units)

theorem jw_units (f t : ℝ) : jw (f / u.τ) * ((u.τ * t : ℝ) : ℂ) = jw f * t := by
  have h : (u.τ : ℂ) ≠ 0 := by exact_mod_cast u.hτ.ne'
  unfold jw
  push_cast
  field_simp

theorem shift_units (f t : ℝ) : Complex.exp (-2 * Complex.I * Real.pi * ((f / u.τ : ℝ) : ℂ) * ((u.τ * t : ℝ) : ℂ)) =
    Complex.exp (-2 * Complex.I * Real.pi * f * t) := by
  have h : (u.τ : ℂ) ≠ 0 := by exact_mod_cast u.hτ.ne'
  congr 1
  push_cast
  field_simp

theorem onePoleZ_units (f A t2 : ℝ) :
    onePoleZ (f / u.τ) (u.s * A) (u.τ * t2) = u.s * onePoleZ f A t2 := by
  unfold onePoleZ
  rw [jw_units]
  push_cast
  ring

theorem twoPoleZ_units (f A B t1 t2 : ℝ) :
    twoPoleZ (f / u.τ) (u.s * A) (u.s * B) (u.τ * t1) (u.τ * t2) = u.s * twoPoleZ f A B t1 t2 := by
  unfold twoPoleZ
  rw [jw_units, jw_units]
  push_cast
  ring

theorem threePoleZ_units (f A B C t1 t2 t3 : ℝ) :
    threePoleZ (f / u.τ) (u.s * A) (u.s * B) C (u.τ * t1) (u.τ * t2) (u.τ * t3) =
      (threePoleZ f A B C t1 t2 t3).map ((u.s : ℂ) * ·) := by
  unfold threePoleZ
  rw [jw_units, jw_units, jw_units]
  split_ifs
  · rfl
  · simp only [Except.map]
    congr 1
    push_cast
    ring

theorem recipZ_units (z : ℂ) : recipZ (u.s * z) = (recipZ z).map (· / (u.s : ℂ)) := by
  have h : (u.s : ℂ) ≠ 0 := by exact_mod_cast u.hs.ne'
  unfold recipZ
  by_cases hz : z = 0
  · simp [hz, Except.map]
  · rw [if_neg (mul_ne_zero h hz), if_neg hz]
    simp only [Except.map]
    congr 1
    field_simp

theorem threePoleY_units (f A B C t1 t2 t3 : ℝ) :
    threePoleY (f / u.τ) (u.s * A) (u.s * B) C (u.τ * t1) (u.τ * t2) (u.τ * t3) =
      (threePoleY f A B C t1 t2 t3).map (· / (u.s : ℂ)) := by
  unfold threePoleY
  rw [threePoleZ_units]
  cases threePoleZ f A B C t1 t2 t3 with
  | error e => rfl
  | ok z => exact recipZ_units u z

theorem fit_three (a b c : ℝ) : u.fit [a, b, c] = [u.s * a, u.τ * b, u.τ * c] := rfl
theorem fit_five (a b c d e : ℝ) :
    u.fit [a, b, c, d, e] = [u.s * a, u.s * b, u.τ * c, u.τ * d, u.τ * e] := rfl
theorem fit_seven (a b c d e f g : ℝ) : u.fit [a, b, c, d, e, f, g] =
    [u.s * a, u.s * b, c, u.τ * d, u.τ * e, u.τ * f, u.τ * g] := by
  simp [Units.fit, Units.fitFactors]
theorem tes_four (a b c d : ℝ) : u.tes [a, b, c, d] = [u.s * a, u.s * b, u.s * u.τ * c, u.τ * d] := rfl
theorem tes_eight (a b c d e f g h : ℝ) : u.tes [a, b, c, d, e, f, g, h] =
    [u.s * a, u.s * b, u.s * c, d, e, u.s * u.τ * f, u.τ * g, u.τ * h] := by
  simp [Units.tes, Units.tesFactors]
theorem tes_ten (a b c d e f g h i j : ℝ) : u.tes [a, b, c, d, e, f, g, h, i, j] =
    [u.s * a, u.s * b, u.s * c, d, e, u.s * u.τ * f, u.τ * g, h, u.τ * i, u.τ * j] := by
  simp [Units.tes, Units.tesFactors]

theorem length_fitFactors (k : ℕ) : (u.fitFactors k).length = k := by
  unfold Units.fitFactors
  split <;> simp

theorem length_tesFactors (k : ℕ) : (u.tesFactors k).length = k := by
  unfold Units.tesFactors
  split <;> simp

theorem length_fit (p : List ℝ) : (u.fit p).length = p.length := by
  simp [Units.fit, length_fitFactors]

theorem length_tes (p : List ℝ) : (u.tes p).length = p.length := by
  simp [Units.tes, length_tesFactors]

/-- Another number of parameters. -/
theorem fit_other {p : List ℝ} (h3 : p.length ≠ 3) (h5 : p.length ≠ 5) (h7 : p.length ≠ 7) (f : ℝ) :
    fitY f p = .error .valueError := by
  unfold fitY
  split <;> simp_all

/-- The admittance of the fit parameters. -/
theorem fitY_units (f : ℝ) (p : List ℝ) :
    fitY (f / u.τ) (u.fit p) = (fitY f p).map (· / (u.s : ℂ)) := by
  by_cases h : p.length = 3 ∨ p.length = 5 ∨ p.length = 7
  · rcases h with h | h | h
    · obtain ⟨a, b, c, rfl⟩ := List.length_eq_three.1 h
      rw [fit_three]
      simp only [fitY, onePoleY]
      rw [onePoleZ_units, recipZ_units, shift_units]
      cases recipZ (onePoleZ f a b) with
      | error e => rfl
      | ok z => simp only [Except.map]; congr 1; ring
    · match p, h with
      | [a, b, c, d, e], _ =>
        rw [fit_five]
        simp only [fitY, twoPoleY]
        rw [twoPoleZ_units, recipZ_units, shift_units]
        cases recipZ (twoPoleZ f a b c d) with
        | error e => rfl
        | ok z => simp only [Except.map]; congr 1; ring
    · match p, h with
      | [a, b, c, d, e, g, h], _ =>
        rw [fit_seven]
        simp only [fitY]
        rw [threePoleY_units, shift_units]
        cases threePoleY f a b c d e g with
        | error e => rfl
        | ok z => simp only [Except.map]; congr 1; ring
  · simp only [not_or] at h
    rw [fit_other h.1 h.2.1 h.2.2, fit_other (by rw [length_fit]; exact h.1) (by rw [length_fit]; exact h.2.1)
      (by rw [length_fit]; exact h.2.2)]
    rfl

theorem div_mul_div_one {s a b : ℝ} (hs : s ≠ 0) : a / s * (1 / (b / s)) = a * (1 / b) := by
  rw [one_div_div, div_mul_div_comm, mul_comm s b, mul_div_mul_right _ _ hs, mul_one_div]

/-- The residuals of the fit are numbers. -/
theorem residual_units (pts : List Pt) (p : List ℝ) :
    residual (pts.map u.pt) (u.fit p) = residual pts p := by
  have hs := u.hs.ne'
  induction pts with
  | nil => rfl
  | cons q qs ih =>
    simp only [List.map_cons, residual]
    rw [ih]
    have e : fitY (u.pt q).f (u.fit p) = (fitY q.f p).map (· / (u.s : ℂ)) := fitY_units u q.f p
    rw [e]
    cases fitY q.f p with
    | error e => rfl
    | ok c =>
      cases residual qs p with
      | error e => rfl
      | ok r =>
        have er : (u.pt q).err.re = q.err.re / u.s := by simp [Units.pt]
        have ei : (u.pt q).err.im = q.err.im / u.s := by simp [Units.pt]
        have yr : ((u.pt q).y - c / (u.s : ℂ)).re = (q.y - c).re / u.s := by simp [Units.pt]; ring
        have yi : ((u.pt q).y - c / (u.s : ℂ)).im = (q.y - c).im / u.s := by simp [Units.pt]; ring
        simp only [Except.map]
        rw [er, ei, yr, yi]
        by_cases h0 : q.err.re = 0 ∨ q.err.im = 0
        · rw [if_pos h0, if_pos (by simpa [hs] using h0)]
        · rw [if_neg h0, if_neg (by simpa [hs] using h0)]
          simp only [not_or] at h0
          have h1 := h0.1
          have h2 := h0.2
          rw [div_mul_div_one hs, div_mul_div_one hs]

/-- The small signal parameters made of the fit parameters. -/
theorem convertTo_units (p : List ℝ) (rsh r0 rp : ℝ) :
    convertTo (u.fit p) (u.s * rsh) (u.s * r0) (u.s * rp) = (convertTo p rsh r0 rp).map u.tes := by
  have hs := u.hs.ne'
  by_cases h : p.length = 3 ∨ p.length = 5 ∨ p.length = 7
  · rcases h with h | h | h
    · obtain ⟨a, b, c, rfl⟩ := List.length_eq_three.1 h
      rw [fit_three]
      simp only [convertTo, Except.map, tes_four]
      congr 2
      congr 1
      · ring
      · congr 1; ring
    · match p, h with
      | [a, b, c, d, e], _ =>
        rw [fit_five]
        simp only [convertTo]
        have e1 : u.s * a + u.s * b + u.s * r0 - (u.s * rsh + u.s * rp) = u.s * (a + b + r0 - (rsh + rp)) := by
          ring
        have e2 : u.s * a + u.s * r0 - (u.s * rsh + u.s * rp) = u.s * (a + r0 - (rsh + rp)) := by ring
        have e3 : u.s * a - (u.s * rsh + u.s * rp) = u.s * (a - (rsh + rp)) := by ring
        rw [e1, e2, e3]
        by_cases h0 : r0 = 0 ∨ a + b + r0 - (rsh + rp) = 0
        · rw [if_pos h0, if_pos (by simpa [hs] using h0)]; rfl
        · rw [if_neg h0, if_neg (by simpa [hs] using h0)]
          simp only [not_or] at h0
          obtain ⟨h1, h2⟩ := h0
          simp only [Except.map, tes_eight]
          generalize a + b + r0 - (rsh + rp) = D at *
          rw [mul_div_mul_left _ _ hs, mul_div_mul_left _ _ hs]
          congr 7
          · ring
          · congr 1
            field_simp
    · match p, h with
      | [a, b, c, d, e, g, h], _ =>
        rw [fit_seven]
        simp only [convertTo]
        have e1 : u.s * a + u.s * b + u.s * r0 - (u.s * rsh + u.s * rp) = u.s * (a + b + r0 - (rsh + rp)) := by
          ring
        have e2 : u.s * a + u.s * r0 - (u.s * rsh + u.s * rp) = u.s * (a + r0 - (rsh + rp)) := by ring
        have e3 : u.s * a - (u.s * rsh + u.s * rp) = u.s * (a - (rsh + rp)) := by ring
        rw [e1, e2, e3]
        by_cases h0 : r0 = 0 ∨ a + b + r0 - (rsh + rp) = 0
        · rw [if_pos h0, if_pos (by simpa [hs] using h0)]; rfl
        · rw [if_neg h0, if_neg (by simpa [hs] using h0)]
          simp only [not_or] at h0
          obtain ⟨h1, h2⟩ := h0
          simp only [Except.map, tes_ten]
          generalize a + b + r0 - (rsh + rp) = D at *
          rw [mul_div_mul_left _ _ hs, mul_div_mul_left _ _ hs]
          congr 7
          · ring
          · congr 1
            · field_simp
            · congr 1
              field_simp
  · simp only [not_or] at h
    have k : ∀ q : List ℝ, q.length ≠ 3 → q.length ≠ 5 → q.length ≠ 7 → ∀ x y z,
        convertTo q x y z = .error .nameError := by
      intro q h3 h5 h7 x y z
      unfold convertTo
      split <;> simp_all
    rw [k _ h.1 h.2.1 h.2.2, k _ (by rw [length_fit]; exact h.1) (by rw [length_fit]; exact h.2.1)
      (by rw [length_fit]; exact h.2.2)]
    rfl

/-- The fit parameters made of the small signal parameters. -/
theorem convertFrom_units (p : List ℝ) :
    convertFrom (u.tes p) = (convertFrom p).map u.fit := by
  have hs := u.hs.ne'
  by_cases h : p.length = 4 ∨ p.length = 8 ∨ p.length = 10
  · rcases h with h | h | h
    · match p, h with
      | [a, b, c, d], _ =>
        rw [tes_four]
        simp only [convertFrom, ← mul_add]
        by_cases h0 : a + b = 0
        · rw [if_pos h0, if_pos (by simpa [hs] using h0)]; rfl
        · rw [if_neg h0, if_neg (by simpa [hs] using h0)]
          simp only [Except.map, fit_three]
          congr 3
          rw [mul_assoc, mul_div_mul_left _ _ hs, mul_div_assoc]
    · match p, h with
      | [a, b, c, d, e, f, g, h], _ =>
        rw [tes_eight]
        simp only [convertFrom]
        have e1 : u.s * a + u.s * b + u.s * c * (1 + d) = u.s * (a + b + c * (1 + d)) := by ring
        rw [e1]
        by_cases h0 : 1 - e = 0 ∨ a + b + c * (1 + d) = 0
        · rw [if_pos h0, if_pos (by simpa [hs] using h0)]; rfl
        · rw [if_neg h0, if_neg (by simpa [hs] using h0)]
          simp only [Except.map, fit_five]
          rw [mul_assoc u.s u.τ f, mul_div_mul_left _ _ hs, mul_div_assoc, mul_div_assoc]
          congr 3
          · ring
          · rw [mul_div_assoc]
    · match p, h with
      | [a, b, c, d, e, f, g, h, i, j], _ =>
        rw [tes_ten]
        simp only [convertFrom]
        have e1 : u.s * a + u.s * b + u.s * c * (1 + d) = u.s * (a + b + c * (1 + d)) := by ring
        rw [e1]
        by_cases h0 : 1 - e = 0 ∨ a + b + c * (1 + d) = 0
        · rw [if_pos h0, if_pos (by simpa [hs] using h0)]; rfl
        · rw [if_neg h0, if_neg (by simpa [hs] using h0)]
          simp only [Except.map, fit_seven]
          rw [mul_assoc u.s u.τ f, mul_div_mul_left _ _ hs, mul_div_assoc, mul_div_assoc]
          congr 3
          · ring
          · rw [mul_div_assoc]
  · simp only [not_or] at h
    have k : ∀ q : List ℝ, q.length ≠ 4 → q.length ≠ 8 → q.length ≠ 10 →
        convertFrom q = .error .nameError := by
      intro q h3 h5 h7
      unfold convertFrom
      split <;> simp_all
    rw [k _ h.1 h.2.1 h.2.2, k _ (by rw [length_tes]; exact h.1) (by rw [length_tes]; exact h.2.1)
      (by rw [length_tes]; exact h.2.2)]
    rfl

/-! ### Keyword arguments -/

theorem getD_map_mul (o : Option ℝ) (c : ℝ) : (o.map (c * ·)).getD 0 = c * o.getD 0 := by
  cases o <;> simp

theorem poleExtractor_units (a : Args) : poleExtractor (u.args a) = poleExtractor a := by
  simp only [poleExtractor, Units.args, Option.isSome_map]

theorem convertFrom_one (rsh rp L : ℝ) :
    convertFrom [u.s * rsh, u.s * rp, u.s * u.τ * L, 0] = (convertFrom [rsh, rp, L, 0]).map u.fit := by
  have h := convertFrom_units u [rsh, rp, L, 0]
  rwa [tes_four, mul_zero] at h

theorem convertFrom_two (rsh rp r0 beta l L tau0 : ℝ) :
    convertFrom [u.s * rsh, u.s * rp, u.s * r0, beta, l, u.s * u.τ * L, u.τ * tau0, 0] =
      (convertFrom [rsh, rp, r0, beta, l, L, tau0, 0]).map u.fit := by
  have h := convertFrom_units u [rsh, rp, r0, beta, l, L, tau0, 0]
  rwa [tes_eight, mul_zero] at h

theorem convertFrom_three (rsh rp r0 beta l L tau0 gratio tau3 : ℝ) :
    convertFrom [u.s * rsh, u.s * rp, u.s * r0, beta, l, u.s * u.τ * L, u.τ * tau0, gratio, u.τ * tau3, 0] =
      (convertFrom [rsh, rp, r0, beta, l, L, tau0, gratio, tau3, 0]).map u.fit := by
  have h := convertFrom_units u [rsh, rp, r0, beta, l, L, tau0, gratio, tau3, 0]
  rwa [tes_ten, mul_zero] at h

/-- What `convertFrom` returns for four, eight and ten parameters. -/
theorem convertFrom_shape1 (rsh rp L dt : ℝ) : (∃ e, convertFrom [rsh, rp, L, dt] = .error e) ∨
    ∃ A t, convertFrom [rsh, rp, L, dt] = .ok [A, t, dt] := by
  simp only [convertFrom]
  split_ifs
  · exact .inl ⟨_, rfl⟩
  · exact .inr ⟨_, _, rfl⟩

theorem convertFrom_shape2 (rsh rp r0 beta l L tau0 dt : ℝ) :
    (∃ e, convertFrom [rsh, rp, r0, beta, l, L, tau0, dt] = .error e) ∨
    ∃ A B t1 t2, convertFrom [rsh, rp, r0, beta, l, L, tau0, dt] = .ok [A, B, t1, t2, dt] := by
  simp only [convertFrom]
  split_ifs
  · exact .inl ⟨_, rfl⟩
  · exact .inr ⟨_, _, _, _, rfl⟩

theorem convertFrom_shape3 (rsh rp r0 beta l L tau0 gratio tau3 dt : ℝ) :
    (∃ e, convertFrom [rsh, rp, r0, beta, l, L, tau0, gratio, tau3, dt] = .error e) ∨
    ∃ A B C t1 t2 t3,
      convertFrom [rsh, rp, r0, beta, l, L, tau0, gratio, tau3, dt] = .ok [A, B, C, t1, t2, t3, dt] := by
  simp only [convertFrom]
  split_ifs
  · exact .inl ⟨_, rfl⟩
  · exact .inr ⟨_, _, _, _, _, _, rfl⟩

theorem compleximpedance_units (f : ℝ) (a : Args) :
    compleximpedance (f / u.τ) (u.args a) = (compleximpedance f a).map ((u.s : ℂ) * ·) := by
  unfold compleximpedance
  rw [poleExtractor_units]
  simp only [Units.args, getD_map_mul]
  rw [convertFrom_one, convertFrom_two, convertFrom_three]
  cases hp : poleExtractor a with
  | error e => rfl
  | ok k =>
    rcases k with - | - | - | k
    · rcases convertFrom_shape3 (a.rsh.getD 0) (a.rp.getD 0) (a.r0.getD 0) (a.beta.getD 0) (a.l.getD 0)
        (a.L.getD 0) (a.tau0.getD 0) (a.gratio.getD 0) (a.tau3.getD 0) 0 with
        ⟨e, h⟩ | ⟨A, B, C, t1, t2, t3, h⟩ <;> rw [h]
      · rfl
      · simp only [Except.map, fit_seven]
        exact threePoleZ_units u f A B C t1 t2 t3
    · rcases convertFrom_shape1 (a.rsh.getD 0) (a.rp.getD 0) (a.L.getD 0) 0 with
        ⟨e, h⟩ | ⟨A, t, h⟩ <;> rw [h]
      · rfl
      · simp only [Except.map, fit_three, onePoleZ_units]
    · rcases convertFrom_shape2 (a.rsh.getD 0) (a.rp.getD 0) (a.r0.getD 0) (a.beta.getD 0) (a.l.getD 0)
        (a.L.getD 0) (a.tau0.getD 0) 0 with ⟨e, h⟩ | ⟨A, B, t1, t2, h⟩ <;> rw [h]
      · rfl
      · simp only [Except.map, fit_five, twoPoleZ_units]
    · rcases convertFrom_shape3 (a.rsh.getD 0) (a.rp.getD 0) (a.r0.getD 0) (a.beta.getD 0) (a.l.getD 0)
        (a.L.getD 0) (a.tau0.getD 0) (a.gratio.getD 0) (a.tau3.getD 0) 0 with
        ⟨e, h⟩ | ⟨A, B, C, t1, t2, t3, h⟩ <;> rw [h]
      · rfl
      · simp only [Except.map, fit_seven]
        exact threePoleZ_units u f A B C t1 t2 t3

theorem complexadmittance_units (f : ℝ) (a : Args) :
    complexadmittance (f / u.τ) (u.args a) = (complexadmittance f a).map (· / (u.s : ℂ)) := by
  unfold complexadmittance
  rw [compleximpedance_units]
  cases compleximpedance f a with
  | error e => rfl
  | ok z => exact recipZ_units u z

theorem sspArgs_other {p : List ℝ} (h4 : p.length ≠ 4) (h8 : p.length ≠ 8) (h10 : p.length ≠ 10) :
    sspArgs p = {} := by
  unfold sspArgs
  split <;> simp_all

theorem sspArgs_units (p : List ℝ) : sspArgs (u.tes p) = u.args (sspArgs p) := by
  by_cases h : p.length = 4 ∨ p.length = 8 ∨ p.length = 10
  · rcases h with h | h | h
    · match p, h with
      | [a, b, c, d], _ => rfl
    · match p, h with
      | [a, b, c, d, e, f, g, h], _ => rw [tes_eight]; rfl
    · match p, h with
      | [a, b, c, d, e, f, g, h, i, j], _ => rw [tes_ten]; rfl
  · simp only [not_or] at h
    rw [sspArgs_other h.1 h.2.1 h.2.2, sspArgs_other (by rw [length_tes]; exact h.1)
      (by rw [length_tes]; exact h.2.1) (by rw [length_tes]; exact h.2.2)]
    rfl

/-! ### The square wave -/

section wave
variable {n : ℕ} [NeZero n]

theorem harmonic_units (dx sgfreq : ℝ) (k : ZMod n) :
    fftfreq (1 / (u.τ * dx)) k / (sgfreq / u.τ) = fftfreq (1 / dx) k / sgfreq := by
  have h := u.hτ.ne'
  unfold fftfreq
  rcases eq_or_ne dx 0 with rfl | hdx
  · simp
  rcases eq_or_ne sgfreq 0 with rfl | hsg
  · simp
  have hn : (n : ℝ) ≠ 0 := by exact_mod_cast NeZero.ne n
  field_simp

omit [NeZero n] in
theorem freq_units (dx : ℝ) (k : ZMod n) : fftfreq (1 / (u.τ * dx)) k = fftfreq (1 / dx) k / u.τ := by
  unfold fftfreq
  rw [one_div, one_div, mul_inv]
  ring

theorem sqWave_units (dx sgamp rsh sgfreq duty : ℝ) (k : ZMod n) :
    sqWave (u.τ * dx) sgamp (u.s * rsh) (sgfreq / u.τ) duty k = u.s * sqWave dx sgamp rsh sgfreq duty k := by
  unfold sqWave
  rw [harmonic_units]
  dsimp only
  split_ifs
  · push_cast; ring
  · simp
  · push_cast; ring
  · simp

omit [NeZero n] in
theorem sqWave_amp (c dx sgamp rsh sgfreq duty : ℝ) (k : ZMod n) :
    sqWave dx (c * sgamp) rsh sgfreq duty k = c * sqWave dx sgamp rsh sgfreq duty k := by
  unfold sqWave
  dsimp only
  split_ifs
  · push_cast; ring
  · simp
  · push_cast; ring
  · simp

theorem convolve_units (dx A B C t1 t2 t3 sgamp rsh sgfreq duty : ℝ) :
    convolve (n := n) (u.τ * dx) (u.s * A) (u.s * B) C (u.τ * t1) (u.τ * t2) (u.τ * t3) sgamp (u.s * rsh)
        (sgfreq / u.τ) duty =
      convolve dx A B C t1 t2 t3 sgamp rsh sgfreq duty := by
  have hs : (u.s : ℂ) ≠ 0 := by exact_mod_cast u.hs.ne'
  unfold convolve
  have hY : ∀ k : ZMod n, threePoleY (fftfreq (1 / (u.τ * dx)) k) (u.s * A) (u.s * B) C (u.τ * t1) (u.τ * t2)
      (u.τ * t3) = (threePoleY (fftfreq (1 / dx) k) A B C t1 t2 t3).map (· / (u.s : ℂ)) := by
    intro k
    rw [freq_units, threePoleY_units]
  have hc : (∃ k : ZMod n, ∀ y, threePoleY (fftfreq (1 / (u.τ * dx)) k) (u.s * A) (u.s * B) C (u.τ * t1)
      (u.τ * t2) (u.τ * t3) ≠ .ok y) ↔
      ∃ k : ZMod n, ∀ y, threePoleY (fftfreq (1 / dx) k) A B C t1 t2 t3 ≠ .ok y := by
    refine exists_congr fun k => ?_
    rw [hY]
    cases threePoleY (fftfreq (1 / dx) k) A B C t1 t2 t3 <;> simp [Except.map]
  by_cases h : ∃ k : ZMod n, ∀ y, threePoleY (fftfreq (1 / dx) k) A B C t1 t2 t3 ≠ .ok y
  · rw [if_pos h, if_pos (hc.2 h)]
  · rw [if_neg h, if_neg (fun g => h (hc.1 g))]
    refine congrArg Except.ok (funext fun j => congrArg Complex.re (congrArg (fun g => ifft g j)
      (funext fun k => ?_)))
    dsimp only
    rw [hY, sqWave_units]
    cases threePoleY (fftfreq (1 / dx) k) A B C t1 t2 t3 with
    | error e => simp [Except.map]
    | ok y => simp only [Except.map]; field_simp

theorem convolve_amp (c dx A B C t1 t2 t3 sgamp rsh sgfreq duty : ℝ) :
    convolve (n := n) dx A B C t1 t2 t3 (c * sgamp) rsh sgfreq duty =
      (convolve dx A B C t1 t2 t3 sgamp rsh sgfreq duty).map fun r j => c * r j := by
  unfold convolve
  by_cases h : ∃ k : ZMod n, ∀ y, threePoleY (fftfreq (1 / dx) k) A B C t1 t2 t3 ≠ .ok y
  · rw [if_pos h, if_pos h]; rfl
  · rw [if_neg h, if_neg h]
    simp only [Except.map]
    refine congrArg Except.ok (funext fun j => ?_)
    rw [← Complex.re_ofReal_mul]
    refine congrArg Complex.re ?_
    refine congrFun (Eq.trans (congrArg ifft (funext fun k => ?_)) (map_smul ZMod.dft.symm (c : ℂ) _)) j
    rw [sqWave_amp, Pi.smul_apply, smul_eq_mul, mul_assoc]

theorem squarewaveresponse_units (dx sgamp sgfreq duty : ℝ) (a : Args) :
    squarewaveresponse (n := n) (u.τ * dx) sgamp (sgfreq / u.τ) duty (u.args a) =
      squarewaveresponse dx sgamp sgfreq duty a := by
  have h0 : u.τ * 0 = 0 := mul_zero _
  have h0' : u.s * 0 = 0 := mul_zero _
  unfold squarewaveresponse
  rw [poleExtractor_units]
  simp only [Units.args, getD_map_mul]
  rw [convertFrom_one, convertFrom_two, convertFrom_three]
  cases hp : poleExtractor a with
  | error e => rfl
  | ok k =>
    rcases k with - | - | - | k
    · rcases convertFrom_shape3 (a.rsh.getD 0) (a.rp.getD 0) (a.r0.getD 0) (a.beta.getD 0) (a.l.getD 0)
        (a.L.getD 0) (a.tau0.getD 0) (a.gratio.getD 0) (a.tau3.getD 0) 0 with
        ⟨e, h⟩ | ⟨A, B, C, t1, t2, t3, h⟩ <;> rw [h]
      · rfl
      · simp only [Except.map, fit_seven]
        exact convolve_units u ..
    · rcases convertFrom_shape1 (a.rsh.getD 0) (a.rp.getD 0) (a.L.getD 0) 0 with
        ⟨e, h⟩ | ⟨A, t, h⟩ <;> rw [h]
      · rfl
      · simp only [Except.map, fit_three]
        have := convolve_units (n := n) u dx A 0 0 0 t 0 sgamp (a.rsh.getD 0) sgfreq duty
        rwa [h0, h0'] at this
    · rcases convertFrom_shape2 (a.rsh.getD 0) (a.rp.getD 0) (a.r0.getD 0) (a.beta.getD 0) (a.l.getD 0)
        (a.L.getD 0) (a.tau0.getD 0) 0 with ⟨e, h⟩ | ⟨A, B, t1, t2, h⟩ <;> rw [h]
      · rfl
      · simp only [Except.map, fit_five]
        have := convolve_units (n := n) u dx A B 0 t1 t2 0 sgamp (a.rsh.getD 0) sgfreq duty
        rwa [h0] at this
    · rcases convertFrom_shape3 (a.rsh.getD 0) (a.rp.getD 0) (a.r0.getD 0) (a.beta.getD 0) (a.l.getD 0)
        (a.L.getD 0) (a.tau0.getD 0) (a.gratio.getD 0) (a.tau3.getD 0) 0 with
        ⟨e, h⟩ | ⟨A, B, C, t1, t2, t3, h⟩ <;> rw [h]
      · rfl
      · simp only [Except.map, fit_seven]
        exact convolve_units u ..

theorem squarewaveresponse_amp (c dx sgamp sgfreq duty : ℝ) (a : Args) :
    squarewaveresponse (n := n) dx (c * sgamp) sgfreq duty a =
      (squarewaveresponse dx sgamp sgfreq duty a).map fun r j => c * r j := by
  unfold squarewaveresponse
  cases hp : poleExtractor a with
  | error e => rfl
  | ok k =>
    rcases k with - | - | - | k
    · dsimp only
      rcases convertFrom_shape3 (a.rsh.getD 0) (a.rp.getD 0) (a.r0.getD 0) (a.beta.getD 0) (a.l.getD 0)
        (a.L.getD 0) (a.tau0.getD 0) (a.gratio.getD 0) (a.tau3.getD 0) 0 with
        ⟨e, h⟩ | ⟨A, B, C, t1, t2, t3, h⟩ <;> rw [h]
      · rfl
      · exact convolve_amp ..
    · dsimp only
      rcases convertFrom_shape1 (a.rsh.getD 0) (a.rp.getD 0) (a.L.getD 0) 0 with
        ⟨e, h⟩ | ⟨A, t, h⟩ <;> rw [h]
      · rfl
      · exact convolve_amp ..
    · dsimp only
      rcases convertFrom_shape2 (a.rsh.getD 0) (a.rp.getD 0) (a.r0.getD 0) (a.beta.getD 0) (a.l.getD 0)
        (a.L.getD 0) (a.tau0.getD 0) 0 with ⟨e, h⟩ | ⟨A, B, t1, t2, h⟩ <;> rw [h]
      · rfl
      · exact convolve_amp ..
    · dsimp only
      rcases convertFrom_shape3 (a.rsh.getD 0) (a.rp.getD 0) (a.r0.getD 0) (a.beta.getD 0) (a.l.getD 0)
        (a.L.getD 0) (a.tau0.getD 0) (a.gratio.getD 0) (a.tau3.getD 0) 0 with
        ⟨e, h⟩ | ⟨A, B, C, t1, t2, t3, h⟩ <;> rw [h]
      · rfl
      · exact convolve_amp ..

end wave

/-! ### Fall times -/

theorem twoPoleEqs_units (A B t1 t2 : ℝ) (p : ℝ × ℝ) :
    twoPoleEqs (u.s * A) (u.s * B) (u.τ * t1) (u.τ * t2) (u.τ * p.1, u.τ * p.2) =
      (u.τ * (twoPoleEqs A B t1 t2 p).1, u.τ ^ 2 * (twoPoleEqs A B t1 t2 p).2) := by
  unfold twoPoleEqs
  rw [← mul_add u.s, mul_div_mul_left _ _ u.hs.ne']
  ext <;> dsimp only <;> ring

theorem threePoleEqs_units (A B C t1 t2 t3 : ℝ) (p : ℝ × ℝ × ℝ) :
    threePoleEqs (u.s * A) (u.s * B) C (u.τ * t1) (u.τ * t2) (u.τ * t3)
        (u.τ * p.1, u.τ * p.2.1, u.τ * p.2.2) =
      (u.τ * (threePoleEqs A B C t1 t2 t3 p).1, u.τ ^ 2 * (threePoleEqs A B C t1 t2 t3 p).2.1,
        u.τ ^ 3 * (threePoleEqs A B C t1 t2 t3 p).2.2) := by
  unfold threePoleEqs
  have e : u.s * A * (1 - C) + u.s * B = u.s * (A * (1 - C) + B) := by ring
  have e1 : u.s * A * (u.τ * t1) + u.s * A * (1 - C) * (u.τ * t2) + (u.s * A + u.s * B) * (u.τ * t3) =
      u.s * (u.τ * (A * t1 + A * (1 - C) * t2 + (A + B) * t3)) := by ring
  have e2 : (u.τ * t1 * (u.τ * t2) + u.τ * t1 * (u.τ * t3) + u.τ * t2 * (u.τ * t3)) * (u.s * A) =
      u.s * (u.τ ^ 2 * ((t1 * t2 + t1 * t3 + t2 * t3) * A)) := by ring
  have e3 : u.τ * t1 * (u.τ * t2) * (u.τ * t3) * (u.s * A) = u.s * (u.τ ^ 3 * (t1 * t2 * t3 * A)) := by ring
  rw [e, e1, e2, e3, mul_div_mul_left _ _ u.hs.ne', mul_div_mul_left _ _ u.hs.ne',
    mul_div_mul_left _ _ u.hs.ne']
  ext <;> dsimp only <;> ring

/-! ### The fit with priors -/

theorem scaledY_units (f : ℝ) (p : List ℝ) : scaledY (f / u.τ) (u.tes p) = scaledY f p := by
  have hs : (u.s : ℂ) ≠ 0 := by exact_mod_cast u.hs.ne'
  unfold scaledY
  rw [sspArgs_units, complexadmittance_units]
  by_cases h : p.length = 4 ∨ p.length = 8 ∨ p.length = 10
  · have hh : (u.tes p).headD 0 = u.s * p.headD 0 ∧ (u.tes p).getLastD 0 = u.τ * p.getLastD 0 := by
      rcases h with h | h | h
      · match p, h with
        | [a, b, c, d], _ => exact ⟨rfl, rfl⟩
      · match p, h with
        | [a, b, c, d, e, f, g, h], _ => rw [tes_eight]; exact ⟨rfl, rfl⟩
      · match p, h with
        | [a, b, c, d, e, f, g, h, i, j], _ => rw [tes_ten]; exact ⟨rfl, rfl⟩
    rw [hh.1, hh.2, shift_units]
    cases complexadmittance f (sspArgs p) with
    | error e => rfl
    | ok y =>
      simp only [Except.map]
      congr 2
      push_cast
      field_simp
  · simp only [not_or] at h
    rw [sspArgs_other h.1 h.2.1 h.2.2]
    rfl

theorem residualP_units (pts : List Pt) (p : List ℝ) :
    residualP (pts.map u.ptScaled) (u.tes p) = residualP pts p := by
  induction pts with
  | nil => rfl
  | cons q qs ih =>
    simp only [List.map_cons, residualP]
    rw [ih]
    have e : scaledY (u.ptScaled q).f (u.tes p) = scaledY q.f p := scaledY_units u q.f p
    rw [e]
    rfl

theorem tesFactors_pos (k i : ℕ) : 0 < (u.tesFactors k).getD i 1 := by
  have h : ∀ x ∈ u.tesFactors k, 0 < x := by
    have := u.hs
    have := u.hτ
    unfold Units.tesFactors
    split <;> simp_all
  rw [List.getD_eq_getElem?_getD]
  cases hx : (u.tesFactors k)[i]? with
  | none => simp
  | some x => exact h x (List.mem_of_getElem? hx)

theorem tes_getD (p : List ℝ) (i : ℕ) :
    (u.tes p).getD i 0 = (u.tesFactors p.length).getD i 1 * p.getD i 0 := by
  have hl := length_tesFactors u p.length
  unfold Units.tes
  rw [List.getD_eq_getElem?_getD, List.getD_eq_getElem?_getD, List.getD_eq_getElem?_getD,
    List.getElem?_zipWith]
  by_cases h : i < p.length
  · rw [List.getElem?_eq_getElem h, List.getElem?_eq_getElem (by omega)]
    simp
  · rw [List.getElem?_eq_none (by omega : p.length ≤ i)]
    cases (u.tesFactors p.length)[i]? <;> simp

/-- What the pseudo-inverse of a covariance of the priors times the covariance is: the projection on the
parameters with a prior. -/
theorem proj_diag {d : ℕ} {C X : Matrix (Fin d) (Fin d) ℝ} (h : IsPinv C X) (hC : Cᵀ = C)
    (hk : ∀ x, C *ᵥ x = 0 → ∀ i, x i ≠ 0 → ∀ j, C i j = 0) {i j : Fin d} (hij : i ≠ j) :
    (X * C) i j = 0 ∧ (C * X) i j = 0 := by
  have h1 : C * (1 - X * C) = 0 := by rw [Matrix.mul_sub, Matrix.mul_one, ← Matrix.mul_assoc, h.axa, sub_self]
  have key : ∀ a b : Fin d, a ≠ b → (X * C) a b = 0 := by
    intro a b hab
    by_contra hne
    have hk' := hk (fun i => (1 - X * C) i b) (by
      funext i
      have := congrFun (congrFun h1 i) b
      rwa [Matrix.mul_apply] at this) a (by
      rw [Matrix.sub_apply, Matrix.one_apply_ne hab, zero_sub]
      exact neg_ne_zero.2 hne)
    refine hne ?_
    have : (X * C) a b = (X * C) b a := by
      conv_lhs => rw [← h.xa]
      rfl
    rw [this, Matrix.mul_apply]
    refine Finset.sum_eq_zero fun c _ => ?_
    have : C c a = C a c := by
      conv_lhs => rw [← hC]
      rfl
    rw [this, hk' c, mul_zero]
  have hX : Xᵀ = X := by
    refine IsPinv.unique (A := C) ⟨?_, ?_, ?_, ?_⟩ h
    · conv_lhs => rw [← hC]
      rw [← Matrix.transpose_mul, ← Matrix.transpose_mul, ← Matrix.mul_assoc, h.axa, hC]
    · conv_lhs => rw [← hC]
      rw [← Matrix.transpose_mul, ← Matrix.transpose_mul, ← Matrix.mul_assoc, h.xax]
    · have : C * Xᵀ = X * C := by
        conv_lhs => rw [← hC]
        rw [← Matrix.transpose_mul, h.xa]
      rw [this, h.xa]
    · have : Xᵀ * C = C * X := by
        conv_lhs => rw [← hC]
        rw [← Matrix.transpose_mul, h.ax]
      rw [this, h.ax]
  refine ⟨key i j hij, ?_⟩
  have : (C * X)ᵀ = X * C := by rw [Matrix.transpose_mul, hC, hX]
  have h2 := congrFun (congrFun this j) i
  rw [Matrix.transpose_apply] at h2
  rw [h2]
  exact key j i hij.symm

/-- The pseudo-inverse of a rescaled covariance. -/
theorem pinv_scale {d : ℕ} {C : Matrix (Fin d) (Fin d) ℝ} (hC : Cᵀ = C)
    (hk : ∀ x, C *ᵥ x = 0 → ∀ i, x i ≠ 0 → ∀ j, C i j = 0) (s : Fin d → ℝ) (hs : ∀ i, s i ≠ 0) :
    pinv (fun i j => s i * s j * C i j) = fun i j => pinv C i j / (s i * s j) := by
  have h := isPinv_pinv hC
  generalize pinv C = X at h
  have hd : ∀ {i j}, i ≠ j → (X * C) i j = 0 ∧ (C * X) i j = 0 := fun hij => proj_diag h hC hk hij
  set C' : Matrix (Fin d) (Fin d) ℝ := fun i j => s i * s j * C i j with hC'
  set X' : Matrix (Fin d) (Fin d) ℝ := fun i j => X i j / (s i * s j) with hX'
  have a1 : C' * X' = C * X := by
    ext i j
    have e : (C' * X') i j = s i / s j * (C * X) i j := by
      rw [Matrix.mul_apply, Matrix.mul_apply, Finset.mul_sum]
      refine Finset.sum_congr rfl fun c _ => ?_
      have := hs i; have := hs j; have := hs c
      rw [hC', hX']
      field_simp
    by_cases hij : i = j
    · rw [e, hij, div_self (hs j), one_mul]
    · rw [e, (hd hij).2, mul_zero]
  have a2 : X' * C' = X * C := by
    ext i j
    have e : (X' * C') i j = s j / s i * (X * C) i j := by
      rw [Matrix.mul_apply, Matrix.mul_apply, Finset.mul_sum]
      refine Finset.sum_congr rfl fun c _ => ?_
      have := hs i; have := hs j; have := hs c
      rw [hC', hX']
      field_simp
    by_cases hij : i = j
    · rw [e, hij, div_self (hs j), one_mul]
    · rw [e, (hd hij).1, mul_zero]
  have h' : IsPinv C' X' := by
    refine ⟨?_, ?_, ?_, ?_⟩
    · rw [a1]
      ext i j
      have e : (C * X * C') i j = s i * s j * (C * X * C) i j := by
        rw [Matrix.mul_apply, Matrix.mul_apply, Finset.mul_sum]
        refine Finset.sum_congr rfl fun c _ => ?_
        by_cases hic : i = c
        · rw [hC', hic]; ring
        · rw [(hd hic).2]; ring
      rw [e, h.axa]
    · rw [a2]
      ext i j
      have e : (X * C * X') i j = (X * C * X) i j / (s i * s j) := by
        rw [Matrix.mul_apply, Matrix.mul_apply, Finset.sum_div]
        refine Finset.sum_congr rfl fun c _ => ?_
        by_cases hic : i = c
        · rw [hX', hic]; ring
        · rw [(hd hic).1]; ring
      rw [e, h.xax]
    · rw [a1, h.ax]
    · rw [a2, h.xa]
  have hCt : C'ᵀ = C' := by
    ext i j
    have : C j i = C i j := by
      conv_lhs => rw [← hC]
      rfl
    rw [Matrix.transpose_apply, hC']
    dsimp only
    rw [this]
    ring
  exact (isPinv_pinv hCt).unique h'

theorem priorForm_units (priors params : List ℝ) (c : Cov) (hC : c.mᵀ = c.m)
    (hk : ∀ x, c.m *ᵥ x = 0 → ∀ i, x i ≠ 0 → ∀ j, c.m i j = 0) (h1 : priors.length = c.d)
    (h2 : params.length = c.d) :
    priorForm (u.tes priors) ⟨(u.cov c).d, pinv (u.cov c).m⟩ (u.tes params) =
      priorForm priors ⟨c.d, pinv c.m⟩ params := by
  have hs : ∀ i : Fin c.d, (u.tesFactors c.d).getD i 1 ≠ 0 := fun i => (tesFactors_pos u _ _).ne'
  show (fun i : Fin c.d => (u.tes priors).getD i 0 - (u.tes params).getD i 0) ᵥ*
      pinv (fun i j : Fin c.d => (u.tesFactors c.d).getD i 1 * (u.tesFactors c.d).getD j 1 * c.m i j) ⬝ᵥ
      (fun i : Fin c.d => (u.tes priors).getD i 0 - (u.tes params).getD i 0) = _
  unfold priorForm
  rw [pinv_scale hC hk (fun i : Fin c.d => (u.tesFactors c.d).getD i 1) hs]
  simp only [dotProduct, Matrix.vecMul, tes_getD, h1, h2]
  refine Finset.sum_congr rfl fun j _ => ?_
  rw [Finset.sum_mul, Finset.sum_mul]
  refine Finset.sum_congr rfl fun i _ => ?_
  have := hs i
  have := hs j
  generalize (u.tesFactors c.d).getD i 1 = a at *
  generalize (u.tesFactors c.d).getD j 1 = b at *
  field_simp

/-! ### Processing of traces -/

theorem deconvAt_units (nb : ℕ) (fs : ℝ) (tr : ℕ → ℝ) (rsh sgamp sgfreq duty : ℝ) (k : ℕ) :
    deconvAt nb (1 / (fs / u.τ)) tr rsh sgamp (sgfreq / u.τ) duty k =
      deconvAt nb (1 / fs) tr rsh sgamp sgfreq duty k := by
  cases nb with
  | zero => rfl
  | succ m =>
    simp only [deconvAt, deconvolve]
    have e : 1 / (fs / u.τ) = (⟨1, u.τ, one_pos, u.hτ⟩ : Units).τ * (1 / fs) := by
      rw [one_div_div]; ring
    have h : ∀ k : ZMod (m + 1), sqWave (1 / (fs / u.τ)) sgamp rsh (sgfreq / u.τ) duty k =
        sqWave (1 / fs) sgamp rsh sgfreq duty k := by
      intro k
      have := sqWave_units ⟨1, u.τ, one_pos, u.hτ⟩ (1 / fs) sgamp rsh sgfreq duty k
      rw [← e] at this
      simpa using this
    rw [h]

theorem ratio_units (fs sg : ℝ) : fs / u.τ / (sg / u.τ) = fs / sg := div_div_div_cancel_right₀ u.hτ.ne' _ _

theorem nPeriods_units (n : ℕ) (fs sg : ℝ) : nPeriods n (fs / u.τ) (sg / u.τ) = nPeriods n fs sg := by
  unfold nPeriods
  have e : (n : ℝ) * (1 / (fs / u.τ)) / (1 / (sg / u.τ)) = n * (1 / fs) / (1 / sg) := by
    have h := ratio_units u sg fs
    have h1 : (n : ℝ) * (1 / (fs / u.τ)) / (1 / (sg / u.τ)) = n * (sg / u.τ / (fs / u.τ)) := by
      simp only [div_eq_mul_inv, inv_inv, mul_inv, one_mul]; ring
    have h2 : (n : ℝ) * (1 / fs) / (1 / sg) = n * (sg / fs) := by
      simp only [div_eq_mul_inv, inv_inv, one_mul]; ring
    rw [h1, h2, h]
  rw [e]

theorem nBins_units (n : ℕ) (fs sg : ℝ) : nBins n (fs / u.τ) (sg / u.τ) = nBins n fs sg := by
  unfold nBins
  rw [nPeriods_units, mul_div_assoc, ratio_units, ← mul_div_assoc]

theorem flatInds_units (np nb : ℕ) (fs sg dt0 : ℝ) :
    flatInds np nb (fs / u.τ) (sg / u.τ) (u.τ * dt0) = flatInds np nb fs sg dt0 := by
  unfold flatInds
  have e : u.τ * dt0 * (fs / u.τ) = dt0 * fs := by
    have := u.hτ.ne'
    field_simp
  rw [ratio_units, e]

theorem shiftDt0_units (o : Obj) : shiftDt0 (u.timeObj o) = u.timeObj (shiftDt0 o) := by
  have := u.hτ.ne'
  unfold shiftDt0 Units.timeObj
  dsimp only
  congr 1
  split_ifs
  · rcases eq_or_ne o.sgfreq 0 with h | h
    · simp [h]
    · field_simp
  · rfl

theorem keptTraces_units (o : Obj) (nb : ℕ) : keptTraces (u.timeObj o) nb = keptTraces o nb := by
  unfold keptTraces
  refine List.filter_congr fun t _ => ?_
  refine decide_eq_decide.2 (forall_congr' fun k => forall_congr' fun _ => exists_congr fun y => ?_)
  have := deconvAt_units u nb o.fs t o.rsh o.sgamp o.sgfreq o.duty k
  exact iff_of_eq (congrArg (fun z => z.1 = Except.ok y) this)

theorem procOf_units (o : Obj) (nb : ℕ) (tr : List (ℕ → ℝ)) :
    procOf (u.timeObj o) nb tr = u.timeProc (procOf o nb tr) := by
  unfold procOf Units.timeProc
  simp only [Units.timeObj, deconvVal, deconvAt_units, nPeriods_units, flatInds_units]
  congr 1
  funext i
  rw [one_div_div]
  ring

/-! ### Priors -/

theorem separated_diagonal {d : ℕ} (s : Fin d → ℝ) : Separated ⟨d, diagonal s⟩ := by
  refine ⟨isSymm_diagonal s, fun x hx i hi j => ?_⟩
  have h : diagonal s *ᵥ x = 0 := hx
  have h1 := congrFun h i
  rw [mulVec_diagonal, Pi.zero_apply] at h1
  have h2 : s i = 0 := (mul_eq_zero.1 h1).resolve_right hi
  change diagonal s i j = 0
  rw [diagonal_apply]
  split_ifs
  · exact h2
  · rfl

/-- A matrix of rank one. -/
def outer {d : ℕ} (v : Fin d → ℝ) (c : ℝ) : Matrix (Fin d) (Fin d) ℝ := fun i j => v i * v j * c

theorem outer_mul {d : ℕ} (v : Fin d → ℝ) (a b : ℝ) :
    outer v a * outer v b = outer v (a * b * ∑ i, v i * v i) := by
  ext i j
  rw [Matrix.mul_apply]
  simp only [outer]
  rw [Finset.mul_sum, Finset.mul_sum]
  exact Finset.sum_congr rfl fun x _ => by ring

theorem outer_transpose {d : ℕ} (v : Fin d → ℝ) (a : ℝ) : (outer v a)ᵀ = outer v a := by
  ext i j
  rw [Matrix.transpose_apply, outer, outer, mul_comm (v j)]

/-- The pseudo-inverse of a matrix of rank one. -/
theorem pinv_outer {d : ℕ} (v : Fin d → ℝ) (h0 : ∑ i, v i * v i ≠ 0) :
    pinv (outer v 1) = outer v (1 / (∑ i, v i * v i) ^ 2) := by
  refine (isPinv_pinv (outer_transpose v 1)).unique ⟨?_, ?_, ?_, ?_⟩
  · rw [outer_mul, outer_mul]
    generalize ∑ i, v i * v i = q at *
    congr 1
    field_simp
  · rw [outer_mul, outer_mul]
    generalize ∑ i, v i * v i = q at *
    congr 1
    field_simp
  · rw [outer_mul, outer_transpose]
  · rw [outer_mul, outer_transpose]

/-- The cost of the one-pole model without data, with a prior covariance of rank one. -/
theorem nll_rank_one (priors params : List ℝ) (v : Fin 4 → ℝ) {r : ℝ} (h1 : priors.length = 4)
    (h2 : params.length = 4) (h0 : ∑ i, v i * v i ≠ 0)
    (hr : (∑ i : Fin 4, (priors.getD i 0 - params.getD i 0) * v i) ^ 2 / (∑ i, v i * v i) ^ 2 / 2 = r) :
    nll 1 [] priors ⟨4, pinv (outer v 1)⟩ params = .ok r := by
  have hp : priorForm priors ⟨4, pinv (outer v 1)⟩ params =
      (∑ i : Fin 4, (priors.getD i 0 - params.getD i 0) * v i) ^ 2 / (∑ i, v i * v i) ^ 2 := by
    unfold priorForm
    dsimp only
    rw [pinv_outer v h0]
    simp only [dotProduct, Matrix.vecMul, outer]
    generalize (∑ i, v i * v i) ^ 2 = q
    rw [sq (∑ i : Fin 4, _), Finset.sum_mul_sum, Finset.sum_div]
    refine Finset.sum_congr rfl fun j _ => ?_
    rw [Finset.sum_mul, Finset.sum_div]
    refine Finset.sum_congr rfl fun i _ => ?_
    ring
  have hn : 0 ≤ priorForm priors ⟨4, pinv (outer v 1)⟩ params := by
    rw [hp]
    positivity
  unfold nll
  rw [if_neg (by simp [h1, h2, nParams])]
  simp only [residualP]
  rw [if_neg (not_lt.2 hn), Real.sq_sqrt hn, hp]
  simp only [List.map_nil, List.sum_nil, zero_add]
  rw [hr]

end Verif.Didv
