import Verif.DidvIdentProps
import Verif.DidvShiftSpec
import Verif.DidvProcProps
import Mathlib.Algebra.Polynomial.Taylor
import Mathlib.Algebra.Polynomial.Roots
import Mathlib.Algebra.Polynomial.Degree.Operations
import Mathlib.Tactic.ComputeDegree

/-! Lemmas for the identification of the time shift of a dI/dV fit: a polynomial plus a polynomial times
a power vanishes at most at few consecutive integers. -/

namespace Verif.Didv
open Verif Polynomial

/-- `Q(X+1)`. -/
noncomputable def step (Q : ℂ[X]) : ℂ[X] := taylor 1 Q

theorem step_eval (Q : ℂ[X]) (x : ℂ) : (step Q).eval x = Q.eval (x + 1) := taylor_eval 1 Q x

theorem step_degree (Q : ℂ[X]) : (step Q).natDegree = Q.natDegree := natDegree_taylor Q 1

theorem step_lead (Q : ℂ[X]) : (step Q).leadingCoeff = Q.leadingCoeff := by
  unfold step
  exact leadingCoeff_taylor ..

/-- A difference has lower degree. -/
theorem diff_degree {P : ℂ[X]} {a : ℕ} (h : P.degree < (a + 1 : ℕ)) : (step P - P).degree < a := by
  by_cases h0 : P = 0
  · subst h0; simp [step]
  have hs : step P ≠ 0 := by
    unfold step
    exact fun h => h0 ((taylor_injective 1) (by rw [h, map_zero]))
  have hd : (step P).degree = P.degree := by
    rw [degree_eq_natDegree hs, degree_eq_natDegree h0, step_degree]
  have := degree_sub_lt_left hd hs (step_lead P)
  rw [hd] at this
  have h2 : P.degree ≤ a := by
    rw [degree_eq_natDegree h0, Nat.cast_lt] at h
    rw [degree_eq_natDegree h0, Nat.cast_le]
    omega
  exact this.trans_le h2

/-- `w Q(X+1) - Q` has the degree of `Q`. -/
theorem wdiff_ne {w : ℂ} (hw : w ≠ 1) {Q : ℂ[X]} (h : C w * step Q - Q = 0) : Q = 0 := by
  have h1 := congrArg (fun p => p.coeff Q.natDegree) h
  simp only [coeff_sub, coeff_C_mul, coeff_zero] at h1
  have h2 : (step Q).coeff Q.natDegree = Q.leadingCoeff := by
    rw [← step_lead, ← step_degree]; rfl
  rw [h2] at h1
  have h3 : (w - 1) * Q.leadingCoeff = 0 := by rw [← h1, Polynomial.leadingCoeff]; ring
  exact leadingCoeff_eq_zero.1 ((mul_eq_zero.1 h3).resolve_left (sub_ne_zero.2 hw))

theorem roots_many {Q : ℂ[X]} {b : ℕ} (hd : Q.degree < b) (h : ∀ j : ℕ, j < b → Q.eval (j : ℂ) = 0) : Q = 0 := by
  by_contra h0
  have hsub : (Finset.range b).image (fun j : ℕ => (j : ℂ)) ⊆ Q.roots.toFinset := by
    intro x hx
    obtain ⟨j, hj, rfl⟩ := Finset.mem_image.1 hx
    rw [Multiset.mem_toFinset, mem_roots h0]
    exact h j (Finset.mem_range.1 hj)
  have h1 := Finset.card_le_card hsub
  rw [Finset.card_image_of_injective _ Nat.cast_injective, Finset.card_range] at h1
  have h2 := Multiset.toFinset_card_le Q.roots
  have h3 := card_roots' Q
  rw [degree_eq_natDegree h0, Nat.cast_lt] at hd
  omega

/-- `P(j) + w^j Q(j)` vanishes at `deg P + deg Q + 2` consecutive integers only if `P = Q = 0`. -/
theorem exp_poly {w : ℂ} (hw : w ≠ 1) (hw0 : w ≠ 0) {b : ℕ} : ∀ (a : ℕ) {P Q : ℂ[X]}, P.degree < a → Q.degree < b →
    (∀ j : ℕ, j < a + b → P.eval (j : ℂ) + w ^ j * Q.eval (j : ℂ) = 0) → P = 0 ∧ Q = 0 := by
  intro a
  induction a with
  | zero =>
    intro P Q hP hQ h
    have hP0 : P = 0 := by
      by_contra h0
      rw [degree_eq_natDegree h0] at hP
      exact absurd hP (by simp)
    refine ⟨hP0, roots_many hQ fun j hj => ?_⟩
    have := h j (by omega)
    rw [hP0, eval_zero, zero_add] at this
    exact (mul_eq_zero.1 this).resolve_left (pow_ne_zero _ hw0)
  | succ a ih =>
    intro P Q hP hQ h
    have hQ' : (C w * step Q - Q).degree < b := by
      refine (degree_sub_le _ _).trans_lt (max_lt ?_ hQ)
      rw [degree_C_mul hw0]
      by_cases h0 : Q = 0
      · rw [h0]; simp [step]
      · have hs : step Q ≠ 0 := fun h => h0 ((taylor_injective 1) (by rw [← step, h, map_zero]))
        rw [degree_eq_natDegree hs, step_degree, ← degree_eq_natDegree h0]
        exact hQ
    have key := ih (diff_degree hP) hQ' fun j hj => by
      have e1 := h j (by omega)
      have e2 := h (j + 1) (by omega)
      push_cast at e2
      rw [eval_sub, eval_sub, eval_mul, eval_C, step_eval, step_eval]
      rw [pow_succ] at e2
      linear_combination e2 - e1
    have hQ0 := wdiff_ne hw key.2
    refine ⟨roots_many (b := a + 1 + b) (hP.trans_le (by exact_mod_cast Nat.le_add_right _ _)) fun j hj => ?_, hQ0⟩
    have := h j hj
    rwa [hQ0, eval_zero, mul_zero, add_zero] at this

/-! ### The phase of a time shift at the odd harmonics -/

/-- The phase between two time shifts. -/
noncomputable def phase (f0 d : ℝ) : ℂ := Complex.exp (((-2 * Real.pi * f0 * d : ℝ) : ℂ) * Complex.I)

theorem phase_ne (f0 d : ℝ) : phase f0 d ≠ 0 := Complex.exp_ne_zero _

theorem phase_odd (f0 d : ℝ) (j : ℕ) : phase ((2 * j + 1) * f0) d = phase f0 d * (phase f0 d ^ 2) ^ j := by
  unfold phase
  rw [← Complex.exp_nat_mul, ← Complex.exp_nat_mul, ← Complex.exp_add]
  congr 1
  push_cast
  ring

theorem phase_one {f0 d : ℝ} (h : phase f0 d = 1) : ∃ m : ℤ, f0 * d = m := by
  unfold phase at h
  obtain ⟨n, hn⟩ := Complex.exp_eq_one_iff.1 h
  refine ⟨-n, ?_⟩
  have : ((f0 * d : ℝ) : ℂ) = ((-n : ℤ) : ℂ) := by
    apply mul_left_cancel₀ Complex.two_pi_I_ne_zero
    push_cast at hn ⊢
    linear_combination -hn
  exact_mod_cast this

theorem shift_phase (f dt dt' : ℝ) : Complex.exp (-2 * Complex.I * Real.pi * f * dt') =
    Complex.exp (-2 * Complex.I * Real.pi * f * dt) * phase f (dt' - dt) := by
  unfold phase
  rw [← Complex.exp_add]
  congr 1
  push_cast
  ring

/-- Fractions of polynomials which differ by a time shift at many consecutive harmonics differ by a sign. -/
theorem shift_sign {N D N' D' : ℂ[X]} {d : ℕ} {f0 δ : ℝ} (h1 : (N' * D).degree < d) (h2 : (N * D').degree < d)
    (h0 : (N * D').eval 0 ≠ 0)
    (h : ∀ j : ℕ, j < 2 * d → (N' * D).eval (j : ℂ) = phase ((2 * j + 1) * f0) δ * (N * D').eval (j : ℂ)) :
    (phase f0 δ = 1 ∨ phase f0 δ = -1) ∧ ∀ j : ℕ, phase ((2 * j + 1) * f0) δ = phase f0 δ := by
  have hw : phase f0 δ ^ 2 = 1 := by
    by_contra hw
    have hc := phase_ne f0 δ
    have := (exp_poly hw (pow_ne_zero 2 hc) (b := d) d (P := N' * D) (Q := C (-phase f0 δ) * (N * D')) h1
      (by rwa [degree_C_mul (neg_ne_zero.2 hc)]) (fun j hj => by
        rw [h j (by omega), phase_odd, eval_mul (p := C _), eval_C]
        ring)).2
    rcases mul_eq_zero.1 this with h' | h'
    · rw [C_eq_zero] at h'
      exact neg_ne_zero.2 hc h'
    · rw [h'] at h0
      exact h0 eval_zero
  refine ⟨(mul_eq_zero.1 (by linear_combination hw : (phase f0 δ - 1) * (phase f0 δ + 1) = 0)).imp sub_eq_zero.1
    eq_neg_of_add_eq_zero_left, fun j => ?_⟩
  rw [phase_odd, hw, one_pow, mul_one]

/-- Two admittances which are equal up to their time shifts. -/
theorem impedance_shift {z z' x x' y : ℂ} {f dt dt' : ℝ} (hx : recipZ z = .ok x) (hx' : recipZ z' = .ok x')
    (e : x * Complex.exp (-2 * Complex.I * Real.pi * f * dt) = y)
    (e' : x' * Complex.exp (-2 * Complex.I * Real.pi * f * dt') = y) :
    z ≠ 0 ∧ z' ≠ 0 ∧ z' = phase f (dt' - dt) * z := by
  unfold recipZ at hx hx'
  split_ifs at hx hx' with h0 h0'
  cases hx
  cases hx'
  refine ⟨h0, h0', ?_⟩
  rw [shift_phase f dt dt', ← e] at e'
  have hE := Complex.exp_ne_zero (-2 * Complex.I * Real.pi * f * dt)
  generalize Complex.exp (-2 * Complex.I * Real.pi * f * dt) = c at *
  field_simp at e'
  linear_combination -e'

theorem fitY_two {f A B t1 t2 dt : ℝ} {y : ℂ} (h : fitY f [A, B, t1, t2, dt] = .ok y) :
    ∃ x, recipZ (twoPoleZ f A B t1 t2) = .ok x ∧ x * Complex.exp (-2 * Complex.I * Real.pi * f * dt) = y := by
  unfold fitY twoPoleY at h
  simp only at h
  cases hx : recipZ (twoPoleZ f A B t1 t2) with
  | error e => rw [hx] at h; cases h
  | ok x => rw [hx] at h; exact ⟨x, rfl, Except.ok.inj h⟩

theorem fitY_three {f A B C t1 t2 t3 dt : ℝ} {y : ℂ} (h : fitY f [A, B, C, t1, t2, t3, dt] = .ok y) :
    ∃ z x, threePoleZ f A B C t1 t2 t3 = .ok z ∧ recipZ z = .ok x ∧
      x * Complex.exp (-2 * Complex.I * Real.pi * f * dt) = y := by
  unfold fitY threePoleY at h
  simp only at h
  cases hz : threePoleZ f A B C t1 t2 t3 with
  | error e => rw [hz] at h; cases h
  | ok z =>
    rw [hz] at h
    simp only at h
    cases hx : recipZ z with
    | error e => rw [hx] at h; cases h
    | ok x => rw [hx] at h; exact ⟨z, x, rfl, hx, Except.ok.inj h⟩

/-- `2 π i f0 (2 X + 1)`. -/
noncomputable def sPoly (f0 : ℝ) : ℂ[X] := C (jw f0) * (2 * X + 1)

theorem sPoly_eval (f0 : ℝ) (j : ℕ) : (sPoly f0).eval (j : ℂ) = jw ((2 * j + 1) * f0) := by
  simp only [sPoly, eval_mul, eval_add, eval_C, eval_X, eval_one, eval_ofNat, jw]
  push_cast
  ring

/-- Numerator and denominator of a two-pole impedance. -/
noncomputable def num2 (f0 A B t1 t2 : ℝ) : ℂ[X] :=
  C (A : ℂ) * ((1 + sPoly f0 * C (t2 : ℂ)) * (1 + sPoly f0 * C (t1 : ℂ))) + C (B : ℂ)

noncomputable def den2 (f0 t1 : ℝ) : ℂ[X] := 1 + sPoly f0 * C (t1 : ℂ)

theorem frac2 (f0 A B t1 t2 : ℝ) (j : ℕ) : (den2 f0 t1).eval (j : ℂ) ≠ 0 ∧
    (num2 f0 A B t1 t2).eval (j : ℂ) = twoPoleZ ((2 * j + 1) * f0) A B t1 t2 * (den2 f0 t1).eval (j : ℂ) := by
  have h := one_jw_ne ((2 * j + 1) * f0) t1
  simp only [num2, den2, eval_add, eval_mul, eval_C, eval_one, sPoly_eval, twoPoleZ]
  refine ⟨h, ?_⟩
  field_simp

theorem degree2 (f0 A B t1 t2 t1' : ℝ) : (num2 f0 A B t1 t2 * den2 f0 t1').degree < (4 : ℕ) := by
  refine lt_of_le_of_lt (b := (3 : WithBot ℕ)) ?_ (by norm_num)
  unfold num2 den2 sPoly
  compute_degree

/-- Numerator and denominator of a three-pole impedance. -/
noncomputable def den3 (f0 K t1 t3 : ℝ) : ℂ[X] :=
  (1 + sPoly f0 * C (t1 : ℂ)) * (1 + sPoly f0 * C (t3 : ℂ)) - C (K : ℂ)

noncomputable def num3 (f0 A B K t1 t2 t3 : ℝ) : ℂ[X] :=
  C (A : ℂ) * (1 + sPoly f0 * C (t2 : ℂ)) * den3 f0 K t1 t3 + C (B : ℂ) * (1 + sPoly f0 * C (t3 : ℂ))

theorem frac3 {f0 A B K t1 t2 t3 : ℝ} {j : ℕ} {z : ℂ} (h : threePoleZ ((2 * j + 1) * f0) A B K t1 t2 t3 = .ok z) :
    (den3 f0 K t1 t3).eval (j : ℂ) ≠ 0 ∧
      (num3 f0 A B K t1 t2 t3).eval (j : ℂ) = z * (den3 f0 K t1 t3).eval (j : ℂ) := by
  have n3 := one_jw_ne ((2 * j + 1) * f0) t3
  unfold threePoleZ at h
  split_ifs at h with d
  cases h
  simp only [num3, den3, eval_add, eval_sub, eval_mul, eval_C, eval_one, sPoly_eval]
  generalize jw ((2 * j + 1) * f0) = s at *
  have hD : (1 + s * t1) * (1 + s * t3) - K ≠ 0 := by
    intro h0
    apply d
    rw [sub_eq_zero, eq_div_iff n3]
    linear_combination h0
  refine ⟨hD, ?_⟩
  have q1 : (B : ℂ) / (1 + s * t1 - K / (1 + s * t3)) = B * (1 + s * t3) / ((1 + s * t1) * (1 + s * t3) - K) := by
    rw [div_eq_div_iff d hD]
    field_simp
  rw [q1]
  generalize (1 + s * t1) * (1 + s * t3) - K = D at *
  field_simp

theorem degree3 (f0 A B K t1 t2 t3 K' t1' t3' : ℝ) :
    (num3 f0 A B K t1 t2 t3 * den3 f0 K' t1' t3').degree < (6 : ℕ) := by
  refine lt_of_le_of_lt (b := (5 : WithBot ℕ)) ?_ (by norm_num)
  unfold num3 den3 sPoly
  compute_degree

/-! ### Exact fits -/

/-- Data on the model have residuals zero. -/
theorem residual_exact {pts : List Pt} {params : List ℝ} (he : ∀ p ∈ pts, p.err.re ≠ 0 ∧ p.err.im ≠ 0)
    (h : ∀ p ∈ pts, fitY p.f params = .ok p.y) : ∃ r, residual pts params = .ok r ∧ sumSq r = 0 := by
  induction pts with
  | nil => exact ⟨[], rfl, by simp [sumSq]⟩
  | cons q ps ih =>
    obtain ⟨r, hr, hs⟩ := ih (fun p hp => he p (List.mem_cons_of_mem _ hp)) fun p hp => h p (List.mem_cons_of_mem _ hp)
    have hq := he q List.mem_cons_self
    simp only [residual, h q List.mem_cons_self, hr, sub_self, Complex.zero_re, Complex.zero_im, zero_mul]
    rw [if_neg (by tauto)]
    exact ⟨_, rfl, by simpa [sumSq] using hs⟩

theorem sumSq_nonneg (r : List ℝ) : 0 ≤ sumSq r := List.sum_nonneg fun v hv => by
  obtain ⟨w, -, rfl⟩ := List.mem_map.1 hv
  positivity

/-- And residuals zero put the data on the model. -/
theorem exact_residual {pts : List Pt} {params r : List ℝ} (h : residual pts params = .ok r) (h0 : sumSq r = 0) :
    ∀ p ∈ pts, fitY p.f params = .ok p.y := by
  induction pts generalizing r with
  | nil => intro p hp; cases hp
  | cons q ps ih =>
    simp only [residual] at h
    cases hc : fitY q.f params with
    | error e => rw [hc] at h; cases h
    | ok c =>
      cases hr : residual ps params with
      | error e => rw [hc, hr] at h; cases h
      | ok r' =>
        rw [hc, hr] at h
        simp only at h
        split_ifs at h with hz
        cases h
        simp only [sumSq, List.map_cons, List.sum_cons] at h0
        have n := sumSq_nonneg r'
        unfold sumSq at n
        have s1 := sq_nonneg ((q.y - c).re * (1 / q.err.re))
        have s2 := sq_nonneg ((q.y - c).im * (1 / q.err.im))
        have z1 : ((q.y - c).re * (1 / q.err.re)) ^ 2 = 0 := by linarith
        have z2 : ((q.y - c).im * (1 / q.err.im)) ^ 2 = 0 := by linarith
        have z3 : sumSq r' = 0 := by unfold sumSq; linarith
        rw [sq_eq_zero_iff, mul_eq_zero, one_div, inv_eq_zero] at z1 z2
        intro p hp
        rcases List.mem_cons.1 hp with rfl | hp
        · rw [hc]
          have a := z1.resolve_right fun h => hz (Or.inl h)
          have b := z2.resolve_right fun h => hz (Or.inr h)
          have : p.y - c = 0 := Complex.ext a b
          rw [sub_eq_zero.1 this]
        · exact ih hr z3 p hp

/-- One run of the optimiser on data which lie on the model. -/
theorem run_exact {ls : LS} (hls : Finds ls) {pts : List Pt} {p0 xs x : List ℝ} {b : List (Option ℝ × Option ℝ)}
    {o : LsOut} (h : leastSquares ls (residual pts) p0 b xs = .ok o) (hd : ∀ p ∈ pts, fitY p.f x = .ok p.y) :
    0 ≤ o.cost ∧ (List.Forall₂ inB x b → o.cost = 0) ∧
      (o.cost = 0 → List.Forall₂ inB o.x b ∧ ∀ p ∈ pts, fitY p.f o.x = .ok p.y) := by
  obtain ⟨hp, -, ⟨r0, hr0⟩, rfl⟩ := leastSquares_ok h
  obtain ⟨⟨r, h1, h2, h3⟩, h4⟩ := hls _ _ _ _ hp hr0
  refine ⟨?_, fun hx => ?_, fun h0 => ⟨h1, exact_residual h2 (by linarith)⟩⟩
  · rw [h3]
    have := sumSq_nonneg r
    linarith
  · obtain ⟨rx, e, e0⟩ := residual_exact (residual_errs hr0) hd
    rw [h4 x rx hx e fun x' r' _ _ => by rw [e0]; exact sumSq_nonneg r', e0, zero_div]

/-- A fit of data which lie on the model, with parameters which the fit may return. -/
theorem fit_exact {ls : LS} (hls : Finds ls) {pts : List Pt} {n : ℕ} {A0 B0 C0 a1 a2 a3 d : ℝ} {sub1 : Option Bool}
    {params x : List ℝ} {cov : List (List ℝ)} {cost : ℝ}
    (h : fitdidv ls pts n A0 B0 C0 a1 a2 a3 d sub1 = .ok (params, cov, cost)) (hd : ∀ p ∈ pts, fitY p.f x = .ok p.y)
    (hx : (sub1 ≠ some true ∧ List.Forall₂ inB x (starts n A0 B0 C0 a1 a2 a3 d).2.1) ∨
      (sub1 ≠ some false ∧ List.Forall₂ inB x (starts n A0 B0 C0 a1 a2 a3 d).2.2.2)) :
    cost = 0 ∧ (∀ p ∈ pts, fitY p.f params = .ok p.y) ∧
      (List.Forall₂ inB params (starts n A0 B0 C0 a1 a2 a3 d).2.1 ∨
        List.Forall₂ inB params (starts n A0 B0 C0 a1 a2 a3 d).2.2.2) := by
  unfold fitdidv at h
  simp only at h
  have fin : ∀ {o : LsOut}, (match o.cov with
      | .error e => (.error e : Except Err (List ℝ × List (List ℝ) × ℝ))
      | .ok c => .ok (o.x, c, o.cost)) = .ok (params, cov, cost) → params = o.x ∧ cost = o.cost := by
    intro o ho
    cases hc : o.cov with
    | error e => rw [hc] at ho; cases ho
    | ok c => rw [hc] at ho; cases ho; exact ⟨rfl, rfl⟩
  match sub1 with
  | none =>
    simp only at h
    cases h1 : leastSquares ls (residual pts) (starts n A0 B0 C0 a1 a2 a3 d).1 (starts n A0 B0 C0 a1 a2 a3 d).2.1
        ((starts n A0 B0 C0 a1 a2 a3 d).1.map abs) with
    | error e => rw [h1] at h; cases h
    | ok r1 =>
      cases h2 : leastSquares ls (residual pts) (starts n A0 B0 C0 a1 a2 a3 d).2.2.1
          (starts n A0 B0 C0 a1 a2 a3 d).2.2.2 ((starts n A0 B0 C0 a1 a2 a3 d).1.map abs) with
      | error e => rw [h1, h2] at h; cases h
      | ok r2 =>
        rw [h1, h2] at h
        simp only at h
        obtain ⟨n1, z1, f1⟩ := run_exact hls h1 hd
        obtain ⟨n2, z2, f2⟩ := run_exact hls h2 hd
        split_ifs at h with hlt
        · obtain ⟨rfl, rfl⟩ := fin h
          have h0 : r1.cost = 0 := by
            rcases hx with ⟨-, hx⟩ | ⟨-, hx⟩
            · exact z1 hx
            · have := z2 hx; linarith
          exact ⟨h0, (f1 h0).2, Or.inl (f1 h0).1⟩
        · obtain ⟨rfl, rfl⟩ := fin h
          have h0 : r2.cost = 0 := by
            rcases hx with ⟨-, hx⟩ | ⟨-, hx⟩
            · have := z1 hx; linarith
            · exact z2 hx
          exact ⟨h0, (f2 h0).2, Or.inr (f2 h0).1⟩
  | some true =>
    simp only at h
    cases h2 : leastSquares ls (residual pts) (starts n A0 B0 C0 a1 a2 a3 d).2.2.1
        (starts n A0 B0 C0 a1 a2 a3 d).2.2.2 ((starts n A0 B0 C0 a1 a2 a3 d).1.map abs) with
    | error e => rw [h2] at h; cases h
    | ok r2 =>
      rw [h2] at h
      obtain ⟨n2, z2, f2⟩ := run_exact hls h2 hd
      obtain ⟨rfl, rfl⟩ := fin h
      have h0 := z2 (hx.resolve_left fun h => h.1 rfl).2
      exact ⟨h0, (f2 h0).2, Or.inr (f2 h0).1⟩
  | some false =>
    simp only at h
    cases h1 : leastSquares ls (residual pts) (starts n A0 B0 C0 a1 a2 a3 d).1 (starts n A0 B0 C0 a1 a2 a3 d).2.1
        ((starts n A0 B0 C0 a1 a2 a3 d).1.map abs) with
    | error e => rw [h1] at h; cases h
    | ok r1 =>
      rw [h1] at h
      obtain ⟨n1, z1, f1⟩ := run_exact hls h1 hd
      obtain ⟨rfl, rfl⟩ := fin h
      have h0 := z1 (hx.resolve_right fun h => h.1 rfl).2
      exact ⟨h0, (f1 h0).2, Or.inl (f1 h0).1⟩

theorem inB_pos {x : ℝ} (hx : 0 ≤ x) : inB x (some 0, none) :=
  ⟨fun l hl => (by cases hl; exact hx), fun u hu => (by cases hu)⟩

theorem inB_neg {x : ℝ} (hx : x ≤ 0) : inB x (none, some 0) :=
  ⟨fun u hu => (by cases hu), fun l hl => (by cases hl; exact hx)⟩

theorem inB_free (x : ℝ) : inB x (none, none) := ⟨fun u hu => (by cases hu), fun u hu => (by cases hu)⟩

theorem forall_five {x : List ℝ} {b0 b1 b2 b3 b4 : Option ℝ × Option ℝ} (h : List.Forall₂ inB x [b0, b1, b2, b3, b4]) :
    ∃ a b c d e, x = [a, b, c, d, e] ∧ inB a b0 := by
  match x, h with
  | _, .cons h0 (.cons _ (.cons _ (.cons _ (.cons _ .nil)))) => exact ⟨_, _, _, _, _, rfl, h0⟩

theorem forall_seven {x : List ℝ} {b0 b1 b2 b3 b4 b5 b6 : Option ℝ × Option ℝ}
    (h : List.Forall₂ inB x [b0, b1, b2, b3, b4, b5, b6]) :
    ∃ a b c d e f g, x = [a, b, c, d, e, f, g] ∧ inB a b0 := by
  match x, h with
  | _, .cons h0 (.cons _ (.cons _ (.cons _ (.cons _ (.cons _ (.cons _ .nil)))))) =>
    exact ⟨_, _, _, _, _, _, _, rfl, h0⟩

theorem forall_three {x : List ℝ} {b0 b1 b2 : Option ℝ × Option ℝ} (h : List.Forall₂ inB x [b0, b1, b2]) :
    ∃ a b c, x = [a, b, c] ∧ inB a b0 ∧ inB b b1 := by
  match x, h with
  | _, .cons h0 (.cons h1 (.cons _ .nil)) => exact ⟨_, _, _, rfl, h0, h1⟩

open Classical in
/-- There is an optimiser of the kind wanted. -/
theorem finds_exists : ∃ ls : LS, Finds ls ∧ ∀ res p0 b, (ls res p0 b).cov = .ok [] := by
  let good (res : List ℝ → Except Err (List ℝ)) (b : List (Option ℝ × Option ℝ)) : Prop :=
    ∃ x r, List.Forall₂ inB x b ∧ res x = .ok r ∧
      ∀ x' r', List.Forall₂ inB x' b → res x' = .ok r' → sumSq r ≤ sumSq r'
  let pt (res : List ℝ → Except Err (List ℝ)) (p0 : List ℝ) (b : List (Option ℝ × Option ℝ)) : List ℝ :=
    if h : good res b then h.choose else p0
  refine ⟨fun res p0 b => ⟨pt res p0 b, sumSq ((res (pt res p0 b)).toOption.getD []) / 2, .ok []⟩, ?_, fun _ _ _ => rfl⟩
  intro res p0 b r0 hp hr
  by_cases hg : good res b
  · have e : pt res p0 b = hg.choose := dif_pos hg
    obtain ⟨r, h1, h2, h3⟩ := hg.choose_spec
    simp only [e]
    refine ⟨⟨r, h1, h2, by rw [h2]; rfl⟩, fun x rx hx hrx hmin => ?_⟩
    rw [h2]
    have := le_antisymm (h3 x rx hx hrx) (hmin _ r h1 h2)
    change sumSq r / 2 = _
    rw [this]
  · have e : pt res p0 b = p0 := dif_neg hg
    simp only [e]
    exact ⟨⟨r0, hp, hr, by rw [hr]; rfl⟩, fun x rx hx hrx hmin => absurd ⟨x, rx, hx, hrx, hmin⟩ hg⟩

/-- An inverted one-pole impedance, half a period later. -/
theorem one_pole_inverted {f0 : ℝ} (hf : f0 ≠ 0) (j : ℕ) (A t dt : ℝ) :
    fitY ((2 * j + 1) * f0) [-A, t, dt + 1 / (2 * f0)] = fitY ((2 * j + 1) * f0) [A, t, dt] := by
  have hZ : onePoleZ ((2 * j + 1) * f0) (-A) t = -onePoleZ ((2 * j + 1) * f0) A t := by
    unfold onePoleZ
    push_cast
    ring
  have hp : phase f0 (1 / (2 * f0)) = -1 := by
    unfold phase
    rw [show (-2 * Real.pi * f0 * (1 / (2 * f0)) : ℝ) = -Real.pi by field_simp]
    push_cast
    rw [neg_mul, Complex.exp_neg, Complex.exp_pi_mul_I]
    norm_num
  unfold fitY onePoleY recipZ
  simp only
  rw [hZ, shift_phase _ dt (dt + 1 / (2 * f0)), add_sub_cancel_left, phase_odd, hp]
  by_cases h0 : onePoleZ ((2 * j + 1) * f0) A t = 0
  · rw [if_pos h0, if_pos (by rw [h0, neg_zero])]
    rfl
  · rw [if_neg h0, if_neg (neg_ne_zero.2 h0)]
    change Except.ok _ = Except.ok _
    rw [one_div, one_div, inv_neg]
    congr 1
    norm_num

end Verif.Didv
