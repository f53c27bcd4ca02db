import Verif.NsmbLemmas
import Mathlib.Algebra.BigOperators.Fin
import Mathlib.Tactic.FinCases
import Mathlib.Tactic.NormNum

/-!
A concrete eight-bin fit with one signal and four background templates, white noise, used by the
examples and counterexamples in `NsmbProps.lean`.  The signal template is constant, so it looks
the same at every delay and is orthogonal to the backgrounds.
-/

namespace Verif.Nsmb

open Verif.Dft Verif.Nsmb.Spec Matrix

variable {n : ℕ} [NeZero n] {nb : ℕ}

/-- Entry of an eight-bin trace. -/
def tr (v : Fin 8 → ℝ) : ZMod 8 → ℝ := v

/-- Templates. -/
def exT : Fin 5 → ZMod 8 → ℝ :=
  ![tr ![1, 1, 1, 1, 1, 1, 1, 1], tr ![8, -8, 4, -4, 2, -2, 1, -1], tr ![4, -4, 2, -2, 1, -1, 0, 0],
    tr ![2, -2, 1, -1, 0, 0, 0, 0], tr ![1, -1, 0, 0, 0, 0, 0, 0]]

/-- Trace. -/
def exP : ZMod 8 → ℝ := tr ![0, 2, 0, 2, 0, 2, 0, 2]

/-- White noise. -/
def exPsd : ZMod 8 → ℝ := fun _ => 1

/-- The filter. -/
noncomputable def exF : Filt 8 4 :=
  { psddnu := psddnu exPsd 8, phi := phi (sbtemplatef exT) (psddnu exPsd 8),
    Pfs := Pfs (sbtemplatef exT) (psddnu exPsd 8), P := P (sbtemplatef exT) (psddnu exPsd 8),
    sbf := sbtemplatef exT, sbt := exT,
    B := of fun i j => P0 (sbtemplatef exT) (psddnu exPsd 8) i.succ j.succ 0,
    iB := pinv (of fun i j => P0 (sbtemplatef exT) (psddnu exPsd 8) i.succ j.succ 0) }

theorem exF_setup : setup exT exPsd 8 = .ok exF := by
  unfold setup
  rw [if_neg (by norm_num), if_neg (by norm_num)]
  rfl

theorem exPsd_pos : ∀ f, f ≠ 0 → 0 < exPsd f := fun _ _ => one_pos

theorem ex_noise : noise exPsd 8 = fun _ => 1 := by
  funext f
  unfold noise exPsd
  norm_num

theorem ex_delayed (t : ZMod 8) : delayed exT t = exT := by
  funext i
  by_cases hi : i = 0
  · subst hi
    rw [delayed_zero]
    have : ∀ τ : ZMod 8, exT 0 τ = 1 := by
      intro τ
      change Fin 8 at τ
      fin_cases τ <;> rfl
    funext τ
    rw [roll, this, this]
  · exact delayed_ne _ _ hi

theorem sum8 (g : ZMod 8 → ℝ) : ∑ τ, g τ = g 0 + g 1 + g 2 + g 3 + g 4 + g 5 + g 6 + g 7 :=
  Fin.sum_univ_eight (f := (g : Fin 8 → ℝ))

theorem ex_val (i : Fin 5) (v : Fin 5 → Fin 8 → ℝ) (h : exT = fun i => tr (v i)) (τ : Fin 8) :
    exT i (τ : ZMod 8) = v i τ := by rw [h]; rfl

/-- Correlation of template `i` with the residual of amplitudes `a`. -/
theorem ex_corr (i : Fin 5) (a : Fin 5 → ℝ) :
    ipR (noise exPsd 8) (exT i) (resTrace exP exT a) =
      (![8 - 8 * a 0,
        -30 - 170 * a 1 - 84 * a 2 - 40 * a 3 - 16 * a 4,
        -14 - 84 * a 1 - 42 * a 2 - 20 * a 3 - 8 * a 4,
        -6 - 40 * a 1 - 20 * a 2 - 10 * a 3 - 4 * a 4,
        -2 - 16 * a 1 - 8 * a 2 - 4 * a 3 - 2 * a 4] : Fin 5 → ℝ) i / 8 := by
  rw [ex_noise, ipR_flat 1 one_ne_zero, sum8]
  have h : ∀ τ : ZMod 8, resTrace exP exT a τ =
      exP τ - (a 0 * exT 0 τ + a 1 * exT 1 τ + a 2 * exT 2 τ + a 3 * exT 3 τ + a 4 * exT 4 τ) := by
    intro τ
    unfold resTrace
    rw [Fin.sum_univ_five]
  simp only [h]
  have e0 : exP 0 = 0 := rfl
  have e1 : exP 1 = 2 := rfl
  have e2 : exP 2 = 0 := rfl
  have e3 : exP 3 = 2 := rfl
  have e4 : exP 4 = 0 := rfl
  have e5 : exP 5 = 2 := rfl
  have e6 : exP 6 = 0 := rfl
  have e7 : exP 7 = 2 := rfl
  have t00 : exT 0 0 = 1 := rfl
  have t01 : exT 0 1 = 1 := rfl
  have t02 : exT 0 2 = 1 := rfl
  have t03 : exT 0 3 = 1 := rfl
  have t04 : exT 0 4 = 1 := rfl
  have t05 : exT 0 5 = 1 := rfl
  have t06 : exT 0 6 = 1 := rfl
  have t07 : exT 0 7 = 1 := rfl
  have t10 : exT 1 0 = 8 := rfl
  have t11 : exT 1 1 = -8 := rfl
  have t12 : exT 1 2 = 4 := rfl
  have t13 : exT 1 3 = -4 := rfl
  have t14 : exT 1 4 = 2 := rfl
  have t15 : exT 1 5 = -2 := rfl
  have t16 : exT 1 6 = 1 := rfl
  have t17 : exT 1 7 = -1 := rfl
  have t20 : exT 2 0 = 4 := rfl
  have t21 : exT 2 1 = -4 := rfl
  have t22 : exT 2 2 = 2 := rfl
  have t23 : exT 2 3 = -2 := rfl
  have t24 : exT 2 4 = 1 := rfl
  have t25 : exT 2 5 = -1 := rfl
  have t26 : exT 2 6 = 0 := rfl
  have t27 : exT 2 7 = 0 := rfl
  have t30 : exT 3 0 = 2 := rfl
  have t31 : exT 3 1 = -2 := rfl
  have t32 : exT 3 2 = 1 := rfl
  have t33 : exT 3 3 = -1 := rfl
  have t34 : exT 3 4 = 0 := rfl
  have t35 : exT 3 5 = 0 := rfl
  have t36 : exT 3 6 = 0 := rfl
  have t37 : exT 3 7 = 0 := rfl
  have t40 : exT 4 0 = 1 := rfl
  have t41 : exT 4 1 = -1 := rfl
  have t42 : exT 4 2 = 0 := rfl
  have t43 : exT 4 3 = 0 := rfl
  have t44 : exT 4 4 = 0 := rfl
  have t45 : exT 4 5 = 0 := rfl
  have t46 : exT 4 6 = 0 := rfl
  have t47 : exT 4 7 = 0 := rfl
  simp only [e0, e1, e2, e3, e4, e5, e6, e7, t00, t01, t02, t03, t04, t05, t06, t07, t10, t11, t12,
    t13, t14, t15, t16, t17, t20, t21, t22, t23, t24, t25, t26, t27, t30, t31, t32, t33, t34, t35,
    t36, t37, t40, t41, t42, t43, t44, t45, t46, t47]
  push_cast
  fin_cases i
  · change (exT 0 0 * _ + exT 0 1 * _ + exT 0 2 * _ + exT 0 3 * _ + exT 0 4 * _ + exT 0 5 * _ +
      exT 0 6 * _ + exT 0 7 * _) / _ = (8 - 8 * a 0) / 8
    rw [t00, t01, t02, t03, t04, t05, t06, t07]
    ring
  · change (exT 1 0 * _ + exT 1 1 * _ + exT 1 2 * _ + exT 1 3 * _ + exT 1 4 * _ + exT 1 5 * _ +
      exT 1 6 * _ + exT 1 7 * _) / _ = (-30 - 170 * a 1 - 84 * a 2 - 40 * a 3 - 16 * a 4) / 8
    rw [t10, t11, t12, t13, t14, t15, t16, t17]
    ring
  · change (exT 2 0 * _ + exT 2 1 * _ + exT 2 2 * _ + exT 2 3 * _ + exT 2 4 * _ + exT 2 5 * _ +
      exT 2 6 * _ + exT 2 7 * _) / _ = (-14 - 84 * a 1 - 42 * a 2 - 20 * a 3 - 8 * a 4) / 8
    rw [t20, t21, t22, t23, t24, t25, t26, t27]
    ring
  · change (exT 3 0 * _ + exT 3 1 * _ + exT 3 2 * _ + exT 3 3 * _ + exT 3 4 * _ + exT 3 5 * _ +
      exT 3 6 * _ + exT 3 7 * _) / _ = (-6 - 40 * a 1 - 20 * a 2 - 10 * a 3 - 4 * a 4) / 8
    rw [t30, t31, t32, t33, t34, t35, t36, t37]
    ring
  · change (exT 4 0 * _ + exT 4 1 * _ + exT 4 2 * _ + exT 4 3 * _ + exT 4 4 * _ + exT 4 5 * _ +
      exT 4 6 * _ + exT 4 7 * _) / _ = (-2 - 16 * a 1 - 8 * a 2 - 4 * a 3 - 2 * a 4) / 8
    rw [t40, t41, t42, t43, t44, t45, t46, t47]
    ring

theorem ex_indep : Indep exT := by
  intro x hx
  have h : ∀ τ : ZMod 8, x 0 * exT 0 τ + x 1 * exT 1 τ + x 2 * exT 2 τ + x 3 * exT 3 τ +
      x 4 * exT 4 τ = 0 := by
    intro τ
    have := hx τ
    rwa [Fin.sum_univ_five] at this
  have h0 : x 0 * 1 + x 1 * 8 + x 2 * 4 + x 3 * 2 + x 4 * 1 = 0 := h 0
  have h1 : x 0 * 1 + x 1 * (-8) + x 2 * (-4) + x 3 * (-2) + x 4 * (-1) = 0 := h 1
  have h2 : x 0 * 1 + x 1 * 4 + x 2 * 2 + x 3 * 1 + x 4 * 0 = 0 := h 2
  have h4 : x 0 * 1 + x 1 * 2 + x 2 * 1 + x 3 * 0 + x 4 * 0 = 0 := h 4
  have h6 : x 0 * 1 + x 1 * 1 + x 2 * 0 + x 3 * 0 + x 4 * 0 = 0 := h 6
  have x0 : x 0 = 0 := by linarith
  have x1 : x 1 = 0 := by linarith
  have x2 : x 2 = 0 := by linarith
  have x3 : x 3 = 0 := by linarith
  have x4 : x 4 = 0 := by linarith
  funext i
  fin_cases i
  · exact x0
  · exact x1
  · exact x2
  · exact x3
  · exact x4

/-- The signal is free, the backgrounds must be positive. -/
def exC : Fin 5 → ℤ := ![0, 1, 1, 1, 1]

theorem disallowed_iff {ι : Type*} (a : ι → ℝ) (c : ι → ℤ) (i : ι) :
    disallowed a c i = true ↔ (a i < 0 ∧ c i = 1) ∨ (a i > 0 ∧ c i = -1) ∨ a i = 0 := by
  unfold disallowed
  simp only [Bool.or_eq_true, decide_eq_true_eq, or_assoc]

theorem disallowed_true {ι : Type*} {a : ι → ℝ} {c : ι → ℤ} {i : ι}
    (h : (a i < 0 ∧ c i = 1) ∨ (a i > 0 ∧ c i = -1) ∨ a i = 0) : disallowed a c i = true :=
  (disallowed_iff a c i).2 h

theorem disallowed_false {ι : Type*} {a : ι → ℝ} {c : ι → ℤ} {i : ι}
    (h : ¬ ((a i < 0 ∧ c i = 1) ∨ (a i > 0 ∧ c i = -1) ∨ a i = 0)) : disallowed a c i = false := by
  rw [← Bool.not_eq_true, disallowed_iff]; exact h

/-- `ex_corr` with the index type spelled `4 + 1`. -/
theorem ex_corr' (i : Fin (4 + 1)) (a : Fin (4 + 1) → ℝ) :
    ipR (noise exPsd 8) (exT i) (resTrace (ι := Fin (4 + 1)) exP exT a) =
      (![8 - 8 * a 0,
        -30 - 170 * a 1 - 84 * a 2 - 40 * a 3 - 16 * a 4,
        -14 - 84 * a 1 - 42 * a 2 - 20 * a 3 - 8 * a 4,
        -6 - 40 * a 1 - 20 * a 2 - 10 * a 3 - 4 * a 4,
        -2 - 16 * a 1 - 8 * a 2 - 4 * a 3 - 2 * a 4] : Fin 5 → ℝ) i / 8 := ex_corr i a

theorem v2 {α : Type*} (a b c d e : α) : (![a, b, c, d, e] : Fin 5 → α) 2 = c := rfl
theorem v3 {α : Type*} (a b c d e : α) : (![a, b, c, d, e] : Fin 5 → α) 3 = d := rfl
theorem v4 {α : Type*} (a b c d e : α) : (![a, b, c, d, e] : Fin 5 → α) 4 = e := rfl

/-- The keep mask in terms of the residual. -/
theorem keep_eq {T : Fin (nb + 1) → ZMod n → ℝ} {psd : ZMod n → ℝ} {fs : ℝ} {F : Filt n nb}
    (hF : setup T psd fs = .ok F) (hpsd : ∀ f, f ≠ 0 → 0 < psd f) (hfs : 0 < fs)
    (p : ZMod n → ℝ) (t : ZMod n) (c : Fin (nb + 1) → ℤ) (a : Fin (nb + 1) → ℝ) (i : Fin (nb + 1)) :
    keep (fullPt F t) c (pinv (fullPt F t) *ᵥ qt F.phi p t) a i =
      !(disallowed a c i && disallowed (fun i => ipR (noise psd fs) (delayed T t i)
        (resTrace p (delayed T t) fun i => if disallowed a c i then 0 else a i)) c i) := by
  unfold keep
  simp only [neg_grad hF hpsd hfs]

def exA0 : Fin 5 → ℝ := ![1, -1, 1, 1, 1]
def exA1 : Fin 5 → ℝ := ![1, 0, -1, 1, 1]
def exA2 : Fin 5 → ℝ := ![1, 0, 0, -1, 1]
def exA3 : Fin 5 → ℝ := ![1, 0, 0, 0, -1]

theorem ex_a0 (t : ZMod 8) : pinv (fullPt exF t) *ᵥ qt exF.phi exP t = exA0 := by
  rw [fullPt_eq exF_setup, qt_setup exF_setup, ex_delayed]
  refine lsq_explicit (noise_pos (by norm_num) exPsd_pos (by norm_num)) ex_indep fun i => ?_
  rw [ex_corr]
  fin_cases i <;> norm_num [exA0, v2, v3, v4]

theorem ex_dis0 : disallowed exA0 exC = ![false, true, false, false, false] := by
  funext i
  fin_cases i
  · exact disallowed_false (by norm_num [exA0, exC, v2, v3, v4])
  · exact disallowed_true (by norm_num [exA0, exC, v2, v3, v4])
  · exact disallowed_false (by norm_num [exA0, exC, v2, v3, v4])
  · exact disallowed_false (by norm_num [exA0, exC, v2, v3, v4])
  · exact disallowed_false (by norm_num [exA0, exC, v2, v3, v4])

theorem ex_dis1 : disallowed exA1 exC = ![false, true, true, false, false] := by
  funext i
  fin_cases i
  · exact disallowed_false (by norm_num [exA1, exC, v2, v3, v4])
  · exact disallowed_true (by norm_num [exA1, exC, v2, v3, v4])
  · exact disallowed_true (by norm_num [exA1, exC, v2, v3, v4])
  · exact disallowed_false (by norm_num [exA1, exC, v2, v3, v4])
  · exact disallowed_false (by norm_num [exA1, exC, v2, v3, v4])

theorem ex_dis2 : disallowed exA2 exC = ![false, true, true, true, false] := by
  funext i
  fin_cases i
  · exact disallowed_false (by norm_num [exA2, exC, v2, v3, v4])
  · exact disallowed_true (by norm_num [exA2, exC, v2, v3, v4])
  · exact disallowed_true (by norm_num [exA2, exC, v2, v3, v4])
  · exact disallowed_true (by norm_num [exA2, exC, v2, v3, v4])
  · exact disallowed_false (by norm_num [exA2, exC, v2, v3, v4])

theorem ex_m1 (t : ZMod 8) :
    keep (fullPt exF t) exC exA0 exA0 = ![true, false, true, true, true] := by
  funext i
  conv_lhs => rw [show exA0 = pinv (fullPt exF t) *ᵥ qt exF.phi exP t from (ex_a0 t).symm]
  rw [keep_eq exF_setup exPsd_pos (by norm_num), ex_a0, ex_dis0, ex_delayed]
  simp only [ex_corr']
  fin_cases i
  · rfl
  · rw [disallowed_true (by left; norm_num [exA0, exC, v2, v3, v4])]; rfl
  · rfl
  · rfl
  · rfl

theorem ex_m2 (t : ZMod 8) :
    keep (fullPt exF t) exC exA0 exA1 = ![true, false, false, true, true] := by
  funext i
  conv_lhs => rw [show exA0 = pinv (fullPt exF t) *ᵥ qt exF.phi exP t from (ex_a0 t).symm]
  rw [keep_eq exF_setup exPsd_pos (by norm_num), ex_dis1, ex_delayed]
  simp only [ex_corr']
  fin_cases i
  · rfl
  · rw [disallowed_true (by left; norm_num [exA1, exC, v2, v3, v4])]; rfl
  · rw [disallowed_true (by left; norm_num [exA1, exC, v2, v3, v4])]; rfl
  · rfl
  · rfl

theorem ex_fit1 (t : ZMod 8) : maskFit exF exP t ![true, false, true, true, true] = .ok exA1 := by
  refine maskFit_explicit exF_setup exPsd_pos (by norm_num) (by rw [ex_delayed]; exact ex_indep)
    (by decide) (fun i => ?_) (fun i => ?_)
  · fin_cases i <;> norm_num [exA1, v2, v3, v4]
  · rw [ex_delayed, ex_corr]
    fin_cases i <;> norm_num [exA1, v2, v3, v4]

theorem ex_fit2 (t : ZMod 8) : maskFit exF exP t ![true, false, false, true, true] = .ok exA2 := by
  refine maskFit_explicit exF_setup exPsd_pos (by norm_num) (by rw [ex_delayed]; exact ex_indep)
    (by decide) (fun i => ?_) (fun i => ?_)
  · fin_cases i <;> norm_num [exA2, v2, v3, v4]
  · rw [ex_delayed, ex_corr]
    fin_cases i <;> norm_num [exA2, v2, v3, v4]

theorem ex_fit3 (t : ZMod 8) : maskFit exF exP t ![true, false, false, false, true] = .ok exA3 := by
  refine maskFit_explicit exF_setup exPsd_pos (by norm_num) (by rw [ex_delayed]; exact ex_indep)
    (by decide) (fun i => ?_) (fun i => ?_)
  · fin_cases i <;> norm_num [exA3, v2, v3, v4]
  · rw [ex_delayed, ex_corr]
    fin_cases i <;> norm_num [exA3, v2, v3, v4]

/-- The polarity loop of `of_nsmb_con` ends with a negative amplitude for the last background. -/
theorem ex_conStep (t : ZMod 8) : conStep exF exP exC t = .ok exA3 := by
  unfold conStep
  rw [if_neg (by norm_num)]
  simp only [ex_a0, ex_m1, ex_fit1, ex_m2]
  rw [if_neg (by decide)]
  simp only [ex_fit2]
  have h3 : (fun i => !disallowed exA2 exC i) = ![true, false, false, false, true] := by
    rw [ex_dis2]; decide
  rw [h3, if_neg (by decide), ex_fit3]

theorem ex_conAmps (t : ZMod 8) : conAmps exF exP exC t = exA3 := by
  unfold conAmps
  rw [ex_conStep]

theorem ex_firstErr : firstErr exF exP exC = none := by
  unfold firstErr
  rw [List.findSome?_eq_none_iff]
  intro ii _
  rw [ex_conStep]

/-- The interpolation at index 3 does not raise `TypeError` (the three chi2 are equal). -/
theorem ex_interp : ∃ _ : Unit, interpchi2 3 ((List.range 8).map fun (k : ℕ) =>
      ((k : ℝ) * (1 / 8), conChi2 exF exP (k : ZMod 8) (conAmps exF exP exC (k : ZMod 8)),
        conAmps exF exP exC (k : ZMod 8) 0)) = .error .nan := by
  refine ⟨(), ?_⟩
  have hchi : ∀ k : ℕ, conChi2 exF exP (k : ZMod 8) exA3 = conChi2 exF exP 0 exA3 := by
    intro t
    rw [conChi2, conChi2, qt_setup exF_setup, qt_setup exF_setup, ex_delayed,
      ex_delayed]
  simp only [ex_conAmps, hchi]
  generalize conChi2 exF exP 0 exA3 = y
  generalize exA3 0 = a
  have : List.range 8 = [0, 1, 2, 3, 4, 5, 6, 7] := rfl
  rw [this]
  unfold interpchi2
  simp only [List.map_cons, List.map_nil, List.length_cons, List.length_nil]
  have e1 : Np.clipIdx 8 (3 + 2) = 5 := by decide
  have e2 : Np.clipIdx 8 (3 - 1) = 2 := by decide
  simp only [e1, e2, List.take_succ_cons, List.take_zero, List.drop_succ_cons, List.drop_zero,
    Nat.reduceAdd]
  rw [if_neg (by norm_num)]
  have hz : ∀ x0 x1 x2 : ℝ, (polyfit3 (x0, y) (x1, y) (x2, y)).1 = 0 := by
    intro x0 x1 x2
    simp [polyfit3]
  rw [if_pos (hz _ _ _)]

theorem w2 {α : Type*} (a b c d : α) : (![a, b, c, d] : Fin 4 → α) 2 = c := rfl
theorem w3 {α : Type*} (a b c d : α) : (![a, b, c, d] : Fin 4 → α) 3 = d := rfl

/-- The backgrounds alone. -/
theorem exMb_corr (i : Fin 4) (a : Fin 4 → ℝ) :
    ipR (noise exPsd 8) (exT i.succ) (resTrace exP (fun i : Fin 4 => exT i.succ) a) =
      (![(8 : ℝ),
        -30 - 170 * a 0 - 84 * a 1 - 40 * a 2 - 16 * a 3,
        -14 - 84 * a 0 - 42 * a 1 - 20 * a 2 - 8 * a 3,
        -6 - 40 * a 0 - 20 * a 1 - 10 * a 2 - 4 * a 3,
        -2 - 16 * a 0 - 8 * a 1 - 4 * a 2 - 2 * a 3] : Fin 5 → ℝ) i.succ / 8 := by
  have h : resTrace exP (fun i : Fin 4 => exT i.succ) a = resTrace exP exT (Fin.cons 0 a) := by
    funext τ
    unfold resTrace
    rw [Fin.sum_univ_succ (n := 4)]
    simp
  rw [h, ex_corr]
  fin_cases i <;> rfl

theorem exMb_indep : Indep (fun i : Fin 4 => exT i.succ) := by
  intro x hx
  have h := ex_indep (Fin.cons 0 x) fun τ => by
    rw [Fin.sum_univ_succ (n := 4)]
    simpa using hx τ
  funext i
  have := congrFun h i.succ
  simpa using this

theorem exMb_a0 : exF.iB *ᵥ (fun i => (∑ f, qf exF.phi exP i.succ f).re) = ![-1, 1, 1, 1] := by
  obtain ⟨-, -, -, -, -, -, -, -, hB, hiB⟩ := setup_ok exF_setup
  rw [hiB, hB, bsum_eq exF_setup]
  refine lsq_explicit (noise_pos (by norm_num) exPsd_pos (by norm_num)) exMb_indep fun i => ?_
  rw [exMb_corr]
  fin_cases i <;> norm_num [w2, w3, v2, v3, v4]

end Verif.Nsmb
