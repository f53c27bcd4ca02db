import Verif.DidvErrEx

/-!
Property C153: the covariances which the dI/dV fits report.  To first order in the noise, the fitted parameters scatter about the truth
with the reported covariances times two: every measurement is fitted both at its frequency and at the opposite one, where its spectrum
is the complex conjugate, and so counts twice.
-/

namespace Verif.Device
open Verif Verif.Dft Verif.Didv Verif.NonLin MeasureTheory Filter Topology

section
variable {o : Obj} {n : ℕ} [NeZero n] {W : ZMod n → ℂ} {c : Option ℝ} {f0 : ℝ} {Ω : Type*} [MeasurableSpace Ω] {μ : Measure Ω}
  [IsProbabilityMeasure μ] {noise : Ω → ZMod n → ℝ} {R : ZMod n → ℝ} {r : Ω → ℝ → Result}

/-- Fits with one pole.  Missing: that the covariances are those reported; they are twice as large. -/
theorem one_pole_errors_partial (hst : OF.Stationary μ noise R) (hm : Mirrored o c R) (hf : DrivenBelow o c n f0 3) {A t2 dt : ℝ}
    (hA : A ≠ 0) (ht2 : t2 ≠ 0) (hW : Delayed o.fs W (fun f => onePoleY f A t2) dt)
    (h : Approaching o W noise R 1 c [A, t2, dt] r) : Doubled μ 3 [A, t2, dt] r := by
  have hl : [A, t2, dt] = List.ofFn ![A, t2, dt] := by simp [List.ofFn_succ]
  rw [hl] at h ⊢
  exact one_doubled hst hm hf (x := ![A, t2, dt]) hA ht2 hW h

/-- Fits with two poles.  Missing: that the covariances are those reported; they are twice as large. -/
theorem two_pole_errors_partial (hst : OF.Stationary μ noise R) (hm : Mirrored o c R) (hf : DrivenBelow o c n f0 5)
    {A B t1 t2 dt : ℝ} (hA : A ≠ 0) (hB : B ≠ 0) (ht1 : t1 ≠ 0) (ht2 : t2 ≠ 0)
    (hW : Delayed o.fs W (fun f => twoPoleY f A B t1 t2) dt) (h : Approaching o W noise R 2 c [A, B, t1, t2, dt] r) :
    Doubled μ 5 [A, B, t1, t2, dt] r := by
  have hl : [A, B, t1, t2, dt] = List.ofFn ![A, B, t1, t2, dt] := by simp [List.ofFn_succ]
  rw [hl] at h ⊢
  exact two_doubled hst hm hf (x := ![A, B, t1, t2, dt]) hA hB ht1 ht2 hW h

/-- Fits with three poles.  Missing: that the covariances are those reported; they are twice as large. -/
theorem three_pole_errors_partial (hst : OF.Stationary μ noise R) (hm : Mirrored o c R) (hf : DrivenBelow o c n f0 7)
    {A B K t1 t2 t3 dt : ℝ} (hA : A ≠ 0) (hB : B ≠ 0) (hK : K ≠ 0) (ht1 : t1 ≠ 0) (ht2 : t2 ≠ 0) (ht3 : t3 ≠ 0)
    (hW : Delayed o.fs W (fun f => threePoleY f A B K t1 t2 t3) dt)
    (h : Approaching o W noise R 3 c [A, B, K, t1, t2, t3, dt] r) : Doubled μ 7 [A, B, K, t1, t2, t3, dt] r := by
  have hl : [A, B, K, t1, t2, t3, dt] = List.ofFn ![A, B, K, t1, t2, t3, dt] := by simp [List.ofFn_succ]
  rw [hl] at h ⊢
  exact three_doubled hst hm hf (x := ![A, B, K, t1, t2, t3, dt]) hA hB hK ht1 ht2 ht3 hW h

end

/-- A detector meets the hypotheses, with each number of poles. -/
example : OF.Stationary (throws 64) (jolt 64 1) errCorr ∧ Mirrored errObj none errCorr ∧ DrivenBelow errObj none 64 1 7 ∧
    (∃ W r, Delayed errObj.fs W (fun f => onePoleY f 2 1) 0 ∧ Approaching errObj W (jolt 64 1) errCorr 1 none [2, 1, 0] r) ∧
    (∃ W r, Delayed errObj.fs W (fun f => twoPoleY f 1 1 1 1) 0 ∧ Approaching errObj W (jolt 64 1) errCorr 2 none [1, 1, 1, 1, 0] r) ∧
    ∃ W r, Delayed errObj.fs W (fun f => threePoleY f 1 1 (1 / 2) 1 1 1) 0 ∧
      Approaching errObj W (jolt 64 1) errCorr 3 none [1, 1, 1 / 2, 1, 1, 1, 0] r :=
  ⟨errCorr_stationary, err_mirrored, err_driven (by norm_num), one_approaching, two_approaching, three_approaching⟩

/-- Contrary to C153 the reported errors of dI/dV fits are too small by the square root of two: with correct error bars of the averages,
stationary noise and an optimiser which does its work, no parameter has a variance as small as the one reported.  The fit uses the bins
of negative frequencies, which are the complex conjugates of the others, as if they were further measurements. -/
theorem reported_errors_violated :
    (∃ W r, Delayed errObj.fs W (fun f => onePoleY f 2 1) 0 ∧ Approaching errObj W (jolt 64 1) errCorr 1 none [2, 1, 0] r ∧
      ¬Covered (throws 64) 3 [2, 1, 0] r) ∧
    (∃ W r, Delayed errObj.fs W (fun f => twoPoleY f 1 1 1 1) 0 ∧ Approaching errObj W (jolt 64 1) errCorr 2 none [1, 1, 1, 1, 0] r ∧
      ¬Covered (throws 64) 5 [1, 1, 1, 1, 0] r) ∧
    ∃ W r, Delayed errObj.fs W (fun f => threePoleY f 1 1 (1 / 2) 1 1 1) 0 ∧
      Approaching errObj W (jolt 64 1) errCorr 3 none [1, 1, 1 / 2, 1, 1, 1, 0] r ∧ ¬Covered (throws 64) 7 [1, 1, 1 / 2, 1, 1, 1, 0] r := by
  obtain ⟨W1, r1, h1, h1'⟩ := one_approaching
  obtain ⟨W2, r2, h2, h2'⟩ := two_approaching
  obtain ⟨W3, r3, h3, h3'⟩ := three_approaching
  exact ⟨⟨W1, r1, h1, h1', not_covered (one_pole_errors_partial errCorr_stationary err_mirrored (err_driven (by norm_num))
      (by norm_num) (by norm_num) h1 h1')⟩,
    ⟨W2, r2, h2, h2', not_covered (two_pole_errors_partial errCorr_stationary err_mirrored (err_driven (by norm_num))
      (by norm_num) (by norm_num) (by norm_num) (by norm_num) h2 h2')⟩,
    ⟨W3, r3, h3, h3', not_covered (three_pole_errors_partial errCorr_stationary err_mirrored (err_driven (by norm_num))
      (by norm_num) (by norm_num) (by norm_num) (by norm_num) (by norm_num) (by norm_num) h3 h3')⟩⟩

end Verif.Device
