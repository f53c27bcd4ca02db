import Verif.DidvBeliefEx

/-!
Property C155: the covariances which dI/dV fits with priors report.  The fit weighs every measurement twice, at its frequency and at the
opposite one, but every prior once.  To first order in the errors of the averages and of the priors, the parameters scatter about the
truth by more than reported.
-/

namespace Verif.Device
open Verif Verif.Dft Verif.Didv MeasureTheory Filter Topology

section
variable {o : Obj} {n : ℕ} [NeZero n] {W : ZMod n → ℂ} {c : Option ℝ} {f0 : ℝ} {Ω : Type*} [MeasurableSpace Ω] {μ : Measure Ω}
  [IsProbabilityMeasure μ] {noise : Ω → ZMod n → ℝ} {R : ZMod n → ℝ} {r : Ω → ℝ → PResult}

/-- Fits with one pole and a prior on the shunt resistance (and possibly on more).  Missing: that the covariances are those reported. -/
theorem one_pole_prior_errors_partial (hst : OF.Stationary μ noise R) (hm : Mirrored o c R) (hf : DrivenBelow o c n f0 3)
    {σ : Fin 4 → ℝ} {g : Ω → Fin 4 → ℝ} (hg : FairPriors μ noise σ g) (hσ : σ 0 ≠ 0) {rp L dt : ℝ} (hrsh : 0 < o.rsh) (hrp : 0 < rp)
    (hL : 0 < L) (hW : Responds o W (fun f => docOne f o.rsh rp L) dt)
    (h : ApproachingP o W noise R 1 c [o.rsh, rp, L, dt] σ g r) : Overconfident μ [o.rsh, rp, L, dt] σ r := by
  have hl : [o.rsh, rp, L, dt] = List.ofFn ![o.rsh, rp, L, dt] := by simp [List.ofFn_succ]
  rw [hl] at h ⊢
  exact overconfident_of hrsh (p1_family hf (x := ![o.rsh, rp, L, dt]) rfl (by
    intro i hi
    fin_cases i
    exacts [hrsh, hrp, hL, absurd hi (by simp)]) hσ hW) (by simp [nParams]) p1_conj hst hm hg h

/-- Fits with two poles and priors on the three resistances (and possibly on more).  Missing: that the covariances are those
reported. -/
theorem two_pole_prior_errors_partial (hst : OF.Stationary μ noise R) (hm : Mirrored o c R) (hf : DrivenBelow o c n f0 5)
    {σ : Fin 8 → ℝ} {g : Ω → Fin 8 → ℝ} (hg : FairPriors μ noise σ g) (hσ : σ 0 ≠ 0 ∧ σ 1 ≠ 0 ∧ σ 2 ≠ 0) {rp r0 beta l L tau0 dt : ℝ}
    (hrsh : 0 < o.rsh) (hrp : 0 < rp) (hr0 : 0 < r0) (hbeta : 0 < beta) (hl : 0 < l) (hl1 : l ≠ 1) (hL : 0 < L) (htau0 : 0 < tau0)
    (hW : Responds o W (fun f => docTwo f o.rsh rp r0 beta l L tau0) dt)
    (h : ApproachingP o W noise R 2 c [o.rsh, rp, r0, beta, l, L, tau0, dt] σ g r) :
    Overconfident μ [o.rsh, rp, r0, beta, l, L, tau0, dt] σ r := by
  have hx : [o.rsh, rp, r0, beta, l, L, tau0, dt] = List.ofFn ![o.rsh, rp, r0, beta, l, L, tau0, dt] := by simp [List.ofFn_succ]
  rw [hx] at h ⊢
  exact overconfident_of hrsh (p2_family hf (x := ![o.rsh, rp, r0, beta, l, L, tau0, dt]) rfl (by
    intro i hi
    fin_cases i
    exacts [hrsh, hrp, hr0, hbeta, hl, hL, htau0, absurd hi (by simp)]) hl1 hσ hW) (by simp [nParams]) p2_conj hst hm hg h

/-- Fits with three poles and priors on the three resistances (and possibly on more).  Missing: that the covariances are those
reported. -/
theorem three_pole_prior_errors_partial (hst : OF.Stationary μ noise R) (hm : Mirrored o c R) (hf : DrivenBelow o c n f0 7)
    {σ : Fin 10 → ℝ} {g : Ω → Fin 10 → ℝ} (hg : FairPriors μ noise σ g) (hσ : σ 0 ≠ 0 ∧ σ 1 ≠ 0 ∧ σ 2 ≠ 0)
    {rp r0 beta l L tau0 gratio tau3 dt : ℝ} (hrsh : 0 < o.rsh) (hrp : 0 < rp) (hr0 : 0 < r0) (hbeta : 0 < beta) (hl : 0 < l)
    (hl1 : l ≠ 1) (hL : 0 < L) (htau0 : 0 < tau0) (hgr : 0 < gratio) (htau3 : 0 < tau3)
    (hd : ∀ k : ZMod n, docThreeDen (fftfreq o.fs k) l tau0 gratio tau3 ≠ 0)
    (hW : Responds o W (fun f => docThree f o.rsh rp r0 beta l L tau0 gratio tau3) dt)
    (h : ApproachingP o W noise R 3 c [o.rsh, rp, r0, beta, l, L, tau0, gratio, tau3, dt] σ g r) :
    Overconfident μ [o.rsh, rp, r0, beta, l, L, tau0, gratio, tau3, dt] σ r := by
  have hx : [o.rsh, rp, r0, beta, l, L, tau0, gratio, tau3, dt] = List.ofFn ![o.rsh, rp, r0, beta, l, L, tau0, gratio, tau3, dt] := by
    simp [List.ofFn_succ]
  rw [hx] at h ⊢
  exact overconfident_of hrsh (p3_family hf (x := ![o.rsh, rp, r0, beta, l, L, tau0, gratio, tau3, dt]) rfl (by
    intro i hi
    fin_cases i
    exacts [hrsh, hrp, hr0, hbeta, hl, hL, htau0, hgr, htau3, absurd hi (by simp)]) hl1 hσ hd hW) (by simp [nParams]) p3_conj hst hm hg h

end

/-- A detector meets the hypotheses, with each number of poles; of one to three parameters something is known, and the errors of the
priors are one standard deviation to either side. -/
example : OF.Stationary (throws 64) (jolt 64 1) errCorr ∧ Mirrored errObj none errCorr ∧ DrivenBelow errObj none 64 1 7 ∧
    FairPriors (throws 64) (jolt 64 1) (known 4 1) (leanings 4) ∧ FairPriors (throws 64) (jolt 64 1) (known 8 3) (leanings 8) ∧
    FairPriors (throws 64) (jolt 64 1) (known 10 3) (leanings 10) ∧
    (∃ W r, Responds errObj W (fun f => docOne f errObj.rsh 1 1) 0 ∧
      ApproachingP errObj W (jolt 64 1) errCorr 1 none [errObj.rsh, 1, 1, 0] (known 4 1) (leanings 4) r) ∧
    (∃ W r, Responds errObj W (fun f => docTwo f errObj.rsh 1 1 1 (1 / 2) 1 1) 0 ∧
      ApproachingP errObj W (jolt 64 1) errCorr 2 none [errObj.rsh, 1, 1, 1, 1 / 2, 1, 1, 0] (known 8 3) (leanings 8) r) ∧
    (∀ f, docThreeDen f (1 / 2) 1 (1 / 4) 1 ≠ 0) ∧ ∃ W r, Responds errObj W (fun f => docThree f errObj.rsh 1 1 1 (1 / 2) 1 1 (1 / 4) 1) 0 ∧
      ApproachingP errObj W (jolt 64 1) errCorr 3 none [errObj.rsh, 1, 1, 1, 1 / 2, 1, 1, 1 / 4, 1, 0] (known 10 3) (leanings 10) r :=
  ⟨errCorr_stationary, err_mirrored, err_driven (by norm_num), fair_leanings (by norm_num), fair_leanings (by norm_num),
    fair_leanings (by norm_num), believed_one, believed_two, fun f => ne_of_re (demo_den_re f), believed_three⟩

/-- Contrary to C155 dI/dV fits with priors report too small errors: with correct error bars of the averages, correct standard deviations
of the priors and a minimiser which does its work, some variances are larger than reported (those of the parameters without prior).  The data
enter twice, at positive and at negative frequencies, and the priors once, so that the result is not the best compromise either. -/
theorem prior_errors_violated :
    (∃ W r, Responds errObj W (fun f => docOne f errObj.rsh 1 1) 0 ∧
      ApproachingP errObj W (jolt 64 1) errCorr 1 none [errObj.rsh, 1, 1, 0] (known 4 1) (leanings 4) r ∧
      ¬CoveredP (d := 4) (throws 64) [errObj.rsh, 1, 1, 0] r) ∧
    (∃ W r, Responds errObj W (fun f => docTwo f errObj.rsh 1 1 1 (1 / 2) 1 1) 0 ∧
      ApproachingP errObj W (jolt 64 1) errCorr 2 none [errObj.rsh, 1, 1, 1, 1 / 2, 1, 1, 0] (known 8 3) (leanings 8) r ∧
      ¬CoveredP (d := 8) (throws 64) [errObj.rsh, 1, 1, 1, 1 / 2, 1, 1, 0] r) ∧
    ∃ W r, Responds errObj W (fun f => docThree f errObj.rsh 1 1 1 (1 / 2) 1 1 (1 / 4) 1) 0 ∧
      ApproachingP errObj W (jolt 64 1) errCorr 3 none [errObj.rsh, 1, 1, 1, 1 / 2, 1, 1, 1 / 4, 1, 0] (known 10 3) (leanings 10) r ∧
      ¬CoveredP (d := 10) (throws 64) [errObj.rsh, 1, 1, 1, 1 / 2, 1, 1, 1 / 4, 1, 0] r := by
  obtain ⟨W1, r1, h1, h1'⟩ := believed_one
  obtain ⟨W2, r2, h2, h2'⟩ := believed_two
  obtain ⟨W3, r3, h3, h3'⟩ := believed_three
  have hr : 0 < errObj.rsh := by norm_num [errObj]
  exact ⟨⟨W1, r1, h1, h1', not_coveredP (i := 1) (one_pole_prior_errors_partial errCorr_stationary err_mirrored (err_driven (by norm_num))
      (fair_leanings (by norm_num)) (by simp [known]) hr one_pos one_pos h1 h1') (by simp [known])⟩,
    ⟨W2, r2, h2, h2', not_coveredP (i := 3) (two_pole_prior_errors_partial errCorr_stationary err_mirrored (err_driven (by norm_num))
      (fair_leanings (by norm_num)) (by simp [known]) hr one_pos one_pos one_pos (by norm_num) (by norm_num) one_pos one_pos h2 h2')
      (by simp [known])⟩,
    ⟨W3, r3, h3, h3', not_coveredP (i := 3) (three_pole_prior_errors_partial errCorr_stationary err_mirrored (err_driven (by norm_num))
      (fair_leanings (by norm_num)) (by simp [known]) hr one_pos one_pos one_pos (by norm_num) (by norm_num) one_pos one_pos (by norm_num)
      one_pos (fun k => ne_of_re (demo_den_re _)) h3 h3') (by simp [known])⟩⟩

end Verif.Device
