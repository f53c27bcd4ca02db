import Verif.DidvPriorsSpec
import Verif.DidvObjLemmas
import Verif.DidvProps
import Verif.PinvLemmas
import Mathlib.Data.Matrix.Diagonal

/-! Helper lemmas for the fit with priors. -/

namespace Verif.Didv
open Verif Dft OF Matrix

theorem residualP_ok {pts : List Pt} {params r : List ℝ} (h : residualP pts params = .ok r) :
    ∃ Y : ℝ → ℂ, (∀ p ∈ pts, scaledY p.f params = .ok (Y p.f)) ∧
      (r.map fun v => v ^ 2 / 2).sum = (pts.map fun p => p.chi2 (Y p.f)).sum / 2 := by
  obtain ⟨Y, hY⟩ : ∃ Y : ℝ → ℂ, ∀ f y, scaledY f params = .ok y → Y f = y := by
    refine ⟨fun f => match scaledY f params with
      | .ok y => y
      | .error _ => 0, fun f y hy => ?_⟩
    simp only [hy]
  refine ⟨Y, ?_⟩
  induction pts generalizing r with
  | nil =>
    cases h
    exact ⟨(fun p hp => by cases hp), by simp⟩
  | cons q ps ih =>
    simp only [residualP] at h
    cases hc : scaledY q.f params with
    | error e => rw [hc] at h; cases h
    | ok c =>
      cases hr : residualP ps params with
      | error e => rw [hc, hr] at h; cases h
      | ok r' =>
        rw [hc, hr] at h
        simp only at h
        by_cases h0 : q.err.re = 0 ∨ q.err.im = 0
        · rw [if_pos h0] at h; cases h
        · rw [if_neg h0] at h
          cases h
          obtain ⟨i1, i2⟩ := ih hr
          have hYc := hY q.f c hc
          refine ⟨fun p hp => ?_, ?_⟩
          · rcases List.mem_cons.1 hp with rfl | hp
            · rw [hc, hYc]
            · exact i1 p hp
          · simp only [List.map_cons, List.sum_cons, i2, Pt.chi2, hYc, Complex.sub_re, Complex.sub_im]
            ring

theorem residualP_defined {pts : List Pt} {params : List ℝ} (hw : Weighted pts)
    (hy : ∀ p ∈ pts, ∃ y, scaledY p.f params = .ok y) : ∃ r, residualP pts params = .ok r := by
  induction pts with
  | nil => exact ⟨_, rfl⟩
  | cons q ps ih =>
    obtain ⟨r, hr⟩ := ih (fun p hp => hw p (List.mem_cons_of_mem _ hp))
      (fun p hp => hy p (List.mem_cons_of_mem _ hp))
    obtain ⟨y, hy⟩ := hy q List.mem_cons_self
    obtain ⟨w1, w2⟩ := hw q List.mem_cons_self
    simp only [residualP, hr, hy]
    rw [if_neg (by simp [w1, w2])]
    exact ⟨_, rfl⟩

theorem residualP_nan {pts : List Pt} {params : List ℝ} {e : Err} (h : residualP pts params = .error e) :
    e = .nan := by
  induction pts with
  | nil => cases h
  | cons q ps ih =>
    simp only [residualP] at h
    cases hc : scaledY q.f params with
    | error e' =>
      have he : e' = .nan := by
        unfold scaledY at hc
        split at hc
        · cases hc; rfl
        · cases hc
      rw [hc] at h
      cases hr : residualP ps params <;> rw [hr] at h <;> cases h <;> exact he
    | ok c =>
      cases hr : residualP ps params with
      | error e' => rw [hc, hr] at h; cases h; exact ih hr
      | ok r' =>
        rw [hc, hr] at h
        simp only at h
        split_ifs at h
        cases h
        rfl

/-! ### The pseudo-inverse of a covariance -/

section
variable {ι : Type*} [Fintype ι]

theorem pinv_symm {A : Matrix ι ι ℝ} (hA : Aᵀ = A) : (pinv A)ᵀ = pinv A := by
  have h := isPinv_pinv hA
  have h' : IsPinv A (pinv A)ᵀ := by
    refine ⟨?_, ?_, ?_, ?_⟩
    · have := congrArg Matrix.transpose h.axa
      rw [Matrix.transpose_mul, Matrix.transpose_mul, hA] at this
      rw [Matrix.mul_assoc]
      exact this
    · have := congrArg Matrix.transpose h.xax
      rw [Matrix.transpose_mul, Matrix.transpose_mul, hA] at this
      rw [Matrix.mul_assoc]
      exact this
    · rw [Matrix.transpose_mul, Matrix.transpose_transpose, hA]
      have := h.xa
      rw [Matrix.transpose_mul, hA] at this
      exact this.symm
    · rw [Matrix.transpose_mul, Matrix.transpose_transpose, hA]
      have := h.ax
      rw [Matrix.transpose_mul, hA] at this
      exact this.symm
  exact h'.unique h

/-- The pseudo-inverse of a non-negative form is a non-negative form. -/
theorem pinv_nonneg {A : Matrix ι ι ℝ} (hA : Aᵀ = A) (hp : ∀ v, 0 ≤ v ⬝ᵥ (A *ᵥ v)) (v : ι → ℝ) :
    0 ≤ (v ᵥ* pinv A) ⬝ᵥ v := by
  have h := isPinv_pinv hA
  have h1 : (v ᵥ* pinv A) ⬝ᵥ v = (pinv A *ᵥ v) ⬝ᵥ (A *ᵥ (pinv A *ᵥ v)) := by
    rw [Matrix.mulVec_mulVec]
    have e1 : pinv A *ᵥ v = v ᵥ* pinv A := by
      rw [← Matrix.vecMul_transpose, pinv_symm hA]
    rw [e1, ← Matrix.dotProduct_mulVec, ← Matrix.dotProduct_mulVec, Matrix.mulVec_mulVec, ← Matrix.mul_assoc,
      h.xax]
  rw [h1]
  exact hp _

/-- A direction without variance has no weight. -/
theorem pinv_ker {A : Matrix ι ι ℝ} (hA : Aᵀ = A) {e : ι → ℝ} (he : A *ᵥ e = 0) : pinv A *ᵥ e = 0 := by
  have h := isPinv_pinv hA
  have h1 : A * pinv A = pinv A * A := by
    have := h.ax
    rw [Matrix.transpose_mul, hA, pinv_symm hA] at this
    exact this.symm
  rw [← h.xax, Matrix.mul_assoc, h1, ← Matrix.mulVec_mulVec, ← Matrix.mulVec_mulVec, he]
  simp

theorem pinv_diagonal [DecidableEq ι] (s : ι → ℝ) :
    pinv (Matrix.diagonal s) = Matrix.diagonal fun i => (s i)⁻¹ := by
  have hs : (Matrix.diagonal s)ᵀ = Matrix.diagonal s := Matrix.diagonal_transpose s
  have h : IsPinv (Matrix.diagonal s) (Matrix.diagonal fun i => (s i)⁻¹) := by
    refine ⟨?_, ?_, ?_, ?_⟩
    · rw [Matrix.diagonal_mul_diagonal, Matrix.diagonal_mul_diagonal]
      congr 1
      funext i
      by_cases h : s i = 0
      · simp [h]
      · rw [mul_inv_cancel₀ h, one_mul]
    · rw [Matrix.diagonal_mul_diagonal, Matrix.diagonal_mul_diagonal]
      congr 1
      funext i
      by_cases h : s i = 0
      · simp [h]
      · rw [inv_mul_cancel₀ h, one_mul]
    · rw [Matrix.diagonal_mul_diagonal, Matrix.diagonal_transpose]
    · rw [Matrix.diagonal_mul_diagonal, Matrix.diagonal_transpose]
  exact (isPinv_pinv hs).unique h

end

theorem runFitP_ok {x : Ext} {mn : Minimiser} {o : Obj} {p : Proc} {k : ℤ} {priors : List ℝ} {pc : Cov}
    {fcut : Option ℝ} {r : PResult} (h : runFitP x mn o p k priors pc fcut = .ok r) :
    ∃ guess, guessPriors x o p k fcut priors = .ok guess ∧ priors.length = nParams k ∧
      pc.d = nParams k ∧
      let out := mn (nll k (fitPtsP o p fcut) priors ⟨pc.d, pinv pc.m⟩) (mixGuess guess priors)
      r.params = out.x ∧ out.cov = some r.cov ∧ r.cost = out.fval ∧ r.priors = priors ∧
        r.priorscov = pc ∧ r.errors = (diagOf r.cov).map Real.sqrt ∧
        (∃ y, complexadmittance 0 (sspArgs r.params) = .ok y ∧ r.didv0 = y.re) ∧
        ∃ q, convertFrom r.params = .ok q ∧ findPoleFallTimes x.fsolve2 x.fsolve3 q = .ok r.falltimes := by
  unfold runFitP at h
  split at h
  · cases h
  · rename_i guess hg
    refine ⟨guess, hg, ?_⟩
    dsimp only at h
    split at h
    · cases h
    · rename_i hv
      have hlen : ¬ ((mixGuess guess priors).length ≠ nParams k ∨
          priors.length ≠ (mixGuess guess priors).length ∨ pc.d ≠ (mixGuess guess priors).length) := by
        intro hl
        apply hv
        unfold nll
        exact if_pos hl
      simp only [not_or, not_not] at hlen
      refine ⟨by rw [hlen.2.1, hlen.1], by rw [hlen.2.2, hlen.1], ?_⟩
      split at h
      · cases h
      · rename_i q hq
        split at h
        · cases h
        · rename_i ft hft
          unfold fitResultP at h
          split at h
          · cases h
          · rename_i c hc
            split_ifs at h
            cases hy : complexadmittance 0 (sspArgs (mn (nll k (fitPtsP o p fcut) priors
                ⟨pc.d, pinv pc.m⟩) (mixGuess guess priors)).x) with
            | error e => rw [hy] at h; cases h
            | ok y =>
              rw [hy] at h
              have := Except.ok.inj h
              subst this
              exact ⟨rfl, hc, rfl, rfl, rfl, rfl, ⟨y, hy, rfl⟩, q, hq, hft⟩

theorem guessPriors_poles {x : Ext} {o : Obj} {p : Proc} {k : ℤ} {fcut : Option ℝ} {priors g : List ℝ}
    (h : guessPriors x o p k fcut priors = .ok g) : k = 1 ∨ k = 2 ∨ k = 3 := by
  by_contra hk
  simp only [not_or] at hk
  unfold guessPriors at h
  split at h
  · cases h
  · split at h
    · cases h
    · rename_i q hd
      simp [fitresult, hk.1, hk.2.1, hk.2.2] at h

theorem convertTo_last {params s : List ℝ} {rsh r0 rp : ℝ} (h : convertTo params rsh r0 rp = .ok s) :
    s.getLast? = params.getLast? ∧ s ≠ [] := by
  unfold convertTo at h
  split at h
  · cases h; simp
  · dsimp only at h
    split_ifs at h
    cases h; simp
  · dsimp only at h
    split_ifs at h
    cases h; simp
  · cases h

theorem dofit_found {x : Ext} {g : Obj} {k : ℤ} {c : Option ℝ} (h : (dofit x g k c).1 = .ok ()) :
    ∃ r, fitresult (dofit x g k c).2 k = .found r ∧ r.ssp.getLast? = r.params.getLast? ∧ r.ssp ≠ [] := by
  have key : ∀ (o : Obj) (p : Proc) (poles : ℕ) (r : Result), runFit x o p poles c = .ok r →
      r.ssp.getLast? = r.params.getLast? ∧ r.ssp ≠ [] := by
    intro o p poles r hr
    obtain ⟨A0, B0, C0, t1, t2, t3, dt, sub1, params, cov, cost, ft, _, _, _, hres⟩ := runFit_ok hr
    obtain ⟨hp, hc, _⟩ := fitResult_params hres
    rw [hp]
    exact convertTo_last hc
  rcases dofit_cases x g k c with ⟨e, h'⟩ | ⟨p, r, _, rfl, hf, h'⟩ | ⟨p, r, _, rfl, hf, h'⟩ |
    ⟨p, r, _, rfl, hf, h'⟩
  · rw [h'] at h; cases h
  all_goals
    rw [h']
    exact ⟨r, rfl, key _ _ _ _ hf⟩

theorem nParams_shape {k : ℤ} {d : ℕ} (hk : k = 1 ∨ k = 2 ∨ k = 3) (hd : d = nParams k) : Shape k d := by
  subst hd
  rcases hk with rfl | rfl | rfl
  · exact .inl ⟨rfl, rfl⟩
  · exact .inr (.inl ⟨rfl, rfl⟩)
  · exact .inr (.inr ⟨rfl, rfl⟩)

theorem Shape.length {k : ℤ} {d : ℕ} (h : Shape k d) : d = nParams k := by
  rcases h with ⟨rfl, rfl⟩ | ⟨rfl, rfl⟩ | ⟨rfl, rfl⟩ <;> rfl

/-- The ways `dofitP` may end. -/
theorem dofitP_cases (x : Ext) (mn : Minimiser) (o : PObj) (k : ℤ) (priors : List ℝ) (pc : Cov)
    (fcut : Option ℝ) :
    (∃ e, (dofitP x mn o k priors pc fcut).1 = .error e ∧
      ∀ j, fitresultP (dofitP x mn o k priors pc fcut).2 j = fitresultP o j) ∨
    ∃ p r, (ready o.base).proc = some p ∧ runFitP x mn (ready o.base) p k priors pc fcut = .ok r ∧
      (k = 1 ∨ k = 2 ∨ k = 3) ∧
      (∀ j, fitresultP (dofitP x mn o k priors pc fcut).2 j = if j = k then some r else fitresultP o j) ∧
      (dofitP x mn o k priors pc fcut).1 = .ok () := by
  have main : ∀ b : Obj, 
      let out : Except Err Unit × PObj := match b.proc with
        | none => (.error .typeError, { o with base := b })
        | some p =>
          match runFitP x mn b p k priors pc fcut with
          | .error e => (.error e, { o with base := b })
          | .ok r =>
            if k = 1 then (.ok (), { o with base := b, res1 := some r })
            else if k = 2 then (.ok (), { o with base := b, res2 := some r })
            else if k = 3 then (.ok (), { o with base := b, res3 := some r })
            else (.ok (), { o with base := b })
      (∃ e, out.1 = .error e ∧ ∀ j, fitresultP out.2 j = fitresultP o j) ∨
      ∃ p r, b.proc = some p ∧ runFitP x mn b p k priors pc fcut = .ok r ∧
        (k = 1 ∨ k = 2 ∨ k = 3) ∧
        (∀ j, fitresultP out.2 j = if j = k then some r else fitresultP o j) ∧ out.1 = .ok () := by
    intro b
    cases hb : b.proc with
    | none => exact .inl ⟨_, rfl, fun j => rfl⟩
    | some p =>
      dsimp only
      cases hr : runFitP x mn b p k priors pc fcut with
      | error e => exact .inl ⟨_, rfl, fun j => rfl⟩
      | ok r =>
        dsimp only
        obtain ⟨g, hg, _⟩ := runFitP_ok hr
        have hk := guessPriors_poles hg
        refine .inr ⟨p, r, rfl, hr, hk, ?_⟩
        rcases hk with rfl | rfl | rfl
        · refine ⟨fun j => ?_, by simp⟩
          simp only [fitresultP, if_true]
          split_ifs <;> rfl
        · refine ⟨fun j => ?_, by simp⟩
          simp only [fitresultP, if_true, show ¬ (2 : ℤ) = 1 by decide, if_false]
          split_ifs <;> first | rfl | omega
        · refine ⟨fun j => ?_, by simp⟩
          simp only [fitresultP, if_true, show ¬ (3 : ℤ) = 1 by decide, show ¬ (3 : ℤ) = 2 by decide,
            if_false]
          split_ifs <;> first | rfl | omega
  unfold dofitP ready
  cases hb : o.base.proc with
  | some p =>
    dsimp only
    exact main o.base
  | none =>
    dsimp only
    rcases hpr : processtraces o.base with ⟨_ | u, b⟩
    · exact .inl ⟨_, rfl, fun j => rfl⟩
    · dsimp only
      exact main b

/-! ### A concrete fit -/

/-- Two bins. -/
noncomputable def exProc : Proc := ⟨2, fun i => i, spike 1, [], fun _ => 1, fun _ => 1 + Complex.I, 0, 0⟩

/-- Solvers with fixed answers. -/
noncomputable def exExt : Ext := ⟨fun _ _ _ => ⟨[2, 1 / 2, 1 / 10], 0, .ok []⟩, fun _ p => p, fun _ p => p⟩

/-- A minimiser with a fixed answer. -/
noncomputable def exMin : Minimiser := fun _ _ => ⟨[1, 1, 1, 1 / 10], some [[4]], 0⟩

noncomputable def exPObj : PObj := ⟨{ exObj [] false (1 / 10) with proc := some exProc }, none, none, none⟩

theorem exFitPts : fitPts exProc 1 (some (1 / 4)) = [⟨0, 1, 1 + Complex.I⟩] := by
  have h0 : freqAt 2 1 0 = 0 := by
    norm_num [freqAt, fftfreq, freqIdx]
  have h1 : freqAt 2 1 1 = -1 / 2 := by
    change ((freqIdx ((1 : ℕ) : ZMod (1 + 1)) : ℤ) : ℝ) * 1 / ((1 + 1 : ℕ) : ℝ) = -1 / 2
    rw [show freqIdx ((1 : ℕ) : ZMod (1 + 1)) = -1 by decide]
    norm_num
  have e0 : ∀ c ∈ some (1 / 4 : ℝ), |freqAt exProc.nbins 1 0| < c := by
    intro c hc
    cases hc
    change |freqAt 2 1 0| < 1 / 4
    rw [h0]; norm_num
  have e1 : ¬ ∀ c ∈ some (1 / 4 : ℝ), |freqAt exProc.nbins 1 1| < c := by
    intro h
    have := h _ rfl
    change |freqAt 2 1 1| < 1 / 4 at this
    rw [h1] at this
    norm_num [abs_of_neg] at this
  unfold fitPts
  rw [show List.range exProc.nbins = [0, 1] from rfl, List.filter_cons_of_pos (by rw [decide_eq_true_eq]; exact e0),
    List.filter_cons_of_neg (by rw [decide_eq_true_eq]; exact e1), List.filter_nil]
  change [(⟨freqAt 2 1 0, 1, 1 + Complex.I⟩ : Pt)] = _
  rw [h0]

theorem exGuess : guessPriors exExt exPObj.base exProc 1 (some (1 / 4)) [1, 0, 0, 0] =
    .ok [1, 1, 1, 1 / 10] := by
  have hg : ∃ g, guessObj exPObj.base exProc [1, 0, 0, 0] = .ok g ∧ g.fs = 1 ∧ g.sgamp = 1 ∧ g.rsh = 1 ∧
      g.dt0 = 1 / 10 ∧ ∃ p, g.proc = some p ∧ p.trace = [1, 0] ∧ fitPts p 1 (some (1 / 4)) =
        [⟨0, 1, 1 + Complex.I⟩] := by
    have hc : create (fun r n f _ => (r, n, f)) [] 0 1 (1 / 3) 1 1 1 (1 / 10) (1 / 100) (1 / 2) false
        (1 / 10) false = .ok ⟨[], 0, 1, 1 / 3, 1, 1, 1, 1 / 10, 1 / 100, 1 / 2, false, 1 / 10, none, none,
        none, none⟩ := by
      unfold create
      have hf : ⌊(1 : ℝ) / (1 / 3)⌋ = 3 := by norm_num
      simp only [hf]
      rw [if_neg (by norm_num), if_neg (by norm_num)]
    have e0 : (if (0 : ℝ) ≠ 0 then (0 : ℝ) else 1 / 10) = 1 / 10 := if_neg (by simp)
    have e1 : (if (0 : ℝ) ≠ 0 then (0 : ℝ) else 1 / 100) = 1 / 100 := if_neg (by simp)
    have hgo : guessObj exPObj.base exProc [1, 0, 0, 0] =
        initFromData exProc.nbins exProc.tmean exProc.didvmean exProc.didvstd exProc.offset
          exProc.offsetErr 1 (1 / 3) 1 1 (1 / 10) (1 / 100) false (1 / 10) := by
      simp only [guessObj, e0, e1]
      rfl
    rw [hgo]
    simp only [initFromData, hc]
    refine ⟨_, rfl, ?_⟩
    refine ⟨rfl, rfl, rfl, rfl, _, rfl, ?_, ?_⟩
    · simp [Proc.trace, exProc, spike, List.range_succ]
    · exact exFitPts
  obtain ⟨g, hg, hfs, hsg, hrsh, hdt, p, hp, htr, hpts⟩ := hg
  have hrun : ∃ r, runFit exExt g p 1 (some (1 / 4)) = .ok r ∧ r.ssp = [1, 1, 1, 1 / 10] := by
    have hst : startGuess g p 1 = .ok ((1, -6 / 10, -6 / 10, -1 / (2 * Real.pi * 500), 1 / 10 ^ 6, 0,
        1 / 10), false) := by
      unfold startGuess squareGuess
      rw [if_pos rfl, htr, hsg, hrsh, hdt]
      norm_num [lmax, lmin]
    have hres : ∃ r, residual [⟨0, 1, 1 + Complex.I⟩] [1, 1 / 10 ^ 6, 1 / 10] = .ok r := by
      have hY : ∃ c, fitY 0 [1, 1 / 10 ^ 6, 1 / 10] = .ok c := by
        simp only [fitY, onePoleY, recipZ]
        rw [if_neg (by norm_num [onePoleZ, jw])]
        exact ⟨_, rfl⟩
      obtain ⟨c, hc⟩ := hY
      simp only [residual, hc]
      rw [if_neg (by simp)]
      exact ⟨_, rfl⟩
    obtain ⟨rv, hrv⟩ := hres
    have hls : leastSquares exExt.ls (residual [⟨0, 1, 1 + Complex.I⟩]) [1, 1 / 10 ^ 6, 1 / 10]
        [(some 0, none), (some 0, none), (none, none)] [|1|, |1 / 10 ^ 6|, |1 / 10|] =
        .ok ⟨[2, 1 / 2, 1 / 10], 0, .ok []⟩ := by
      unfold leastSquares
      rw [if_neg, if_neg, hrv]
      · rfl
      · simp
      · simp [inB]
    have hconv : convertTo [2, 1 / 2, 1 / 10] 1 g.r0 g.rp = .ok [1, 1, 1, 1 / 10] := by
      norm_num [convertTo]
    have hadm : ∃ y, complexadmittance 0 (sspArgs [1, 1, 1, 1 / 10]) = .ok y := by
      have := (complexadmittance_recip 0 (sspArgs [1, 1, 1, 1 / 10]) (1 / 2)).2
      refine ⟨1 / 2, this ⟨2, ?_, by norm_num, by norm_num⟩⟩
      norm_num [compleximpedance, poleExtractor, sspArgs, convertFrom, onePoleZ, jw]
    obtain ⟨y, hy⟩ := hadm
    unfold runFit
    rw [hst, hfs, hpts]
    simp only [fitdidv, starts, if_true, List.map_cons, List.map_nil, hls, findPoleFallTimes, fitResult,
      hrsh, hconv, hy]
    exact ⟨_, rfl, rfl⟩
  obtain ⟨r, hr, hssp⟩ := hrun
  unfold guessPriors
  simp only [hg, dofit, hp, if_true, hr, fitresult, hssp]
  norm_num

theorem exFit : (dofitP exExt exMin exPObj 1 [1, 0, 0, 0] ⟨4, Matrix.diagonal ![1, 0, 0, 0]⟩
    (some (1 / 4))).1 = .ok () := by
  have hmix : mixGuess [1, 1, 1, 1 / 10] [1, 0, 0, 0] = [1, 1, 1, 1 / 10] := by norm_num [mixGuess]
  have hpts : fitPtsP exPObj.base exProc (some (1 / 4)) = [⟨0, 1, 1 + Complex.I⟩] := by
    unfold fitPtsP
    rw [show exPObj.base.fs = 1 from rfl, exFitPts, show exPObj.base.rsh = 1 from rfl]
    simp
  have hadm : complexadmittance 0 (sspArgs [1, 1, 1, 1 / 10]) = .ok (1 / 2) := by
    have := (complexadmittance_recip 0 (sspArgs [1, 1, 1, 1 / 10]) (1 / 2)).2
    refine this ⟨2, ?_, by norm_num, by norm_num⟩
    norm_num [compleximpedance, poleExtractor, sspArgs, convertFrom, onePoleZ, jw]
  have hrun : ∃ r, runFitP exExt exMin exPObj.base exProc 1 [1, 0, 0, 0]
      ⟨4, Matrix.diagonal ![1, 0, 0, 0]⟩ (some (1 / 4)) = .ok r := by
    unfold runFitP
    rw [exGuess]
    simp only [hmix, hpts]
    have hv : nll 1 [⟨0, 1, 1 + Complex.I⟩] [1, 0, 0, 0]
        ⟨4, pinv (Matrix.diagonal ![1, 0, 0, 0])⟩ [1, 1, 1, 1 / 10] ≠ .error .valueError := by
      unfold nll
      rw [if_neg (by simp [nParams])]
      obtain ⟨rv, hrv⟩ := residualP_defined (pts := [⟨0, 1, 1 + Complex.I⟩])
        (params := [1, 1, 1, 1 / 10]) (by intro p hp; simp at hp; subst hp; simp)
        (by
          intro p hp
          simp at hp
          subst hp
          simp only [scaledY, hadm]
          exact ⟨_, rfl⟩)
      rw [hrv]
      simp only
      split_ifs
      · intro h; cases h
      · intro h; cases h
    split
    · rename_i hh
      exact absurd hh hv
    · have : convertFrom [1, 1, 1, 1 / 10] = .ok [2, 1 / 2, 1 / 10] := by norm_num [convertFrom]
      simp only [exMin, this, findPoleFallTimes, fitResultP, hadm]
      rw [if_neg (by simp [diagOf])]
      exact ⟨_, rfl⟩
  obtain ⟨r, hr⟩ := hrun
  unfold dofitP
  rw [show exPObj.base.proc = some exProc from rfl]
  dsimp only
  rw [show exPObj.base.proc = some exProc from rfl]
  dsimp only
  rw [hr]
  rfl

end Verif.Didv
