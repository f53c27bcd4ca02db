import Verif.DidvPriorsLemmas
import Verif.DidvObjProps
import Mathlib.Data.Fin.VecNotation

/-! Properties of the fit with priors (C89, C90). -/

namespace Verif.Didv
open Verif Dft OF Matrix

/-! ### C89: the cost -/

/-- **C89**: the model is the shunt resistance over the documented impedance, delayed by `dt`. -/
theorem scaledY_doc (f rsh rp r0 beta l L tau0 gratio tau3 dt : ℝ) (hl : l ≠ 1)
    (hA : rsh + rp + r0 * (1 + beta) ≠ 0) (h1 : rsh + rp ≠ 0) :
    (docOne f rsh rp L ≠ 0 → scaledY f [rsh, rp, L, dt] =
      .ok (rsh / docOne f rsh rp L * Complex.exp (-2 * Complex.I * Real.pi * f * dt))) ∧
    (docTwo f rsh rp r0 beta l L tau0 ≠ 0 → scaledY f [rsh, rp, r0, beta, l, L, tau0, dt] =
      .ok (rsh / docTwo f rsh rp r0 beta l L tau0 * Complex.exp (-2 * Complex.I * Real.pi * f * dt))) ∧
    (docThreeDen f l tau0 gratio tau3 ≠ 0 → docThree f rsh rp r0 beta l L tau0 gratio tau3 ≠ 0 →
      scaledY f [rsh, rp, r0, beta, l, L, tau0, gratio, tau3, dt] =
      .ok (rsh / docThree f rsh rp r0 beta l L tau0 gratio tau3 *
        Complex.exp (-2 * Complex.I * Real.pi * f * dt))) := by
  obtain ⟨d3, d2, d1, _⟩ := compleximpedance_doc f rsh rp r0 beta l L tau0 gratio tau3 hl hA h1
  have key : ∀ (a : Args) (z : ℂ), compleximpedance f a = .ok z → z ≠ 0 →
      complexadmittance f a = .ok (1 / z) := by
    intro a z hz h0
    rw [complexadmittance_recip]
    exact ⟨z, hz, h0, mul_one_div_cancel h0⟩
  refine ⟨fun h => ?_, fun h => ?_, fun h h' => ?_⟩
  · have := key _ _ (d1 none none none none none none (.inl rfl)) h
    simp only [scaledY, sspArgs, this, List.headD_cons, List.getLastD_cons, List.getLastD_nil]
    rw [mul_one_div]
  · have := key _ _ (d2 none none (.inl rfl)) h
    simp only [scaledY, sspArgs, this, List.headD_cons, List.getLastD_cons, List.getLastD_nil]
    rw [mul_one_div]
  · have := key _ _ (d3 h) h'
    simp only [scaledY, sspArgs, this, List.headD_cons, List.getLastD_cons, List.getLastD_nil]
    rw [mul_one_div]

/-- Non-vacuity: a one-pole circuit at 1 Hz. -/
example : docOne 1 1 2 3 ≠ 0 := by
  intro h
  have := congrArg Complex.re h
  simp [docOne] at this
  norm_num at this

/-- **C89**: whenever the cost is defined it is half the chi-square of the real and imaginary parts plus
half the quadratic form of the deviations from the priors. -/
theorem nll_chi2 {poles : ℤ} {pts : List Pt} {priors : List ℝ} {inv : Cov} {params : List ℝ} {c : ℝ}
    (h : nll poles pts priors inv params = .ok c) :
    params.length = nParams poles ∧ priors.length = params.length ∧ inv.d = params.length ∧
    ∃ Y : ℝ → ℂ, (∀ p ∈ pts, scaledY p.f params = .ok (Y p.f)) ∧
      c = (pts.map fun p => p.chi2 (Y p.f)).sum / 2 +
        (∑ i : Fin inv.d, ∑ j : Fin inv.d, (priors.getD i 0 - params.getD i 0) * inv.m i j *
          (priors.getD j 0 - params.getD j 0)) / 2 ∧
      0 ≤ c := by
  unfold nll at h
  by_cases hl : params.length ≠ nParams poles ∨ priors.length ≠ params.length ∨ inv.d ≠ params.length
  · rw [if_pos hl] at h; cases h
  rw [if_neg hl] at h
  simp only [not_or, not_not] at hl
  refine ⟨hl.1, hl.2.1, hl.2.2, ?_⟩
  cases hr : residualP pts params with
  | error e => rw [hr] at h; cases h
  | ok r =>
    rw [hr] at h
    simp only at h
    by_cases hq : priorForm priors inv params < 0
    · rw [if_pos hq] at h; cases h
    · rw [if_neg hq, Real.sq_sqrt (not_lt.1 hq)] at h
      obtain ⟨Y, hY, hs⟩ := residualP_ok hr
      have hc := (Except.ok.inj h).symm
      refine ⟨Y, hY, ?_, ?_⟩
      · rw [hc, hs]
        congr 2
        unfold priorForm
        simp only [Matrix.vecMul, dotProduct, Finset.sum_mul]
        exact Finset.sum_comm
      · rw [hc]
        refine add_nonneg ?_ (div_nonneg (not_lt.1 hq) two_pos.le)
        refine List.sum_nonneg fun v hv => ?_
        obtain ⟨w, _, rfl⟩ := List.mem_map.1 hv
        positivity

/-- **C89**: for a covariance that is symmetric and not negative, vectors of the right lengths and points
with errors, the cost is defined wherever the model is. -/
theorem nll_defined {poles : ℤ} {pts : List Pt} {priors : List ℝ} {C : Cov} {params : List ℝ}
    (hs : C.mᵀ = C.m) (hp : ∀ v, 0 ≤ v ⬝ᵥ (C.m *ᵥ v)) (h1 : Shape poles params.length)
    (h2 : priors.length = params.length) (h3 : C.d = params.length) (hw : Weighted pts)
    (hy : ∀ p ∈ pts, ∃ y, scaledY p.f params = .ok y) :
    ∃ c, nll poles pts priors ⟨C.d, pinv C.m⟩ params = .ok c := by
  obtain ⟨r, hr⟩ := residualP_defined hw hy
  unfold nll
  rw [if_neg (by simp [← h1.length, h2, h3]), hr]
  simp only
  rw [if_neg (not_lt.2 ?_)]
  · exact ⟨_, rfl⟩
  · exact pinv_nonneg hs hp _

/-- Non-vacuity: the identity as covariance. -/
example : (1 : Matrix (Fin 4) (Fin 4) ℝ)ᵀ = 1 ∧ ∀ v : Fin 4 → ℝ, 0 ≤ v ⬝ᵥ ((1 : Matrix _ _ ℝ) *ᵥ v) := by
  refine ⟨Matrix.transpose_one, fun v => ?_⟩
  rw [Matrix.one_mulVec]
  exact Finset.sum_nonneg fun i _ => mul_self_nonneg _

/-- **C89**: independent priors with standard deviations `s`: each parameter with a prior adds the square
of its deviation in units of `s`, a parameter with standard deviation zero adds nothing. -/
theorem penalty_independent (priors params : List ℝ) {d : ℕ} (s : Fin d → ℝ) :
    priorForm priors ⟨d, pinv (Matrix.diagonal fun i => s i ^ 2)⟩ params =
      ∑ i, if s i = 0 then 0 else ((priors.getD i 0 - params.getD i 0) / s i) ^ 2 := by
  unfold priorForm
  simp only
  rw [pinv_diagonal]
  simp only [Matrix.vecMul_diagonal, dotProduct]
  refine Finset.sum_congr rfl fun i _ => ?_
  split_ifs with h
  · simp [h]
  · rw [div_pow, div_eq_mul_inv]
    ring

/-- **C89**: for any covariance, a parameter whose row vanishes is not constrained: moving it does not
change the penalty. -/
theorem penalty_free {priors params params' : List ℝ} {C : Cov} (hs : C.mᵀ = C.m) (i : Fin C.d)
    (hrow : ∀ j, C.m i j = 0) (hsame : ∀ j : Fin C.d, j ≠ i → params.getD j 0 = params'.getD j 0) :
    priorForm priors ⟨C.d, pinv C.m⟩ params = priorForm priors ⟨C.d, pinv C.m⟩ params' := by
  classical
  have hker : C.m *ᵥ (Pi.single i 1) = 0 := by
    rw [Matrix.mulVec_single_one]
    funext j
    have := congrFun (congrFun hs i) j
    rw [Matrix.transpose_apply] at this
    simp only [Matrix.col_apply, Pi.zero_apply]
    rw [this, hrow]
  have hp := pinv_ker hs hker
  have hcol : ∀ j, pinv C.m j i = 0 := by
    intro j
    have := congrFun hp j
    rw [Matrix.mulVec_single_one] at this
    exact this
  have hrow' : ∀ j, pinv C.m i j = 0 := by
    intro j
    have := congrFun (congrFun (pinv_symm hs) i) j
    rw [Matrix.transpose_apply] at this
    rw [← this, hcol]
  unfold priorForm
  simp only [Matrix.vecMul, dotProduct]
  refine Finset.sum_congr rfl fun j _ => ?_
  by_cases hj : j = i
  · subst hj
    simp [hcol]
  · rw [hsame j hj]
    congr 1
    refine Finset.sum_congr rfl fun k _ => ?_
    by_cases hk : k = i
    · subst hk
      simp [hrow']
    · rw [hsame k hk]

/-- Non-vacuity: no prior on the last of two parameters. -/
example : priorForm [1, 2] ⟨2, pinv (Matrix.diagonal ![4, 0])⟩ [3, 5] =
    priorForm [1, 2] ⟨2, pinv (Matrix.diagonal ![4, 0])⟩ [3, 7] :=
  penalty_free (C := ⟨2, Matrix.diagonal ![4, 0]⟩) (Matrix.diagonal_transpose _) 1
    (by intro j; fin_cases j <;> simp) (by intro j; fin_cases j <;> simp)

/-- **C89**: data produced exactly by the priors cost nothing there, and no parameters cost less. -/
theorem exact_data {poles : ℤ} {pts : List Pt} {priors : List ℝ} {inv : Cov} {Y : ℝ → ℂ}
    (h1 : Shape poles priors.length) (h3 : inv.d = priors.length) (hw : Weighted pts)
    (hY : ∀ p ∈ pts, scaledY p.f priors = .ok (Y p.f)) (hfit : Fits pts Y) :
    nll poles pts priors inv priors = .ok 0 ∧
      ∀ params c, nll poles pts priors inv params = .ok c → 0 ≤ c := by
  obtain ⟨r, hr⟩ := residualP_defined hw fun p hp => ⟨_, hY p hp⟩
  refine ⟨?_, fun params c h => ?_⟩
  · have hq : priorForm priors inv priors = 0 := by simp [priorForm]
    obtain ⟨Y', hY', hs⟩ := residualP_ok hr
    have h0 : (pts.map fun p => p.chi2 (Y' p.f)).sum = 0 := by
      have : (pts.map fun p => p.chi2 (Y' p.f)) = pts.map fun _ => 0 := by
        apply List.map_congr_left
        intro p hp
        have e : Y' p.f = p.y := by
          have := (hY' p hp).symm.trans (hY p hp)
          rw [Except.ok.inj this, hfit p hp]
        simp [Pt.chi2, e]
      rw [this]
      simp
    unfold nll
    rw [if_neg (by simp [← h1.length, h3]), hr]
    simp only [hq, hs, h0]
    simp
  · obtain ⟨_, _, _, _, _, _, hc⟩ := nll_chi2 h
    exact hc

/-- **C89**, violated: `priorscov` "describes the known entries in the covariance matrix", but known
covariances without the variances give a form that is negative in some directions; there the cost is
`nan`, although data and model are fine. -/
theorem nll_indefinite_violated {poles : ℤ} {pts : List Pt} {priors : List ℝ} {inv : Cov}
    {params r : List ℝ} (h1 : Shape poles params.length) (h2 : priors.length = params.length)
    (h3 : inv.d = params.length) (hr : residualP pts params = .ok r)
    (hneg : priorForm priors inv params < 0) : nll poles pts priors inv params = .error .nan := by
  unfold nll
  rw [if_neg (by simp [← h1.length, h2, h3]), hr]
  simp only
  rw [if_pos hneg]

/-- A covariance between the first two parameters and nothing else. -/
def offDiag : Matrix (Fin 4) (Fin 4) ℝ := !![0, 1, 0, 0; 1, 0, 0, 0; 0, 0, 0, 0; 0, 0, 0, 0]

/-- Non-vacuity: only the covariance of shunt and parasitic resistance is given, and the two deviate from
their priors in opposite directions. -/
example : priorForm [1, 1, 0, 0] ⟨4, pinv offDiag⟩ [2, 0, 0, 0] < 0 := by
  have hs : offDiagᵀ = offDiag := by
    ext i j
    fin_cases i <;> fin_cases j <;> rfl
  have h : IsPinv offDiag offDiag := by
    refine ⟨?_, ?_, ?_, ?_⟩ <;>
    · ext i j
      fin_cases i <;> fin_cases j <;> simp [offDiag, Matrix.mul_apply, Fin.sum_univ_succ]
  have e : pinv offDiag = offDiag := (isPinv_pinv hs).unique h
  rw [e]
  norm_num [priorForm, Matrix.vecMul, dotProduct, offDiag, Fin.sum_univ_succ]

/-! ### C90: the call -/

/-- **C90**: what a successful fit stores.  The minimiser was given the cost above and started at the
priors where they are given and at the guess of the fit without priors elsewhere; parameters, covariance
and cost are what it returned, the errors are the square roots of the variances, the fall times are those of
the fitted parameters, and the priors are kept with the result. -/
theorem dofitP_stores {x : Ext} {mn : Minimiser} {o : PObj} {k : ℤ} {priors : List ℝ} {pc : Cov}
    {fcut : Option ℝ} (h : (dofitP x mn o k priors pc fcut).1 = .ok ()) :
    Shape k priors.length ∧ Shape k pc.d ∧
    ∃ (r : PResult) (p : Proc) (guess : List ℝ), (ready o.base).proc = some p ∧
      fitresultP (dofitP x mn o k priors pc fcut).2 k = some r ∧
      guessPriors x (ready o.base) p k fcut priors = .ok guess ∧
      let out := mn (nll k (fitPtsP (ready o.base) p fcut) priors ⟨pc.d, pinv pc.m⟩) (mixGuess guess priors)
      r.params = out.x ∧ out.cov = some r.cov ∧ r.cost = out.fval ∧ r.priors = priors ∧
        r.priorscov = pc ∧
        r.errors = ((List.range r.cov.length).map fun (i : ℕ) => Real.sqrt ((r.cov.getD i []).getD i 0)) ∧
        (∃ y, complexadmittance 0 (sspArgs r.params) = .ok y ∧ r.didv0 = y.re) ∧
        ∃ q, convertFrom r.params = .ok q ∧ findPoleFallTimes x.fsolve2 x.fsolve3 q = .ok r.falltimes := by
  rcases dofitP_cases x mn o k priors pc fcut with ⟨e, he, _⟩ | ⟨p, r, hp, hr, hk, hres, _⟩
  · rw [he] at h; cases h
  · obtain ⟨guess, hg, hl, hd, h1, h2, h3, h4, h5, h6, h7⟩ := runFitP_ok hr
    exact ⟨nParams_shape hk hl, nParams_shape hk hd, r, p, guess, hp, by rw [hres, if_pos rfl], hg, h1, h2, h3, h4, h5,
      h6.trans (by rw [diagOf, List.map_map]; rfl), h7⟩

/-- Non-vacuity: a fit with one prior that succeeds. -/
example : (dofitP exExt exMin exPObj 1 [1, 0, 0, 0] ⟨4, Matrix.diagonal ![1, 0, 0, 0]⟩
    (some (1 / 4))).1 = .ok () := exFit

/-- **C90**: data and errors are scaled alike: a point has the same chi-square with respect to the scaled
admittance as the measured dI/dV with respect to the admittance. -/
theorem scaled_points {o : Obj} (p : Proc) (fcut : Option ℝ) (h : o.rsh ≠ 0) :
    List.Forall₂ (fun s q => s.f = q.f ∧ ∀ Y, s.chi2 (o.rsh * Y) = q.chi2 Y) (fitPtsP o p fcut)
      (fitPts p o.fs fcut) := by
  unfold fitPtsP
  generalize fitPts p o.fs fcut = l
  induction l with
  | nil => exact .nil
  | cons q l ih =>
    refine .cons ⟨rfl, fun Y => ?_⟩ ih
    unfold Pt.chi2
    simp only [mul_comm _ (o.rsh : ℂ), Complex.re_ofReal_mul, Complex.im_ofReal_mul, ← mul_sub]
    rw [mul_div_mul_left _ _ h, mul_div_mul_left _ _ h]

/-- Non-vacuity: the object of the fit above. -/
example : exPObj.base.rsh ≠ 0 ∧ fitPts exProc exPObj.base.fs (some (1 / 4)) ≠ [] :=
  ⟨one_ne_zero, by rw [show exPObj.base.fs = 1 from rfl, exFitPts]; simp⟩

/-- **C90**: the guess comes from a fit without priors on the same data: its small signal parameters with all
signs dropped but that of the time shift, which is the one of the fit. -/
theorem guess_start {x : Ext} {o : Obj} {p : Proc} {k : ℤ} {fcut : Option ℝ} {priors guess : List ℝ}
    (h : guessPriors x o p k fcut priors = .ok guess) :
    ∃ g r, guessObj o p priors = .ok g ∧ (dofit x g k fcut).1 = .ok () ∧
      fitresult (dofit x g k fcut).2 k = .found r ∧
      guess.map abs = r.ssp.map abs ∧ (∀ v ∈ guess.dropLast, 0 ≤ v) ∧
      guess.getLast? = r.params.getLast? := by
  unfold guessPriors at h
  cases hg : guessObj o p priors with
  | error e => rw [hg] at h; cases h
  | ok g =>
    rw [hg] at h
    simp only at h
    rcases hd : dofit x g k fcut with ⟨_ | u, g'⟩
    · rw [hd] at h; cases h
    · obtain ⟨r, hr, hlast, hne⟩ := dofit_found (x := x) (g := g) (k := k) (c := fcut) (by rw [hd])
      rw [hd] at h hr
      simp only at h hr
      rw [hr] at h
      have e := Except.ok.inj h
      obtain ⟨l, a, hl⟩ : ∃ l a, r.ssp = l ++ [a] := ⟨_, _, (List.dropLast_append_getLast hne).symm⟩
      have e2 : guess = l.map abs ++ [a] := by
        rw [← e, hl]
        simp
      refine ⟨g, r, rfl, by rw [hd], by rw [hd]; exact hr, ?_, ?_, ?_⟩
      · rw [e2, hl]
        simp [Function.comp_def]
      · rw [e2]
        simp only [List.dropLast_concat, List.mem_map]
        rintro v ⟨w, _, rfl⟩
        exact abs_nonneg w
      · rw [← hlast, e2, hl]
        simp
/-- Non-vacuity: the guess of the fit above. -/
example : ∃ guess, guessPriors exExt exPObj.base exProc 1 (some (1 / 4)) [1, 0, 0, 0] = .ok guess :=
  ⟨_, exGuess⟩

/-- **C90**: a fit changes no result but that of its own number of poles, and a call that raises changes
none. -/
theorem dofitP_results (x : Ext) (mn : Minimiser) (o : PObj) (k : ℤ) (priors : List ℝ) (pc : Cov)
    (fcut : Option ℝ) (j : ℤ) :
    (j ≠ k → fitresultP (dofitP x mn o k priors pc fcut).2 j = fitresultP o j) ∧
    ((dofitP x mn o k priors pc fcut).1 ≠ .ok () →
      fitresultP (dofitP x mn o k priors pc fcut).2 j = fitresultP o j) := by
  rcases dofitP_cases x mn o k priors pc fcut with ⟨e, he, h1⟩ | ⟨p, r, hp, hr, hk, hres, hok⟩
  · exact ⟨fun _ => h1 j, fun _ => h1 j⟩
  · refine ⟨fun hj => by rw [hres, if_neg hj], fun h => absurd hok h⟩

/-- **C90**: an unsupported number of poles and priors of the wrong length always raise. -/
theorem dofitP_invalid (x : Ext) (mn : Minimiser) (o : PObj) (k : ℤ) (priors : List ℝ) (pc : Cov)
    (fcut : Option ℝ)
    (h : ¬ Shape k priors.length ∨ ¬ Shape k pc.d) :
    ∃ e, (dofitP x mn o k priors pc fcut).1 = .error e := by
  cases hd : (dofitP x mn o k priors pc fcut).1 with
  | error e => exact ⟨e, rfl⟩
  | ok u =>
    obtain ⟨hl, hc, _⟩ := dofitP_stores hd
    exact absurd h (by simp [hl, hc])

/-- Non-vacuity: the vector of three parameters that leaves out the time shift. -/
example : ¬ Shape 1 ([1, 2, 3] : List ℝ).length ∧ ¬ Shape 4 10 := by simp [Shape]

/-- **C90**: over any history of fits, the result for a number of poles is that of the latest successful
fit with it, as the results before it and the fits of other poles play no part. -/
theorem fitresultP_latest (x : Ext) (mn : Minimiser) (o : PObj) (pre post : List PCall) (c : PCall)
    (hok : (dofitP x mn (runP x mn o pre) c.poles c.priors c.cov c.fcut).1 = .ok ())
    (hpost : ∀ c' ∈ post, c'.poles ≠ c.poles) :
    fitresultP (runP x mn o (pre ++ c :: post)) c.poles =
      fitresultP (dofitP x mn (runP x mn o pre) c.poles c.priors c.cov c.fcut).2 c.poles ∧
    ∃ r, fitresultP (runP x mn o (pre ++ c :: post)) c.poles = some r ∧ r.priors = c.priors ∧
      r.priorscov = c.cov := by
  have key : ∀ (l : List PCall) (q : PObj), (∀ c' ∈ l, c'.poles ≠ c.poles) →
      fitresultP (runP x mn q l) c.poles = fitresultP q c.poles := by
    intro l
    induction l with
    | nil => intro q _; rfl
    | cons a t ih =>
      intro q hq
      have : runP x mn q (a :: t) = runP x mn (dofitP x mn q a.poles a.priors a.cov a.fcut).2 t := rfl
      rw [this, ih _ fun c' hc' => hq c' (List.mem_cons_of_mem _ hc')]
      exact (dofitP_results x mn q a.poles a.priors a.cov a.fcut c.poles).1
        (hq a List.mem_cons_self).symm
  have e : runP x mn o (pre ++ c :: post) =
      runP x mn (dofitP x mn (runP x mn o pre) c.poles c.priors c.cov c.fcut).2 post := by
    simp [runP, List.foldl_append]
  rw [e, key _ _ hpost]
  refine ⟨rfl, ?_⟩
  obtain ⟨_, _, r, _, _, _, hr, _, _, _, _, h4, h5, _⟩ := dofitP_stores hok
  exact ⟨r, hr, h4, h5⟩

end Verif.Didv
