import Verif.DidvBeliefLemmas
import Verif.DidvErrExist
import Verif.DidvPriorsProps

/-! Helper lemmas for C155: from the cost of a fit with priors to sums over bins. -/

namespace Verif.Device
open Verif Verif.Dft Verif.Didv Verif.NonLin MeasureTheory Filter Topology
open scoped RealInnerProductSpace

theorem residualP_flat {ks : List ℕ} {f : ℕ → ℝ} {m : ℕ → ℂ} {e : ℕ → ℝ} {g : ℕ → ℂ} {v : List ℝ} {ρ : ℝ} (hρ : ρ ≠ 0)
    (he : ∀ k ∈ ks, e k ≠ 0) (hg : ∀ k ∈ ks, scaledY (f k) v = .ok (ρ * g k)) :
    residualP ((ks.map fun k => (⟨f k, m k, (1 + Complex.I) * e k⟩ : Pt)).map fun q => ⟨q.f, q.y * ρ, q.err * ρ⟩) v =
      .ok (ks.flatMap fun k => [(m k - g k).re / e k, (m k - g k).im / e k]) := by
  induction ks with
  | nil => rfl
  | cons k ks ih =>
    have h1 := hg k List.mem_cons_self
    have h2 := he k List.mem_cons_self
    have h3 := ih (fun j hj => he j (List.mem_cons_of_mem _ hj)) fun j hj => hg j (List.mem_cons_of_mem _ hj)
    rw [List.map_cons, List.map_cons, List.flatMap_cons]
    simp only [residualP, h1, h3]
    have er : ((1 + Complex.I) * (e k : ℂ) * (ρ : ℂ)).re = e k * ρ := by simp
    have ei : ((1 + Complex.I) * (e k : ℂ) * (ρ : ℂ)).im = e k * ρ := by simp
    rw [er, ei, if_neg (by simp [h2, hρ])]
    have e1 : m k * (ρ : ℂ) - ρ * g k = (m k - g k) * ρ := by ring
    rw [e1]
    simp only [Complex.re_mul_ofReal, Complex.im_mul_ofReal, List.cons_append, List.nil_append]
    have e2 : ∀ a : ℝ, a * ρ * (1 / (e k * ρ)) = a / e k := fun a => by field_simp
    rw [e2, e2]

theorem stored_fitP {x : Ext} {mn : Minimiser} {o : Obj} {o' : PObj} {p : Proc} {poles : ℤ} {priors : List ℝ} {pc : Cov} {c : Option ℝ}
    {r : PResult} (h : dofitP x mn ⟨{ o with proc := some p }, none, none, none⟩ poles priors pc c = (.ok (), o'))
    (hr : fitresultP o' poles = some r) : ∃ p0, (mn (nll poles (fitPtsP o p c) priors ⟨pc.d, pinv pc.m⟩) p0).x = r.params ∧
      (mn (nll poles (fitPtsP o p c) priors ⟨pc.d, pinv pc.m⟩) p0).cov = some r.cov := by
  rcases dofitP_cases x mn ⟨{ o with proc := some p }, none, none, none⟩ poles priors pc c with ⟨e, he, -⟩ | ⟨q, r', hq, hrun, -, hres, -⟩
  · rw [h] at he; cases he
  · have hq : p = q := Option.some.inj hq
    subst hq
    have h1 := hres poles
    rw [h, if_pos rfl, hr] at h1
    cases h1
    unfold runFitP at hrun
    cases hg : guessPriors x (ready { o with proc := some p }) p poles c priors with
    | error e => simp only [hg] at hrun; cases hrun
    | ok guess =>
      simp only [hg] at hrun
      refine ⟨mixGuess guess priors, ?_⟩
      have hfin : ∀ ft, fitResultP (mn (nll poles (fitPtsP o p c) priors ⟨pc.d, pinv pc.m⟩) (mixGuess guess priors)).x
          (mn (nll poles (fitPtsP o p c) priors ⟨pc.d, pinv pc.m⟩) (mixGuess guess priors)).cov ft
          (mn (nll poles (fitPtsP o p c) priors ⟨pc.d, pinv pc.m⟩) (mixGuess guess priors)).fval priors pc = .ok r →
          (mn (nll poles (fitPtsP o p c) priors ⟨pc.d, pinv pc.m⟩) (mixGuess guess priors)).x = r.params ∧
          (mn (nll poles (fitPtsP o p c) priors ⟨pc.d, pinv pc.m⟩) (mixGuess guess priors)).cov = some r.cov := by
        intro ft hf
        unfold fitResultP at hf
        split at hf
        · cases hf
        · rename_i c0 hc0
          split_ifs at hf
          split at hf
          · cases hf
          · cases hf
            exact ⟨rfl, hc0⟩
      have hrun' : (match convertFrom (mn (nll poles (fitPtsP o p c) priors ⟨pc.d, pinv pc.m⟩) (mixGuess guess priors)).x with
          | .error _ => (.error .nan : Except Err PResult)
          | .ok q =>
            match findPoleFallTimes x.fsolve2 x.fsolve3 q with
            | .error e => (.error e : Except Err PResult)
            | .ok ft => fitResultP (mn (nll poles (fitPtsP o p c) priors ⟨pc.d, pinv pc.m⟩) (mixGuess guess priors)).x
              (mn (nll poles (fitPtsP o p c) priors ⟨pc.d, pinv pc.m⟩) (mixGuess guess priors)).cov ft
              (mn (nll poles (fitPtsP o p c) priors ⟨pc.d, pinv pc.m⟩) (mixGuess guess priors)).fval priors pc) = .ok r := by
        split at hrun
        · cases hrun
        · exact hrun
      split at hrun'
      · cases hrun'
      · split at hrun'
        · cases hrun'
        · exact hfin _ hrun'

/-- A smooth family of responses. -/
structure Family (o : Obj) {n : ℕ} [NeZero n] (W : ZMod n → ℂ) (c : Option ℝ) {d : ℕ} (σ : Fin d → ℝ) (G : ℝ → (Fin d → ℝ) → ℂ)
    (x₀ : Fin d → ℝ) : Prop where
  ok : ∀ k : ZMod n, ∀ᶠ v in 𝓝 x₀, scaledY (fftfreq o.fs k) (List.ofFn v) = .ok (G (fftfreq o.fs k) v)
  smooth : ∀ k : ZMod n, ContDiffAt ℝ 2 (G (fftfreq o.fs k)) x₀
  truth : ∀ k : ZMod n, G (fftfreq o.fs k) x₀ = o.rsh * W k
  inj : ∀ u, (∀ k : ZMod n, Below o.fs c k → drive o k ≠ 0 → fderiv ℝ (G (fftfreq o.fs k)) x₀ u = 0) → (∀ i, σ i ≠ 0 → u i = 0) → u = 0
  pos : ∀ i : Fin d, i.val + 1 < d → 0 < x₀ i

section
variable {o : Obj} {n : ℕ} [NeZero n] {W Z : ZMod n → ℂ} {c : Option ℝ} {poles : ℤ} {d : ℕ} {σ : Fin d → ℝ} {G : ℝ → (Fin d → ℝ) → ℂ}
  {x₀ : Fin d → ℝ} {R : ZMod n → ℝ}

/-- The values of the family in the bins. -/
noncomputable def inBins (o : Obj) {n : ℕ} [NeZero n] (G : ℝ → (Fin d → ℝ) → ℂ) (v : Fin d → ℝ) (k : ZMod n) : ℂ := G (fftfreq o.fs k) v

theorem Family.bins (h : Family o W c σ G x₀) : ContDiffAt ℝ 2 (inBins o (n := n) G) x₀ ∧
    ∀ᶠ v in 𝓝 x₀, (∀ k : ZMod n, scaledY (fftfreq o.fs k) (List.ofFn v) = .ok (inBins o G v k)) ∧
      ContDiffAt ℝ 2 (inBins o (n := n) G) v ∧ Within (List.ofFn v) := by
  have h1 : ContDiffAt ℝ 2 (inBins o (n := n) G) x₀ := contDiffAt_pi.2 fun k => h.smooth k
  refine ⟨h1, (eventually_all.2 h.ok).and ((h1.eventually (by simp)).and ?_)⟩
  have h2 : ∀ᶠ v in 𝓝 x₀, ∀ i : Fin d, i.val + 1 < d → 0 < v i := eventually_all.2 fun i => by
    by_cases hi : i.val + 1 < d
    · filter_upwards [(continuous_apply i).continuousAt.eventually_const_lt (h.pos i hi)] with v hv _
      exact hv
    · exact Eventually.of_forall fun v h => absurd h hi
  filter_upwards [h2] with v hv a ha
  obtain ⟨i, hi, rfl⟩ := List.getElem_of_mem ha
  have hi' : i + 1 < d := by simp at hi; omega
  have := hv ⟨i, by omega⟩ hi'
  simpa [List.getElem_dropLast] using this.le

theorem nll_bins (hρ : 0 < o.rsh) (hm : Mirrored o c R) {s : ℝ} (hs0 : 0 < s) {noise : ZMod n → ℝ} {p : Proc}
    (hp : Averaged o W Z noise R s p) (hd : d = nParams poles) {g : Fin d → ℝ} {priors : List ℝ}
    (hB : Believed priors (List.ofFn x₀) σ g s) (hW : ∀ k : ZMod n, G (fftfreq o.fs k) x₀ = o.rsh * W k) {v : Fin d → ℝ}
    (hv : ∀ k : ZMod n, scaledY (fftfreq o.fs k) (List.ofFn v) = .ok (inBins o G v k)) :
    nll poles (fitPtsP o p c) priors ⟨d, pinv (independent fun i => s * σ i).m⟩ (List.ofFn v) =
      .ok (costOf (inBins o G) x₀ (fun k => o.rsh * errOf o c R k) (fun k : ZMod n => o.rsh * errRest o c k) σ
        (fun k => fftR noise k / (drive o k / o.rsh)) (fun k => o.rsh * Z k) g s v) := by
  have hρc : (o.rsh : ℂ) ≠ 0 := Complex.ofReal_ne_zero.2 hρ.ne'
  obtain ⟨ks, e, he0, hpts, hsum, hval⟩ := bins_of hm hs0 hp
  have hres : residualP (fitPtsP o p c) (List.ofFn v) = .ok (ks.flatMap fun k =>
      [(p.didvmean k - inBins o G v (k : ZMod n) / o.rsh).re / e k, (p.didvmean k - inBins o G v (k : ZMod n) / o.rsh).im / e k]) := by
    unfold fitPtsP
    rw [hpts]
    refine residualP_flat hρ.ne' he0 fun k _ => ?_
    rw [hv]
    congr 1
    field_simp
  have hform : priorForm priors ⟨d, pinv (independent fun i => s * σ i).m⟩ (List.ofFn v) =
      ∑ i, if σ i = 0 then 0 else ((x₀ i + s * (σ i * g i) - v i) / (s * σ i)) ^ 2 := by
    refine (penalty_independent priors (List.ofFn v) fun i => s * σ i).trans ?_
    refine Finset.sum_congr rfl fun i _ => ?_
    by_cases h0 : σ i = 0
    · simp [h0]
    · rw [if_neg h0, if_neg (mul_ne_zero hs0.ne' h0), hB.2 i h0]
      simp
  have hform0 : 0 ≤ ∑ i, if σ i = 0 then 0 else ((x₀ i + s * (σ i * g i) - v i) / (s * σ i)) ^ 2 := by
    refine Finset.sum_nonneg fun i _ => ?_
    split_ifs <;> positivity
  unfold nll
  rw [if_neg (by simp [hd, hB.1]), hres]
  simp only
  rw [hform, if_neg (not_lt.2 hform0), Real.sq_sqrt hform0]
  congr 1
  have h1 := hval fun k => inBins o G v k / o.rsh
  unfold costOf
  rw [add_div _ _ (2 : ℝ)]
  congr 1
  rw [show (fun v : ℝ => v ^ 2 / 2) = fun v => v ^ 2 * 2⁻¹ by funext v; ring, List.sum_map_mul_right, h1, div_eq_mul_inv]
  congr 2
  · refine Finset.sum_congr rfl fun k _ => ?_
    have e1 : inBins o G x₀ k + s * (fftR noise k / (drive o k / o.rsh)) - inBins o G v k =
        o.rsh * (W k + s * (fftR noise k / drive o k) - inBins o G v k / o.rsh) := by
      have : inBins o G x₀ k = o.rsh * W k := hW k
      rw [this, mul_sub, mul_add]
      congr 1
      · congr 1
        rw [div_div_eq_mul_div]
        ring
      · field_simp
    have e2 : (s * (o.rsh * errOf o c R k)) ^ 2 = o.rsh ^ 2 * (s * errOf o c R k) ^ 2 := by ring
    rw [e1, norm_mul, Complex.norm_real, Real.norm_eq_abs, mul_pow |o.rsh|, sq_abs, e2, mul_div_mul_left _ _ (by positivity)]
  · refine Finset.sum_congr rfl fun k _ => ?_
    have e1 : o.rsh * Z k - inBins o G v k = o.rsh * (Z k - inBins o G v k / o.rsh) := by
      rw [mul_sub]
      field_simp
    rw [e1, norm_mul, Complex.norm_real, Real.norm_eq_abs, mul_pow |o.rsh|, sq_abs, mul_pow o.rsh, mul_div_mul_left _ _ (by positivity)]

theorem inBins_fderiv (hF : ContDiffAt ℝ 2 (inBins o (n := n) G) x₀) (k : ZMod n) (u : Fin d → ℝ) :
    fderiv ℝ (inBins o (n := n) G) x₀ u k = fderiv ℝ (G (fftfreq o.fs k)) x₀ u := by
  have h1 := hasFDerivAt_pi'.1 (hF.differentiableAt (by simp)).hasFDerivAt k
  exact (congrArg (fun L : (Fin d → ℝ) →L[ℝ] ℂ => L u) h1.fderiv).symm

theorem Family.inj' (h : Family o W c σ G x₀) (hρ : 0 < o.rsh) (hm : Mirrored o c R) :
    ∀ u, (∀ k : ZMod n, o.rsh * errOf o c R k ≠ 0 → fderiv ℝ (inBins o (n := n) G) x₀ u k = 0) → (∀ i, σ i ≠ 0 → u i = 0) → u = 0 :=
  fun u h1 h2 => h.inj u (fun k h3 h4 => by
    rw [← inBins_fderiv h.bins.1]
    exact h1 k (mul_pos hρ (errOf_pos hm ⟨h3, h4⟩)).ne') h2

/-- Fits with priors of a smooth family of responses. -/
theorem overconfident_of (hρ : 0 < o.rsh) (hfam : Family o W c σ G x₀) (hd : d = nParams poles)
    (hconj : ∀ f v, G (-f) v = starRingEnd ℂ (G f v)) {Ω : Type*} [MeasurableSpace Ω] {μ : Measure Ω} [IsProbabilityMeasure μ]
    {noise : Ω → ZMod n → ℝ} (hst : OF.Stationary μ noise R) (hm : Mirrored o c R) {g : Ω → Fin d → ℝ} (hg : FairPriors μ noise σ g)
    {r : Ω → ℝ → PResult} (h : ApproachingP o W noise R poles c (List.ofFn x₀) σ g r) : Overconfident μ (List.ofFn x₀) σ r := by
  classical
  have hn : (0 : ℝ) < n := by exact_mod_cast NeZero.pos n
  obtain ⟨hF, hok⟩ := hfam.bins
  have hbel : ∀ k : ZMod n, Below o.fs c (-k) ↔ Below o.fs c k := by
    intro k
    have : |fftfreq o.fs (-k)| = |fftfreq o.fs k| := by
      rw [← Real.sqrt_sq_eq_abs, ← Real.sqrt_sq_eq_abs, Sim.fftfreq_neg_sq]
    unfold Below
    rw [this]
  have hmir : ∀ k : ZMod n, (Below o.fs c (-k) ∧ drive o (-k) ≠ 0) ↔ (Below o.fs c k ∧ drive o k ≠ 0) := by
    intro k
    constructor
    · rintro ⟨h1, h2⟩
      have := (hm _ h1 h2).1
      rw [neg_neg] at this
      exact ⟨(hbel k).1 h1, this⟩
    · rintro ⟨h1, h2⟩
      exact ⟨(hbel k).2 h1, (hm _ h1 h2).1⟩
  set err : ZMod n → ℝ := fun k => o.rsh * errOf o c R k with herr
  have herr0 : ∀ k, err k ≠ 0 → Below o.fs c k ∧ drive o k ≠ 0 := fun k hk => errOf_ne (right_ne_zero_of_mul hk)
  have hneg : ∀ k, Below o.fs c k ∧ drive o k ≠ 0 → drive o (-k) = starRingEnd ℂ (drive o k) ∧ 2 * k.val ≠ n := fun k hk =>
    drive_neg o hk.2 ((hmir k).2 hk).2
  have heven : ∀ k, err (-k) = err k := by
    intro k
    unfold err errOf
    by_cases hk : Below o.fs c k ∧ drive o k ≠ 0
    · rw [if_pos hk, if_pos ((hmir k).2 hk), (psd_even hst k).1, (hneg k hk).1, RCLike.norm_conj]
    · rw [if_neg hk, if_neg (fun h => hk ((hmir k).1 h))]
  have hcore := belief_core (F := inBins o G) (x₀ := x₀) (err := err) (errT := fun k : ZMod n => o.rsh * errRest o c k) (σ := σ) hF heven
    (b := fun k => drive o k / o.rsh) (μ := μ) (noise := noise) (R := R) (g := g) (x := fun ω s => (r ω s).params)
    (cov := fun ω s i j => ((r ω s).cov.getD i []).getD j 0)
    (fun k hk => ?_) (hfam.inj' hρ hm) (fun k hk => ?_) hst (fun k hk => ?_) hg (fun ω => ?_)
  · obtain ⟨D, C, A, a1, a2, a3⟩ := hcore
    refine ⟨D, C, A, ⟨fun ω i => ?_, a2⟩, a3⟩
    simpa using a1 ω i
  · refine Eventually.of_forall fun v => ?_
    have h3 := (hneg k (herr0 k hk)).2
    have : fftfreq o.fs (-k) = -fftfreq o.fs k := by
      unfold fftfreq
      rw [freqIdx_neg k h3]
      push_cast
      ring
    simp only [inBins, this, hconj]
  · refine ⟨div_ne_zero (herr0 k hk).2 (Complex.ofReal_ne_zero.2 hρ.ne'), ?_⟩
    rw [(hneg k (herr0 k hk)).1, map_div₀, Complex.conj_ofReal]
  · have h1 := herr0 k hk
    have h2 := (hm k h1.1 h1.2).2
    have h3 := norm_pos_iff.2 h1.2
    unfold err errOf
    rw [if_pos h1, mul_pow, div_pow, Real.sq_sqrt (by positivity), norm_div, Complex.norm_real, Real.norm_eq_abs, div_pow, sq_abs]
    field_simp
  · obtain ⟨Z, hev⟩ := h.1 ω
    obtain ⟨hy, hlist⟩ := close_tendsto (h.2 ω)
    refine ⟨fun s i => (r ω s).params.getD i 0, fun k => o.rsh * Z k, hy, ?_⟩
    filter_upwards [hev, hlist, hy.eventually hok.eventually_nhds, self_mem_nhdsWithin] with s hs hl hnb hs0
    have hs0 : 0 < s := hs0
    generalize (fun i : Fin d => (r ω s).params.getD i 0) = y at hl hnb
    obtain ⟨x, mn, o', p, priors, hp, hB, hset, hdo, hfr⟩ := hs
    obtain ⟨p0, hx, hcv⟩ := stored_fitP hdo hfr
    obtain ⟨hbest, hcov⟩ := hset p0
    have hcov := hcov _ hcv
    change (mn (nll poles (fitPtsP o p c) priors ⟨d, pinv (independent fun i => s * σ i).m⟩) p0).x = _ at hx
    rw [hx, hl] at hbest hcov
    have hcost : ∀ᶠ v in 𝓝 y, nll poles (fitPtsP o p c) priors ⟨d, pinv (independent fun i => s * σ i).m⟩ (List.ofFn v) =
        .ok (costOf (inBins o G) x₀ err (fun k : ZMod n => o.rsh * errRest o c k) σ (fun k => fftR (noise ω) k / (drive o k / o.rsh))
          (fun k => o.rsh * Z k) (g ω) s v) := by
      filter_upwards [hnb] with v hv
      exact nll_bins hρ hm hs0 hp hd hB hfam.truth hv.1
    refine ⟨hl, ?_, fun a b => ?_⟩
    · obtain ⟨q0, hq0, δ, hδ, hmin⟩ := hbest
      rw [hcost.self_of_nhds] at hq0
      cases hq0
      have hball : ∀ᶠ v in 𝓝 y, Close δ (List.ofFn v) (List.ofFn y) := by
        filter_upwards [Metric.ball_mem_nhds y hδ] with v hv
        refine List.forall₂_iff_get.2 ⟨by simp, fun i h1 h2 => ?_⟩
        have h3 := (dist_le_pi_dist v y ⟨i, by simpa using h1⟩).trans_lt (Metric.mem_ball.1 hv)
        simpa [Real.dist_eq] using h3
      filter_upwards [hball, hcost, hnb] with v hv hrv hw
      exact hmin _ _ hv hw.2.2 hrv
    · obtain ⟨M, hM, -, hc⟩ := hcov
      have hlen : (List.ofFn y).length = d := by simp
      have hc' : ((r ω s).cov.getD a []).getD b 0 = M⁻¹ (Fin.cast hlen.symm a) (Fin.cast hlen.symm b) :=
        hc (Fin.cast hlen.symm a) (Fin.cast hlen.symm b)
      rw [hc']
      have hMs : M.submatrix (finCongr hlen.symm) (finCongr hlen.symm) = Matrix.of fun i j => fderiv ℝ (fun v => fderiv ℝ
          (costOf (inBins o G) x₀ err (fun k : ZMod n => o.rsh * errRest o c k) σ (fun k => fftR (noise ω) k / (drive o k / o.rsh))
            (fun k => o.rsh * Z k) (g ω) s) v (Pi.single j 1)) y (Pi.single i 1) := by
        ext i j
        rw [Matrix.submatrix_apply, hM]
        exact curvature_eq (cost_contDiff hnb.self_of_nhds.2.1 hs0) hcost i j
      have hinv := Matrix.inv_submatrix_equiv M (finCongr hlen.symm) (finCongr hlen.symm)
      rw [← hMs, hinv]
      rfl

/-- Local minima near the truth, and covariances for them. -/
theorem beliefs_exist (hρ : 0 < o.rsh) (hfam : Family o W c σ G x₀) (hd : d = nParams poles) (hm : Mirrored o c R)
    (noise : ZMod n → ℝ) (Z : ZMod n → ℂ) (g : Fin d → ℝ) :
    ∃ (y : ℝ → Fin d → ℝ) (cov : ℝ → List (List ℝ)), Tendsto y (𝓝[>] 0) (𝓝 x₀) ∧ ∀ᶠ s in 𝓝[>] 0,
      (¬∃ v ∈ diagOf (cov s), v < 0) ∧ ∀ p priors, Averaged o W Z noise R s p → Believed priors (List.ofFn x₀) σ g s →
      LocalLeast (nll poles (fitPtsP o p c) priors ⟨d, pinv (independent fun i => s * σ i).m⟩) (List.ofFn (y s)) ∧
      InverseHessian (nll poles (fitPtsP o p c) priors ⟨d, pinv (independent fun i => s * σ i).m⟩) (List.ofFn (y s)) (cov s) := by
  classical
  obtain ⟨hF, hok⟩ := hfam.bins
  set err : ZMod n → ℝ := fun k => o.rsh * errOf o c R k with herr
  set errT : ZMod n → ℝ := fun k => o.rsh * errRest o c k with herrT
  set X : ZMod n → ℂ := fun k => fftR noise k / (drive o k / o.rsh) with hX
  obtain ⟨hinj, hpd⟩ := info_det (err := err) (σ := σ) hF (hfam.inj' hρ hm)
  obtain ⟨κ, hκ, hbd⟩ := inj_bound (fderiv ℝ (unitless (inBins o G) err σ) x₀) hinj
  have hU := unitless_contDiff (err := err) (σ := σ) hF
  have hP := rest_contDiff (errT := errT) hF fun k => o.rsh * Z k
  obtain ⟨y, hy, hmin⟩ := minima_exist (hU.of_le (by norm_num)) hκ hbd (hP.of_le (by norm_num))
    (fun v => Finset.sum_nonneg fun k _ => by positivity) (unitErr err σ X g)
  have hunit := hpd.isUnit.map Matrix.detMonoidHom
  obtain ⟨l1, -, l3⟩ := belief_limits hU hinj hP hy (e := unitErr err σ X g) (fun i j => inner_info hF i j) hunit.ne_zero
  set M : ℝ → Matrix (Fin d) (Fin d) ℝ := fun s => Matrix.of fun i j => fderiv ℝ (fun v => fderiv ℝ
    (costOf (inBins o G) x₀ err errT σ X (fun k => o.rsh * Z k) g s) v (Pi.single j 1)) (y s) (Pi.single i 1) with hM
  have hMs : ∀ s, 0 < s → (Matrix.of fun i j => fderiv ℝ (fun v => fderiv ℝ (fun v => (2 * s ^ 2)⁻¹ *
      (‖unitless (inBins o G) err σ x₀ + s • unitErr err σ X g - unitless (inBins o G) err σ v‖ ^ 2 +
        s ^ 2 * ∑ k, ‖o.rsh * Z k - inBins o G v k‖ ^ 2 / errT k ^ 2)) v (Pi.single j 1)) (y s) (Pi.single i 1)) = M s := fun s hs => by
    rw [hM]; simp only [cost_unitless hs]
  have hdiag : ∀ᶠ s in 𝓝[>] 0, ∀ i, 0 < (M s)⁻¹ i i := by
    refine eventually_all.2 fun i => ?_
    have h1 := tendsto_pi_nhds.1 (tendsto_pi_nhds.1 l3 i) i
    filter_upwards [h1.eventually_const_lt hpd.inv.diag_pos, self_mem_nhdsWithin] with s hs hs0
    have hs0 : 0 < s := hs0
    rw [hMs s hs0, Matrix.smul_apply, smul_eq_mul] at hs
    exact (mul_pos_iff_of_pos_left (a := (s ^ 2)⁻¹) (by positivity)).1 hs
  refine ⟨y, fun s => List.ofFn fun a => List.ofFn fun b => (M s)⁻¹ a b, hy, ?_⟩
  filter_upwards [hmin, l1, hdiag, hy.eventually hok.eventually_nhds, self_mem_nhdsWithin] with s hmin hdet hdg hnb hs0
  have hs0 : 0 < s := hs0
  rw [hMs s hs0] at hdet
  have hMx : M s = Matrix.of fun i j => fderiv ℝ (fun v => fderiv ℝ
    (costOf (inBins o G) x₀ err errT σ X (fun k => o.rsh * Z k) g s) v (Pi.single j 1)) (y s) (Pi.single i 1) := rfl
  generalize M s = Ms at hdet hdg hMx
  refine ⟨?_, fun p priors hp hB => ?_⟩
  · rintro ⟨v, hv, hv0⟩
    obtain ⟨i, hi, rfl⟩ := List.mem_map.1 hv
    have hi' : i < d := by simpa using hi
    have := hdg ⟨i, hi'⟩
    simp [hi'] at hv0
    linarith
  generalize y s = x at hmin hnb hMx
  have hcost : ∀ᶠ v in 𝓝 x, nll poles (fitPtsP o p c) priors ⟨d, pinv (independent fun i => s * σ i).m⟩ (List.ofFn v) =
      .ok (costOf (inBins o G) x₀ err errT σ X (fun k => o.rsh * Z k) g s v) := by
    filter_upwards [hnb] with v hv
    exact nll_bins hρ hm hs0 hp hd hB hfam.truth hv.1
  generalize nll poles (fitPtsP o p c) priors ⟨d, pinv (independent fun i => s * σ i).m⟩ = f at hcost
  refine ⟨⟨_, hcost.self_of_nhds, ?_⟩, Ms.submatrix (finCongr (by simp)) (finCongr (by simp)), fun a b => ?_, ?_, fun a b => ?_⟩
  · obtain ⟨δ, hδ, hb⟩ := Metric.eventually_nhds_iff.1 (hmin.and hcost)
    refine ⟨δ, hδ, fun v q hv _ hq => ?_⟩
    have hlen : v.length = d := by simpa using hv.length_eq
    obtain ⟨w, rfl⟩ : ∃ w : Fin d → ℝ, v = List.ofFn w := by
      subst hlen
      exact ⟨fun i => v.get i, (List.ofFn_get v).symm⟩
    obtain ⟨h1, h2⟩ := hb (y := w) (by
      rw [dist_pi_lt_iff hδ]
      intro i
      have := (List.forall₂_iff_get.1 hv).2 i (by simp) (by simp)
      simpa [Real.dist_eq] using this)
    rw [h2] at hq
    cases hq
    rw [cost_unitless hs0]
    exact mul_le_mul_of_nonneg_left h1 (by positivity)
  · have h1 := curvature_eq (cost_contDiff hnb.self_of_nhds.2.1 hs0) hcost (Fin.cast (by simp) a) (Fin.cast (by simp) b)
    rw [Matrix.submatrix_apply, hMx]
    exact h1.symm
  · rw [Matrix.det_submatrix_equiv_self]
    exact isUnit_iff_ne_zero.2 hdet
  · rw [Matrix.inv_submatrix_equiv, Matrix.submatrix_apply]
    have ha : a.val < d := by simpa using a.2
    have hb : b.val < d := by simpa using b.2
    simp [ha, hb]
    rfl

end

end Verif.Device
