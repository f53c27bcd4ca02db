import Verif.DidvPlotLemmas

/-! Properties C92-C94 (what the plots of the dI/dV classes show). -/

namespace Verif.Didv
open Verif Dft

/-! ### C92: frequency domain -/

/-- The fits drawn for a `DIDV` object are its stored results with a requested number of poles, each once and
in order of the number of poles. -/
theorem drawn_results {o : Obj} {v : View} (hv : o.view = .ok v) (poles : Poles) :
    ∃ ks : List ℤ, ks.Pairwise (· < ·) ∧
      (∀ k, k ∈ ks ↔ Requested poles k ∧ (fitresult o k).plotFit ≠ none) ∧
      (v.drawn poles).map some = ks.map fun k => (fitresult o k).plotFit := by
  unfold Obj.view at hv
  cases hp : o.proc with
  | none => rw [hp] at hv; cases hv
  | some p =>
    rw [hp] at hv
    cases hv
    refine drawn_of _ poles (fun k => (fitresult o k).plotFit) ?_ ?_ ?_ ?_
    · change Lookup.plotFit (match o.res1 with | none => .empty | some r => .found r) = _
      cases o.res1 <;> rfl
    · change Lookup.plotFit (match o.res2 with | none => .empty | some r => .found r) = _
      cases o.res2 <;> rfl
    · change Lookup.plotFit (match o.res3 with | none => .empty | some r => .found r) = _
      cases o.res3 <;> rfl
    · intro k h1 h2 h3
      simp [fitresult, h1, h2, h3, Lookup.plotFit]

example (r : Result) : ∃ v, Obj.view { (processtraces (exObj ([(1 : ℝ), 2].map spike) false 0)).2 with
    res1 := some r } = .ok v ∧ v.drawn (.one 1) = [r.plotFit] := by
  have h := (process_ok (exObj_ok [(1 : ℝ), 2] (by simp) (by simp) false 0)).1
  refine ⟨_, by unfold Obj.view; rw [h], ?_⟩
  simp [View.drawn, Poles.has]

/-- The same for a `DIDVPriors` object. -/
theorem drawn_results_priors {o : PObj} {v : View} (hv : o.view = .ok v) (poles : Poles) :
    ∃ ks : List ℤ, ks.Pairwise (· < ·) ∧ (∀ k, k ∈ ks ↔ Requested poles k ∧ fitresultP o k ≠ none) ∧
      (v.drawn poles).map some = ks.map fun k =>
        (fitresultP o k).map fun r => ⟨r.cost, r.params.getLastD 0, sspArgs r.params⟩ := by
  unfold PObj.view at hv
  cases hp : o.base.proc with
  | none => rw [hp] at hv; cases hv
  | some p =>
    rw [hp] at hv
    cases hv
    have := drawn_of ⟨p, o.base.fs, o.base.sgamp, o.base.sgfreq, o.base.duty, o.res1.map PResult.plotFit,
      o.res2.map PResult.plotFit, o.res3.map PResult.plotFit⟩ poles
      (fun k => (fitresultP o k).map PResult.plotFit) rfl rfl rfl
      (by intro k h1 h2 h3; simp [fitresultP, h1, h2, h3])
    obtain ⟨ks, h1, h2, h3⟩ := this
    exact ⟨ks, h1, by simpa using h2, h3⟩

/-- Without results the time offset is zero; otherwise it is the time shift of the result with the lowest
cost, of the one with fewest poles among equal costs. -/
theorem bestOffset_lowest (v : View) :
    ((∀ r ∈ [v.fit1, v.fit2, v.fit3], r = none) → v.bestOffset = 0) ∧
    (∀ (k : ℕ) f, [v.fit1, v.fit2, v.fit3][k]? = some (some f) →
      (∀ (j : ℕ) g, [v.fit1, v.fit2, v.fit3][j]? = some (some g) → f.cost ≤ g.cost ∧ (j < k → f.cost < g.cost)) →
      v.bestOffset = f.dt) ∧
    ((∃ r ∈ [v.fit1, v.fit2, v.fit3], r ≠ none) → ∃ f, some f ∈ [v.fit1, v.fit2, v.fit3] ∧ v.bestOffset = f.dt ∧
      ∀ g, some g ∈ [v.fit1, v.fit2, v.fit3] → f.cost ≤ g.cost) := by
  have hfits : v.fits = [v.fit1, v.fit2, v.fit3] := rfl
  simp only [← hfits]
  refine ⟨fun h => ?_, fun k f hk h => ?_, ?_⟩
  · have : v.fits.filterMap id = [] := by
      rw [List.filterMap_eq_nil_iff]
      intro r hr
      rw [h r hr]; rfl
    rw [View.bestOffset, this]; rfl
  · have hlen : k < v.fits.length := by
      by_contra hc
      rw [List.getElem?_eq_none (by omega)] at hk
      cases hk
    have hsplit : v.fits = v.fits.take k ++ some f :: v.fits.drop (k + 1) := by
      have e1 := List.getElem?_eq_getElem hlen
      rw [hk] at e1
      have e2 : v.fits[k] = some f := by injection e1 with e1; exact e1.symm
      rw [← e2]
      simp
    have hm : minCost (v.fits.filterMap id) = some f := by
      rw [hsplit, List.filterMap_append, List.filterMap_cons]
      refine minCost_first _ _ _ (fun g hg => ?_) (fun g hg => ?_)
      · rw [List.mem_filterMap] at hg
        obtain ⟨r, hr, e⟩ := hg
        obtain ⟨j, hj, ej⟩ := List.mem_iff_getElem.1 hr
        rw [List.length_take] at hj
        rw [List.getElem_take] at ej
        refine (h j g ?_).2 (by omega)
        rw [List.getElem?_eq_getElem (by omega), ej]
        simpa using e
      · rw [List.mem_filterMap] at hg
        obtain ⟨r, hr, e⟩ := hg
        obtain ⟨j, hj, ej⟩ := List.mem_iff_getElem.1 hr
        rw [List.getElem_drop] at ej
        rw [List.length_drop] at hj
        refine (h (k + 1 + j) g ?_).1
        rw [List.getElem?_eq_getElem (by omega), ej]
        simpa using e
    rw [View.bestOffset, hm]
  · rintro ⟨r, hr, hne⟩
    cases hm : minCost (v.fits.filterMap id) with
    | none =>
      have := minCost_none hm
      rw [List.filterMap_eq_nil_iff] at this
      exact absurd (this r hr) hne
    | some f =>
      obtain ⟨h1, h2⟩ := minCost_mem hm
      refine ⟨f, by simpa using h1, by rw [View.bestOffset, hm], fun g hg => h2 g (by simpa using hg)⟩

example : (ohmView (some ⟨2, 0, oddArgs⟩) (some ⟨1, 1 / 8, oddArgs⟩)).bestOffset = 1 / 8 := by
  refine (bestOffset_lowest _).2.1 1 ⟨1, 1 / 8, oddArgs⟩ rfl fun j g hj => ?_
  match j with
  | 0 =>
    cases hj
    norm_num
  | 1 =>
    cases hj
    simp
  | 2 => cases hj
  | j + 3 => cases hj

/-- Partial form of C92: where the fit with the lowest cost (or any fit with the same time shift) reproduces
the data, its curve runs through the data point, for each of the four functions plotted and in the plot of
the impedance.  Missing: the other fits. -/
theorem best_fit_on_data_partial {v : View} {f : PlotFit} (hdt : f.dt = v.bestOffset) {k : ℕ}
    (hk : k ∈ v.plotBins) (hf : FitsBin v f k) :
    (∀ fn : ℂ → ℝ, (v.freq k, fn (v.proc.didvmean k * v.phase k)) ∈ v.dataPoints fn ∧
      (v.freq k, some (fn (v.proc.didvmean k * v.phase k))) ∈ v.fitFreq fn f) ∧
    (∃ p, p ∈ v.dvdiPoints ∧ some p ∈ v.dvdiFit f ∧
      p.1 + p.2 * Complex.I = 1 / (v.proc.didvmean k * v.phase k)) := by
  obtain ⟨y, hy, hd⟩ := hf
  have e : v.proc.didvmean k * v.phase k = y := by
    rw [phase_mul v f k y hd, ← hdt]
    simp
  have hkf : k ∈ v.fitBins := mem_fitBins.2 (mem_plotBins.1 hk).1
  refine ⟨fun fn => ⟨List.mem_map.2 ⟨k, hk, rfl⟩, List.mem_map.2 ⟨k, hkf, ?_⟩⟩,
    ((1 / y).re, (1 / y).im), List.mem_map.2 ⟨k, hk, by rw [e]⟩, List.mem_map.2 ⟨k, hkf, ?_⟩, ?_⟩
  · rw [hy, e]
  · rw [hy]
  · rw [e]
    exact Complex.re_add_im _

example : (⟨1, 1 / 8, oddArgs⟩ : PlotFit).dt = (ohmView (some ⟨1, 1 / 8, oddArgs⟩) none).bestOffset ∧
    1 ∈ (ohmView (some ⟨1, 1 / 8, oddArgs⟩) none).plotBins ∧
    FitsBin (ohmView (some ⟨1, 1 / 8, oddArgs⟩) none) ⟨1, 1 / 8, oddArgs⟩ 1 :=
  ⟨rfl, ohm_bin _ _, ohm_fits _ _ _ _⟩

/-- The results of a fit: a bin which the fit parameters reproduce is reproduced by what is drawn. -/
theorem fitsBin_result {params ft : List ℝ} {cov : List (List ℝ)} {cost rsh rp r0 : ℝ} {r : Result}
    (h : fitResult params cov ft cost rsh rp r0 = .ok r) (v : View) (k : ℕ) :
    FitsBin v r.plotFit k ↔ fitY (v.freq k) params = .ok (v.proc.didvmean k) := by
  obtain ⟨hp, ⟨dt, hdt, hY⟩, _⟩ := result_reproduces_fit h
  have hl : r.params.getLastD 0 = dt := by
    rw [hp, List.getLastD_eq_getLast?, hdt]; rfl
  rw [← hY]
  unfold FitsBin Result.plotFit
  rw [hl]
  cases hc : complexadmittance (v.freq k) (sspArgs r.ssp) with
  | error e => simp [Except.map]
  | ok y =>
    simp only [Except.map, Except.ok.injEq]
    constructor
    · rintro ⟨z, hz, e⟩
      subst hz
      exact e.symm
    · intro e
      exact ⟨y, rfl, e.symm⟩

example : ∃ r, fitResult [2, 1, 1 / 8] [] [1] 0 1 1 1 = .ok r := by
  have hc : convertTo [2, 1, 1 / 8] 1 1 1 = .ok [1, 2 - 1, 2 * 1, 1 / 8] := rfl
  have hz : complexadmittance 0 (sspArgs [1, 2 - 1, 2 * 1, 1 / 8]) = .ok (1 / 2) := by
    have hp : poleExtractor (sspArgs [1, 2 - 1, 2 * 1, 1 / 8]) = .ok 1 := by simp [poleExtractor, sspArgs]
    have hf : convertFrom [1, 2 - 1, 2 * 1, 0] = .ok [1 + (2 - 1), 2 * 1 / (1 + (2 - 1)), 0] := by
      simp only [convertFrom]
      rw [if_neg (by norm_num)]
    have hf' : convertFrom [(sspArgs [1, 2 - 1, 2 * 1, 1 / 8]).rsh.getD 0,
        (sspArgs [1, 2 - 1, 2 * 1, 1 / 8]).rp.getD 0, (sspArgs [1, 2 - 1, 2 * 1, 1 / 8]).L.getD 0, 0] =
        .ok [1 + (2 - 1), 2 * 1 / (1 + (2 - 1)), 0] := hf
    unfold complexadmittance compleximpedance
    simp only [hp, hf', recipZ, onePoleZ, jw]
    rw [if_neg (by norm_num)]
    norm_num
  unfold fitResult
  rw [hc]
  simp only [hz]
  exact ⟨_, rfl⟩

/-- Full C92 is false: a fit which reproduces the data exactly is drawn away from them, in its real or in its
imaginary part, when its time shift differs from that of the fit with the lowest cost by anything but a
whole number of oscillations. -/
theorem other_fit_rotated_violated {v : View} (hfs : 0 < v.fs) {f : PlotFit} {k : ℕ}
    (hk : k ∈ v.plotBins) (hf : FitsBin v f k)
    (hdt : ∀ m : ℤ, v.freq k * (v.bestOffset - f.dt) ≠ m) :
    (v.freq k, some (v.proc.didvmean k * v.phase k).re) ∉ v.fitFreq Complex.re f ∨
    (v.freq k, some (v.proc.didvmean k * v.phase k).im) ∉ v.fitFreq Complex.im f := by
  obtain ⟨y, hy, hd⟩ := hf
  have hkf : k ∈ v.fitBins := mem_fitBins.2 (mem_plotBins.1 hk).1
  rw [fitFreq_value hfs hkf hy, fitFreq_value hfs hkf hy]
  by_contra hc
  push Not at hc
  obtain ⟨h1, h2⟩ := hc
  have e : v.proc.didvmean k * v.phase k = y :=
    Complex.ext (by simpa using h1) (by simpa using h2)
  rw [phase_mul v f k y hd] at e
  have hy0 := admittance_ne_zero hy
  have h3 : Complex.exp (2 * Complex.I * Real.pi * v.freq k * (v.bestOffset - f.dt)) = 1 :=
    mul_left_cancel₀ hy0 (by rw [e, mul_one])
  rw [Complex.exp_eq_one_iff] at h3
  obtain ⟨m, hm⟩ := h3
  refine hdt m ?_
  have hpi : (2 * Real.pi * Complex.I : ℂ) ≠ 0 := by simp [Real.pi_ne_zero]
  have : ((v.freq k * (v.bestOffset - f.dt) : ℝ) : ℂ) = (m : ℂ) := by
    push_cast
    refine mul_left_cancel₀ hpi ?_
    linear_combination hm
  exact_mod_cast this

example : 0 < (ohmView (some ⟨0, 0, oddArgs⟩) (some ⟨1, 1 / 8, oddArgs⟩)).fs ∧
    1 ∈ (ohmView (some ⟨0, 0, oddArgs⟩) (some ⟨1, 1 / 8, oddArgs⟩)).plotBins ∧
    FitsBin (ohmView (some ⟨0, 0, oddArgs⟩) (some ⟨1, 1 / 8, oddArgs⟩)) ⟨1, 1 / 8, oddArgs⟩ 1 ∧
    ∀ m : ℤ, (ohmView (some ⟨0, 0, oddArgs⟩) (some ⟨1, 1 / 8, oddArgs⟩)).freq 1 *
      ((ohmView (some ⟨0, 0, oddArgs⟩) (some ⟨1, 1 / 8, oddArgs⟩)).bestOffset - 1 / 8) ≠ m := by
  refine ⟨by change (0 : ℝ) < 8; norm_num, ohm_bin _ _, ohm_fits _ _ _ _, fun m hm => ?_⟩
  have hb : (ohmView (some ⟨0, 0, oddArgs⟩) (some ⟨1, 1 / 8, oddArgs⟩)).bestOffset = 0 := by
    have : minCost [⟨0, 0, oddArgs⟩, ⟨1, 1 / 8, oddArgs⟩] = some ⟨0, 0, oddArgs⟩ :=
      minCost_first [] _ _ (by simp) (by simp)
    change (match minCost [⟨0, 0, oddArgs⟩, ⟨1, 1 / 8, oddArgs⟩] with
      | none => (0 : ℝ) | some f => f.dt) = 0
    rw [this]
  rw [ohm_freq, hb] at hm
  have h8 : (-1 : ℝ) = 8 * m := by linarith
  have : (-1 : ℤ) = 8 * m := by exact_mod_cast h8
  omega

/-- Partial form of the bounds of C92: without a time offset the curves labelled as one standard deviation
bounds lie one standard deviation above and below the data in the plots of the real part and the imaginary
part, at the same frequencies.  Missing: a time offset (see below), the modulus and the phase. -/
theorem bounds_partial {v : View} (h : v.bestOffset = 0) {i k : ℕ} (hk : v.plotBins[i]? = some k) :
    (v.dataPoints Complex.re)[i]? = some (v.freq k, (v.proc.didvmean k).re) ∧
    (v.upperBound Complex.re)[i]? = some (v.freq k, (v.proc.didvmean k).re + (v.proc.didvstd k).re) ∧
    (v.lowerBound Complex.re)[i]? = some (v.freq k, (v.proc.didvmean k).re - (v.proc.didvstd k).re) ∧
    (v.dataPoints Complex.im)[i]? = some (v.freq k, (v.proc.didvmean k).im) ∧
    (v.upperBound Complex.im)[i]? = some (v.freq k, (v.proc.didvmean k).im + (v.proc.didvstd k).im) ∧
    (v.lowerBound Complex.im)[i]? = some (v.freq k, (v.proc.didvmean k).im - (v.proc.didvstd k).im) := by
  have hp : v.phase k = 1 := by simp [View.phase, h]
  simp [View.dataPoints, View.upperBound, View.lowerBound, hk, hp]

example : (ohmView none none).bestOffset = 0 ∧ ∃ i : ℕ, (ohmView none none).plotBins[i]? = some 1 :=
  ⟨rfl, List.mem_iff_getElem?.1 (ohm_bin _ _)⟩

/-- The bounds are wrong with a time offset: with equal deviations `σ > 0` of both parts and an offset of an
eighth of an oscillation the bounds of the real part coincide with the data, as if they had no error. -/
theorem bounds_collapse_violated {v : View} {k : ℕ} {σ : ℝ} (hs : v.proc.didvstd k = σ * (1 + Complex.I))
    (ho : v.freq k * v.bestOffset = 1 / 8) {i : ℕ} (hk : v.plotBins[i]? = some k) :
    ∃ p, (v.dataPoints Complex.re)[i]? = some p ∧ (v.upperBound Complex.re)[i]? = some p ∧
      (v.lowerBound Complex.re)[i]? = some p := by
  have hp : v.phase k = Complex.exp ((Real.pi / 4 : ℝ) * Complex.I) := by
    rw [View.phase]
    congr 1
    have : (v.freq k : ℂ) * v.bestOffset = 1 / 8 := by
      rw [← Complex.ofReal_mul, ho]; norm_num
    push_cast
    linear_combination 2 * Complex.I * (Real.pi : ℂ) * this
  have h0 : (v.proc.didvstd k * v.phase k).re = 0 := by
    rw [hp, hs, Complex.exp_mul_I, ← Complex.ofReal_cos, ← Complex.ofReal_sin, Real.cos_pi_div_four,
      Real.sin_pi_div_four]
    simp
  refine ⟨(v.freq k, (v.proc.didvmean k * v.phase k).re), ?_⟩
  simp only [View.dataPoints, View.upperBound, View.lowerBound, List.getElem?_map, hk, Option.map_some,
    add_mul, sub_mul, Complex.add_re, Complex.sub_re, h0, add_zero, sub_zero, and_self]

example : (ohmView (some ⟨1, 1 / 8, oddArgs⟩) none).proc.didvstd 1 = (1 / 100 : ℝ) * (1 + Complex.I) ∧
    (ohmView (some ⟨1, 1 / 8, oddArgs⟩) none).freq 1 *
      (ohmView (some ⟨1, 1 / 8, oddArgs⟩) none).bestOffset = 1 / 8 ∧
    ∃ i : ℕ, (ohmView (some ⟨1, 1 / 8, oddArgs⟩) none).plotBins[i]? = some 1 :=
  ⟨rfl, by rw [ohm_freq, one_mul]; rfl, List.mem_iff_getElem?.1 (ohm_bin _ _)⟩

/-- In the plot of the modulus both bounds can lie above the data. -/
theorem abs_bounds_violated {v : View} {k : ℕ} (hs : v.proc.didvstd k ≠ 0)
    (ho : (v.proc.didvmean k * starRingEnd ℂ (v.proc.didvstd k)).re = 0) {i : ℕ}
    (hk : v.plotBins[i]? = some k) :
    ∃ d u l, (v.dataPoints fun z => ‖z‖)[i]? = some (v.freq k, d) ∧
      (v.upperBound fun z => ‖z‖)[i]? = some (v.freq k, u) ∧
      (v.lowerBound fun z => ‖z‖)[i]? = some (v.freq k, l) ∧ d < u ∧ d < l := by
  have hp : ‖v.phase k‖ = 1 := by
    have : v.phase k = Complex.exp ((2 * Real.pi * v.bestOffset * v.freq k : ℝ) * Complex.I) := by
      rw [View.phase]
      congr 1
      push_cast
      ring
    rw [this, Complex.norm_exp_ofReal_mul_I]
  have h1 : ∀ a b : ℂ, b ≠ 0 → (a * starRingEnd ℂ b).re = 0 → ‖a‖ < ‖a + b‖ := by
    intro a b hb h
    rw [← sq_lt_sq₀ (norm_nonneg _) (norm_nonneg _), ← Complex.normSq_eq_norm_sq,
      ← Complex.normSq_eq_norm_sq, Complex.normSq_add, h]
    have := Complex.normSq_pos.2 hb
    linarith
  refine ⟨‖v.proc.didvmean k * v.phase k‖, ‖(v.proc.didvmean k + v.proc.didvstd k) * v.phase k‖,
    ‖(v.proc.didvmean k - v.proc.didvstd k) * v.phase k‖, by simp [View.dataPoints, hk],
    by simp [View.upperBound, hk], by simp [View.lowerBound, hk], ?_⟩
  rw [norm_mul, norm_mul, norm_mul, hp]
  simp only [mul_one]
  refine ⟨h1 _ _ hs ho, ?_⟩
  rw [sub_eq_add_neg]
  refine h1 _ _ (neg_ne_zero.2 hs) ?_
  rw [map_neg, mul_neg, Complex.neg_re, ho, neg_zero]

example : (viewOf 8 8 1 (1 / 2) 0 (fun _ => 1 - Complex.I) (fun _ => 1 / 100 * (1 + Complex.I)) none
      none).proc.didvstd 1 ≠ 0 ∧
    ((1 - Complex.I) * starRingEnd ℂ (1 / 100 * (1 + Complex.I))).re = 0 := by
  constructor
  · intro h
    have := congrArg Complex.re h
    simp [viewOf] at this
  · simp

/-- The vertical range is symmetric and shows every data point below 100 kHz; the horizontal range shows
every data point and every point of a fit; the plot fails exactly if there is no data point below
100 kHz. -/
theorem freqPlot_range (v : View) (fn : ℂ → ℝ) (poles : Poles) :
    ((∀ k ∈ v.plotBins, 10 ^ 5 ≤ v.freq k) → v.freqPlot fn poles = .error .valueError) ∧
    ((∃ k ∈ v.plotBins, v.freq k < 10 ^ 5) → ∃ g, v.freqPlot fn poles = .ok g ∧
      g.ylim.1 = -g.ylim.2 ∧
      (∀ p ∈ g.data, p.1 < 10 ^ 5 → g.ylim.1 ≤ p.2 ∧ p.2 ≤ g.ylim.2) ∧
      (∃ p ∈ g.data, |p.2| = g.ylim.2) ∧
      (∀ p ∈ g.data, g.xlim.1 ≤ p.1 ∧ p.1 ≤ g.xlim.2) ∧
      (∀ c ∈ g.fits, ∀ p ∈ c, g.xlim.1 ≤ p.1 ∧ p.1 ≤ g.xlim.2)) := by
  have hmem : ∀ y, y ∈ v.limValues fn ↔ ∃ k ∈ v.plotBins, v.freq k < 10 ^ 5 ∧
      fn (v.proc.didvmean k * v.phase k) = y := by
    intro y
    simp [View.limValues, and_assoc]
  have hx : ∀ k ∈ v.fitBins, lmin (v.fitBins.map v.freq) ≤ v.freq k ∧
      v.freq k ≤ lmax (v.fitBins.map v.freq) := fun k hk =>
    ⟨lmin_le (List.mem_map.2 ⟨k, hk, rfl⟩), le_lmax (List.mem_map.2 ⟨k, hk, rfl⟩)⟩
  constructor
  · intro h
    have : v.limValues fn = [] := by
      rw [List.eq_nil_iff_forall_not_mem]
      intro y hy
      obtain ⟨k, hk, hlt, _⟩ := (hmem y).1 hy
      exact absurd (h k hk) (not_le.2 hlt)
    rw [View.freqPlot, if_pos this]
  · rintro ⟨k0, hk0, hl0⟩
    have hne : v.limValues fn ≠ [] := List.ne_nil_of_mem ((hmem _).2 ⟨k0, hk0, hl0, rfl⟩)
    refine ⟨_, by rw [View.freqPlot, if_neg hne], rfl, ?_, ?_, ?_, ?_⟩
    · intro p hp hlt
      obtain ⟨k, hk, rfl⟩ := List.mem_map.1 hp
      have hy := (hmem _).2 ⟨k, hk, hlt, rfl⟩
      dsimp only
      have h1 := le_lmax hy
      have h2 := lmin_le hy
      have h3 := le_max_left (lmax (v.limValues fn)) (-lmin (v.limValues fn))
      have h4 := le_max_right (lmax (v.limValues fn)) (-lmin (v.limValues fn))
      constructor <;> linarith
    · have hmax := lmax_mem hne
      have hmin := lmin_mem hne
      have hle := lmin_le hmax
      rcases le_total (lmax (v.limValues fn)) (-lmin (v.limValues fn)) with h | h
      · obtain ⟨k, hk, _, e⟩ := (hmem _).1 hmin
        refine ⟨_, List.mem_map.2 ⟨k, hk, rfl⟩, ?_⟩
        simp only [e, max_eq_right h]
        rw [abs_of_nonpos (by linarith)]
      · obtain ⟨k, hk, _, e⟩ := (hmem _).1 hmax
        refine ⟨_, List.mem_map.2 ⟨k, hk, rfl⟩, ?_⟩
        simp only [e, max_eq_left h]
        rw [abs_of_nonneg (by linarith)]
    · intro p hp
      obtain ⟨k, hk, rfl⟩ := List.mem_map.1 hp
      exact hx k (mem_fitBins.2 (mem_plotBins.1 hk).1)
    · intro c hc p hp
      obtain ⟨f, _, rfl⟩ := List.mem_map.1 hc
      obtain ⟨k, hk, rfl⟩ := List.mem_map.1 hp
      exact hx k hk

example : ∃ k ∈ (ohmView none none).plotBins, (ohmView none none).freq k < 10 ^ 5 :=
  ⟨1, ohm_bin _ _, by rw [ohm_freq]; norm_num⟩

/-! ### C93: time domain -/

variable {n : ℕ} [NeZero n]

/-- The hypotheses on the trace hold for every object with processed traces. -/
theorem processed_sampled {o : Obj} (hfs : 0 < o.fs) (h : (processtraces o).1 = .ok ()) :
    ∃ v, (processtraces o).2.view = .ok v ∧
      Sampled v (nBins o.nraw o.fs o.sgfreq) (-(processtraces o).2.dt0) ∧
      2 ≤ nBins o.nraw o.fs o.sgfreq := by
  obtain ⟨hp, _, h2⟩ := process_ok h
  have hfs' : (processtraces o).2.fs = o.fs := by
    rcases process_cases o with ⟨_, e⟩ | ⟨_, _, e⟩ | ⟨_, _, _, e⟩ | ⟨_, _, _, e⟩ <;> rw [e] <;> rfl
  have hdt : (processtraces o).2.dt0 = (shiftDt0 o).dt0 := by
    rcases process_cases o with ⟨_, e⟩ | ⟨_, _, e⟩ | ⟨_, _, _, e⟩ | ⟨_, _, _, e⟩ <;> rw [e] at h ⊢
    · cases h
  refine ⟨_, by unfold Obj.view; rw [hp], ⟨rfl, by rw [← hfs'] at hfs; exact hfs, fun i => ?_, ?_⟩, h2⟩
  · change (i : ℝ) * (1 / o.fs) - (shiftDt0 o).dt0 = i / (processtraces o).2.fs + -(processtraces o).2.dt0
    rw [hfs', hdt]
    ring
  · exact mean_swap _ _

example : 0 < (exObj ([1, 2].map spike) false 0).fs ∧
    (processtraces (exObj ([1, 2].map spike) false 0)).1 = .ok () :=
  ⟨by simp [exObj], exObj_ok _ (by simp) (by simp) _ _⟩

/-- A fit which reproduces the spectrum of the averaged trace at every frequency but zero, with a time shift
of a whole number of bins, is drawn through the averaged trace. -/
theorem fit_on_mean_trace {v : View} {t0 : ℝ} (hv : Sampled v n t0) (h2 : 2 ≤ n) {f : PlotFit} {s : ℤ}
    (hs : f.dt = s / v.fs) {c : Curve} (hc : v.fitCurve f = .ok c)
    (hny : ∀ k : ZMod n, 2 * k.val = n →
      sqWave (1 / v.fs) v.sgamp (f.args.rsh.getD 0) v.sgfreq v.duty k = 0)
    (hfit : ∀ k : ZMod n, k ≠ 0 → ∀ y, complexadmittance (fftfreq v.fs k) f.args = .ok y →
      fftR (v.trace n) k = sqWave (1 / v.fs) v.sgamp (f.args.rsh.getD 0) v.sgfreq v.duty k *
        (y * Complex.exp (-2 * Complex.I * Real.pi * fftfreq v.fs k * f.dt))) :
    Coincide c v.meanCurve s := by
  have hfs := hv.fs_pos
  obtain ⟨m, rfl⟩ : ∃ m, n = m + 2 := ⟨n - 2, by omega⟩
  unfold View.fitCurve at hc
  rw [hv.nbins] at hc
  simp only at hc
  have hdx : v.proc.time 1 - v.proc.time 0 = 1 / v.fs := by
    rw [hv.time, hv.time]; push_cast; ring
  rw [hdx] at hc
  cases hr : squarewaveresponse (n := m + 2) (1 / v.fs) v.sgamp v.sgfreq v.duty f.args with
  | error e => rw [hr] at hc; cases hc
  | ok y =>
    rw [hr] at hc
    simp only [Except.ok.injEq] at hc
    have hinv : (1 : ℝ) / (1 / v.fs) = v.fs := by field_simp
    have key : roll y ((s : ℤ) : ZMod (m + 2)) = fun j => v.trace (m + 2) j - v.proc.offset := by
      refine fftR_inj fun k => ?_
      rw [hv.offset', fftR_sub_mean, fftR_roll]
      by_cases h0 : k = 0
      · subst h0
        rw [if_pos rfl]
        obtain ⟨z, _, hz⟩ := squarewave_fft hr 0 (by simp)
        rw [hz, sqWave_zero]
        simp
      · rw [if_neg h0]
        by_cases hk : 2 * k.val = m + 2
        · rw [squarewave_nyquist hr k hk (hny k hk), mul_zero]
          obtain ⟨A, B, C, t1, t2, t3, hcv, he⟩ := squarewave_convolve hr
          have hy : ∃ z, complexadmittance (fftfreq v.fs k) f.args = .ok z := by
            unfold convolve at hcv
            by_cases hnn : ∃ k : ZMod (m + 2), ∀ y,
                threePoleY (fftfreq (1 / (1 / v.fs)) k) A B C t1 t2 t3 ≠ .ok y
            · rw [if_pos hnn] at hcv; cases hcv
            · push Not at hnn
              obtain ⟨z, hz⟩ := hnn k
              rw [he, hinv] at hz
              exact ⟨z, hz⟩
          obtain ⟨z, hz⟩ := hy
          rw [hfit k h0 z hz, hny k hk, zero_mul]
        · obtain ⟨z, hz, ez⟩ := squarewave_fft hr k hk
          rw [hinv] at hz
          rw [ez, hfit k h0 z hz]
          have hph : Complex.exp (-2 * Complex.I * Real.pi * fftfreq v.fs k * f.dt) =
              e (-((s : ZMod (m + 2)) * k)) := by
            rw [← neg_mul]
            have := exp_freq v.fs hfs.ne' (-s) k (-f.dt) (by rw [hs]; push_cast; ring)
            rw [show ((-s : ℤ) : ZMod (m + 2)) = -(s : ZMod (m + 2)) by push_cast; rfl] at this
            rw [← this]
            congr 1
            push_cast
            ring
          rw [hph]
          ring
    intro i j hi hj hij
    subst hc
    rw [List.length_map, List.length_range] at hi
    unfold View.meanCurve at hj ⊢
    rw [hv.nbins] at hj ⊢
    rw [List.length_map, List.length_range] at hj
    rw [List.getElem?_map, List.getElem?_map, List.getElem?_range hi, List.getElem?_range hj]
    simp only [Option.map_some, Option.some.injEq, Prod.mk.injEq]
    constructor
    · rw [hv.time, hv.time, hs]
      have : (j : ℝ) = i + s := by exact_mod_cast hij
      rw [this]
      ring
    · have h3 := congrFun key (j : ZMod (m + 2))
      simp only [roll, View.trace, ZMod.val_natCast_of_lt hj] at h3
      have h4 : ((j : ZMod (m + 2)) - (s : ZMod (m + 2))) = (i : ZMod (m + 2)) := by
        have : ((j : ℤ) : ZMod (m + 2)) = ((i + s : ℤ) : ZMod (m + 2)) := by rw [hij]
        push_cast at this
        rw [this]
        ring
      rw [h4] at h3
      rw [h3]

example : ∃ (x : ZMod 8 → ℝ) (c : Curve),
    (viewOf 8 8 1 (1 / 2) x 0 0 (some ⟨0, 1 / 8, oddArgs⟩) none).fitCurve ⟨0, 1 / 8, oddArgs⟩ = .ok c ∧
    (∀ k : ZMod 8, 2 * k.val = 8 → sqWave (1 / 8) 1 (oddArgs.rsh.getD 0) 1 (1 / 2) k = 0) ∧
    (∀ k : ZMod 8, k ≠ 0 → ∀ y, complexadmittance (fftfreq 8 k) oddArgs = .ok y →
      fftR x k = sqWave (1 / 8) 1 (oddArgs.rsh.getD 0) 1 (1 / 2) k *
        (y * Complex.exp (-2 * Complex.I * Real.pi * fftfreq 8 k * (1 / 8 : ℝ)))) := by
  obtain ⟨tr, htr⟩ := ohm_response (1 / 8) 1 (1 / 2) 8
  have hP : HoldsPeriods 8 (1 / 8) 1 1 := ⟨by norm_num, by norm_num, by norm_num, by norm_num, by norm_num⟩
  have hny : ∀ k : ZMod 8, 2 * k.val = 8 → sqWave (1 / 8) 1 (oddArgs.rsh.getD 0) 1 (1 / 2) k = 0 := by
    intro k hk
    have h4 : k = 4 := by
      rw [← ZMod.natCast_zmod_val k, show k.val = 4 by omega]
      rfl
    subst h4
    have hm : ¬ nearOne |fftfreq (1 / (1 / 8)) (4 : ZMod 8) / 1| := by
      rw [odd_mask hP, show freqIdx (4 : ZMod 8) = -4 by decide]
      rintro ⟨m, hm, e⟩
      have : m = -4 := by push_cast at e; omega
      subst this
      exact absurd hm (by decide)
    unfold sqWave
    simp only [if_true]
    rw [if_neg hm]
  refine ⟨roll tr 1, (List.range 8).map fun (i : ℕ) =>
    (((i : ℝ) / 8 + 1 / 8) * 10 ^ 6, tr (i : ZMod 8) * 10 ^ 6), ?_, hny, ?_⟩
  · exact viewOf_fitCurve (m := 6) (fs := 8) _ _ _ _ _ ⟨0, 1 / 8, oddArgs⟩ htr
  · intro k hk y hy
    rw [fftR_roll]
    have hph : Complex.exp (-2 * Complex.I * Real.pi * fftfreq 8 k * (1 / 8 : ℝ)) =
        e (-((1 : ZMod 8) * k)) := by
      have := exp_freq 8 (by norm_num) (-1) k (-(1 / 8)) (by norm_num)
      rw [show ((-1 : ℤ) : ZMod 8) = -1 by rfl] at this
      rw [← neg_mul, ← this]
      congr 1
      push_cast
      ring
    by_cases hk2 : 2 * k.val = 8
    · rw [squarewave_nyquist htr k hk2 (hny k hk2), hny k hk2]
      simp
    · obtain ⟨z, hz, ez⟩ := squarewave_fft htr k hk2
      rw [show (1 : ℝ) / (1 / 8) = 8 by norm_num, hy] at hz
      cases hz
      rw [ez, hph]
      ring

/-- Partial form of the zoom of C93: for a drive with equal halves the range of the zoomed plot is centred on
the edge of the drive in the middle of the first period, delayed by the time offset, and `zoom` periods
wide.  Missing: other duty cycles. -/
theorem zoom_edge_partial (v : View) (zoom : ℝ) (h : v.duty = 1 / 2) :
    ((v.zoomLim zoom).1 + (v.zoomLim zoom).2) / 2 =
      (v.proc.time 0 + v.bestOffset + v.duty / v.sgfreq) * 10 ^ 6 ∧
    (v.zoomLim zoom).2 - (v.zoomLim zoom).1 = zoom / v.sgfreq * 10 ^ 6 := by
  unfold View.zoomLim
  rw [h]
  constructor
  · ring
  · ring

example : (viewOf 8 8 1 (1 / 2) 0 0 0 none none).duty = 1 / 2 := rfl

/-- Full C93 is false: if the duty cycle differs from one half by more than half of `zoom`, the edge is
outside the range. -/
theorem zoom_edge_violated (v : View) {zoom : ℝ} (hs : 0 < v.sgfreq) (h : zoom / 2 < |v.duty - 1 / 2|) :
    ¬ ((v.zoomLim zoom).1 ≤ (v.proc.time 0 + v.bestOffset + v.duty / v.sgfreq) * 10 ^ 6 ∧
      (v.proc.time 0 + v.bestOffset + v.duty / v.sgfreq) * 10 ^ 6 ≤ (v.zoomLim zoom).2) := by
  rintro ⟨h1, h2⟩
  unfold View.zoomLim at h1 h2
  dsimp only at h1 h2
  have h1 := le_of_mul_le_mul_right h1 (by positivity)
  have h2 := le_of_mul_le_mul_right h2 (by positivity)
  have e1 : (1 / 2 - zoom / 2) * (1 / v.sgfreq) ≤ v.duty / v.sgfreq := by linarith
  have e2 : v.duty / v.sgfreq ≤ (1 / 2 + zoom / 2) * (1 / v.sgfreq) := by linarith
  rw [mul_one_div, div_le_div_iff_of_pos_right hs] at e1 e2
  have := abs_le.2 ⟨(by linarith : -(zoom / 2) ≤ v.duty - 1 / 2), (by linarith : v.duty - 1 / 2 ≤ zoom / 2)⟩
  linarith

example : (1 / 10 : ℝ) / 2 < |(viewOf 8 8 1 (1 / 4) 0 0 0 none none).duty - 1 / 2| := by
  change (1 / 10 : ℝ) / 2 < |(1 / 4 : ℝ) - 1 / 2|
  rw [abs_of_neg (by norm_num)]
  norm_num

/-! ### C94: flipped trace -/

/-- The flipped trace lies on the averaged trace exactly if the averaged trace holds, besides its mean, only
odd harmonics of the drive. -/
theorem flipped_iff {v : View} {t0 : ℝ} (hv : Sampled v n t0) {q N : ℕ} (hn : n = N * (2 * q))
    (hp : v.fs = (2 * q : ℕ) * v.sgfreq) (hsg : 0 < v.sgfreq) :
    Coincide v.flippedCurve v.meanCurve (-q) ↔
      ∀ k : ZMod n, k ≠ 0 → fftR (v.trace n) k ≠ 0 → ∃ h : ℤ, Odd h ∧ freqIdx k = N * h := by
  have hfs := hv.fs_pos
  have hq : (q : ℝ) ≠ 0 := by
    rintro h0
    rw [hp] at hfs
    push_cast at hfs
    rw [h0] at hfs
    simp at hfs
  set x : ℕ → ℝ := fun i => v.proc.tmean i - v.proc.offset with hx
  have h1 : Coincide v.flippedCurve v.meanCurve (-q) ↔ ∀ j, j + q < n → x (j + q) = -x j := by
    unfold Coincide View.flippedCurve View.meanCurve
    rw [hv.nbins]
    simp only [List.length_map, List.length_range]
    constructor
    · intro h j hj
      have := h (j + q) j hj (by omega) (by push_cast; ring)
      rw [List.getElem?_map, List.getElem?_map, List.getElem?_range hj,
        List.getElem?_range (by omega)] at this
      simp only [Option.map_some, Option.some.injEq, Prod.mk.injEq] at this
      have h2 := mul_right_cancel₀ (by positivity : (10 : ℝ) ^ 6 ≠ 0) this.2
      simp only [hx]
      linarith
    · intro h i j hi hj hij
      have e1 : i = j + q := by omega
      subst e1
      rw [List.getElem?_map, List.getElem?_map, List.getElem?_range hi, List.getElem?_range hj]
      simp only [Option.map_some, Option.some.injEq, Prod.mk.injEq]
      constructor
      · rw [hv.time, hv.time, hp]
        push_cast
        field_simp
        ring
      · have := h j hi
        simp only [hx] at this
        rw [this, neg_neg]
  rw [h1, antiperiodic_circle hn]
  set X : ZMod n → ℝ := fun j => v.trace n j - (∑ i, v.trace n i) / n with hX
  have h2 : (∀ i : ZMod n, x (i - (q : ZMod n)).val = -x i.val) ↔ roll X (q : ZMod n) = fun i => (-1) * X i := by
    rw [funext_iff]
    refine forall_congr' fun i => ?_
    simp only [hx, hX, roll, View.trace, hv.offset', neg_one_mul]
  rw [h2]
  have h3 : ∀ k, fftR X k = if k = 0 then 0 else fftR (v.trace n) k := fftR_sub_mean _
  constructor
  · intro h k hk hne
    have := congrArg (fun y => fftR y k) h
    rw [fftR_roll, fftR_smul, h3, if_neg hk] at this
    have h4 := mul_right_cancel₀ hne this
    push_cast at h4
    exact (e_half hn k).1 h4
  · intro h
    refine fftR_inj fun k => ?_
    rw [fftR_roll, fftR_smul, h3]
    split_ifs with hk
    · simp
    · by_cases hz : fftR (v.trace n) k = 0
      · rw [hz]; simp
      · rw [(e_half hn k).2 (h k hk hz)]
        push_cast
        ring

example : Sampled (viewOf 8 8 1 (1 / 2) (fun j : ZMod 8 => j.val) 0 0 none none) 8 0 ∧ 8 = 1 * (2 * 4) ∧
    (viewOf 8 8 1 (1 / 2) (fun j : ZMod 8 => j.val) 0 0 none none).fs = (2 * 4 : ℕ) * 1 :=
  ⟨viewOf_sampled (by norm_num) _ _ _ _ _ _ _, rfl, by change (8 : ℝ) = _; norm_num⟩

/-- Partial form of C94: for a drive with equal halves the flipped trace of a device without
nonlinearities, whose current holds only frequencies of the drive, lies on the averaged trace.  Missing:
other duty cycles. -/
theorem flipped_linear_partial {v : View} {t0 : ℝ} (hv : Sampled v n t0) {q N : ℕ}
    (hn : n = N * (2 * q)) (hN : N ≤ 10 ^ 8) (hp : v.fs = (2 * q : ℕ) * v.sgfreq) (hsg : 0 < v.sgfreq)
    {sgamp rsh : ℝ}
    (hlin : ∀ k : ZMod n, k ≠ 0 → fftR (v.trace n) k ≠ 0 →
      sqWave (1 / v.fs) sgamp rsh v.sgfreq (1 / 2) k ≠ 0) :
    Coincide v.flippedCurve v.meanCurve (-q) := by
  rw [flipped_iff hv hn hp hsg]
  intro k hk hne
  have hfs := hv.fs_pos
  have hpos : 0 < n := NeZero.pos n
  have hN0 : 0 < N := Nat.pos_of_ne_zero fun h0 => by subst h0; simp at hn; omega
  have hq0 : (q : ℝ) ≠ 0 := by
    intro h0
    rw [hp] at hfs
    push_cast at hfs
    rw [h0] at hfs
    simp at hfs
  have hP : HoldsPeriods n (1 / v.fs) v.sgfreq N := by
    refine ⟨by positivity, hsg, hN0, hN, ?_⟩
    rw [hn, hp]
    push_cast
    field_simp
  have h1 := hlin k hk hne
  unfold sqWave at h1
  simp only [if_true] at h1
  by_contra hc
  rw [if_neg] at h1
  · exact h1 rfl
  · rw [odd_mask hP]
    exact hc

example : ∃ x : ZMod 8 → ℝ, squarewaveresponse (1 / 8) 1 1 (1 / 2) oddArgs = .ok x ∧
    ∀ k : ZMod 8, k ≠ 0 → fftR ((viewOf 8 8 1 (1 / 2) x 0 0 none none).trace 8) k ≠ 0 →
      sqWave (1 / 8) 1 (oddArgs.rsh.getD 0) 1 (1 / 2) k ≠ 0 := by
  obtain ⟨tr, htr⟩ := ohm_response (1 / 8) 1 (1 / 2) 8
  refine ⟨tr, htr, fun k _ h h0 => h ?_⟩
  rw [viewOf_trace]
  by_cases hk : 2 * k.val = 8
  · exact squarewave_nyquist htr k hk h0
  · obtain ⟨z, _, ez⟩ := squarewave_fft htr k hk
    rw [ez, h0, zero_mul]

/-- Full C94 is false: for every other duty cycle the flipped trace of a linear device does not lie on its
averaged trace. -/
theorem flipped_duty_violated {v : View} {t0 : ℝ} (hv : Sampled v n t0) {q N : ℕ}
    (hn : n = N * (2 * q)) (hq : 3 ≤ q) (hN : N ≤ 10 ^ 8) (hp : v.fs = (2 * q : ℕ) * v.sgfreq)
    (hsg : 0 < v.sgfreq) {a : Args} {resp : ZMod n → ℝ} {c : ℝ}
    (hr : squarewaveresponse (1 / v.fs) v.sgamp v.sgfreq v.duty a = .ok resp)
    (ht : ∀ j : ZMod n, v.trace n j = resp j + c) (hamp : v.sgamp * a.rsh.getD 0 ≠ 0)
    (hd : 0 < v.duty ∧ v.duty < 1 ∧ v.duty ≠ 1 / 2) :
    ¬ Coincide v.flippedCurve v.meanCurve (-q) := by
  rw [flipped_iff hv hn hp hsg]
  intro hall
  have hfs := hv.fs_pos
  have hpos : 0 < n := NeZero.pos n
  have hN0 : 0 < N := Nat.pos_of_ne_zero fun h0 => by subst h0; simp at hn; omega
  have hq0 : (q : ℝ) ≠ 0 := by positivity
  have hP : HoldsPeriods n (1 / v.fs) v.sgfreq N := by
    refine ⟨by positivity, hsg, hN0, hN, ?_⟩
    rw [hn, hp]
    push_cast
    field_simp
  have hlt : 2 * (2 * N) < n := by
    rw [hn]
    nlinarith
  set k : ZMod n := ((2 * N : ℕ) : ZMod n) with hk
  have hkv : k.val = 2 * N := ZMod.val_natCast_of_lt (by omega)
  have hfi : freqIdx k = N * 2 := by
    unfold freqIdx
    rw [hkv, if_pos (by omega)]
    push_cast
    ring
  have hk0 : k ≠ 0 := by
    intro h0
    rw [h0, ZMod.val_zero] at hkv
    omega
  obtain ⟨y, hy, hf⟩ := (response_spectrum hP hr k (by omega)).1 2 (by norm_num) hfi
  have htr : fftR (v.trace n) k = fftR resp k := by
    have : v.trace n = fun j => resp j + c := funext ht
    rw [this, fftR_add resp (fun _ => c), fftR_const, if_neg hk0, add_zero]
  have hcoef : squareCoeff (v.sgamp * a.rsh.getD 0) v.duty 2 ≠ 0 := by
    rw [squareCoeff_eq _ _ (by norm_num)]
    have hpi : (Real.pi : ℂ) ≠ 0 := by simp [Real.pi_ne_zero]
    have hamp' : ((v.sgamp * a.rsh.getD 0 : ℝ) : ℂ) ≠ 0 := by exact_mod_cast hamp
    have hex : Complex.exp (-2 * Complex.I * Real.pi * ((2 : ℤ) : ℂ) * v.duty) - 1 ≠ 0 := by
      intro h0
      rw [sub_eq_zero, Complex.exp_eq_one_iff] at h0
      obtain ⟨m, hm⟩ := h0
      have h2pi : (2 * Real.pi * Complex.I : ℂ) ≠ 0 := by simp [Real.pi_ne_zero]
      have : ((-(2 * v.duty) : ℝ) : ℂ) = (m : ℂ) := by
        push_cast
        refine mul_left_cancel₀ h2pi ?_
        push_cast at hm
        linear_combination hm
      have h3 : -(2 * v.duty) = (m : ℝ) := by exact_mod_cast this
      obtain ⟨d0, d1, d2⟩ := hd
      have hm1 : -2 < m := by
        have : (-2 : ℝ) < m := by linarith
        exact_mod_cast this
      have hm2 : m < 0 := by
        have : (m : ℝ) < 0 := by linarith
        exact_mod_cast this
      have : m = -1 := by omega
      subst this
      apply d2
      push_cast at h3
      linarith
    refine mul_ne_zero (mul_ne_zero (div_ne_zero (neg_ne_zero.2 Complex.I_ne_zero) ?_) hamp') hex
    simp [Real.pi_ne_zero]
  have hne : fftR (v.trace n) k ≠ 0 := by
    rw [htr, hf]
    refine mul_ne_zero (mul_ne_zero ?_ hcoef) (admittance_ne_zero hy)
    exact_mod_cast hpos.ne'
  obtain ⟨h, hodd, he⟩ := hall k hk0 hne
  rw [hfi] at he
  have hNz : (N : ℤ) ≠ 0 := by exact_mod_cast hN0.ne'
  have := mul_left_cancel₀ hNz he
  subst this
  exact absurd hodd (by decide)

example : ∃ x : ZMod 8 → ℝ, squarewaveresponse (1 / 8) 1 1 (1 / 4) oddArgs = .ok x ∧
    (∀ j, (viewOf 8 8 1 (1 / 4) x 0 0 none none).trace 8 j = x j + 0) ∧
    (1 : ℝ) * oddArgs.rsh.getD 0 ≠ 0 ∧ 8 = 1 * (2 * 4) ∧ 3 ≤ 4 := by
  obtain ⟨tr, htr⟩ := ohm_response (1 / 8) 1 (1 / 4) 8
  exact ⟨tr, htr, fun j => by rw [viewOf_trace, add_zero], by simp [oddArgs], rfl, by norm_num⟩

end Verif.Didv
