import Verif.DidvTwinEx

/-!
Property C154: a fit with priors weighs the data and the priors by their uncertainties.  The averages in bins of opposite frequencies
are one measurement, but both enter the cost.
-/

namespace Verif.Device
open Verif Verif.Dft Verif.Didv

/-- The bin of the opposite frequency holds the complex conjugate of the average, with the same error bars: it is no further
measurement. -/
theorem opposite_bins {o : Obj} {q : Proc} (h : (processtraces o).1 = .ok ()) (hq : (processtraces o).2.proc = some q)
    {n : ℕ} [NeZero n] (hn : q.nbins = n) {k : ZMod n} (hk : Paired o k) :
    q.didvmean (-k).val = starRingEnd ℂ (q.didvmean k.val) ∧ q.didvstd (-k).val = q.didvstd k.val :=
  opposite h hq hn hk

/-- The cost of a fit with priors is the negative logarithm of the posterior probability plus half the distances of all bins which
repeat another one.  Missing: that it is the negative logarithm of the posterior probability. -/
theorem posterior_cost_partial {o : Obj} {q : Proc} (h : (processtraces o).1 = .ok ()) (hq : (processtraces o).2.proc = some q)
    {n : ℕ} [NeZero n] (hn : q.nbins = n) {poles : ℤ} {priors : List ℝ} {inv : Cov} {c : Option ℝ} {params : List ℝ} {v : ℝ}
    (hv : nll poles (fitPtsP (processtraces o).2 q c) priors inv params = .ok v) {Y : ZMod n → ℂ}
    (hY : ∀ k, Below o.fs c k → scaledY (fftfreq o.fs k) params = .ok (Y k)) :
    open Classical in v = logPosterior o q c priors inv params Y + (∑ k : ZMod n with Twin o c k, deviation o q Y k) / 2 := by
  classical
  obtain ⟨Z, h1, -, h3⟩ := cost_twice h hq hn hv
  have hZ : ∀ k, Below o.fs c k → Z k = Y k := fun k hk => Except.ok.inj ((h1 k hk).symm.trans (hY k hk))
  have hd : ∀ k, Below o.fs c k → deviation o q Z k = deviation o q Y k := fun k hk => by unfold deviation; rw [hZ k hk]
  rw [h3]
  unfold logPosterior
  congr 2
  · congr 1
    refine Finset.sum_congr rfl fun k hk => hd k ?_
    simp only [Finset.mem_filter] at hk
    exact hk.2.1
  · refine Finset.sum_congr rfl fun k hk => hd k ?_
    simp only [Finset.mem_filter] at hk
    exact hk.2.2.1

/-- Two traces of four samples meet the hypotheses, and the bins one and three are a pair. -/
example : ∃ (o : Obj) (q : Proc), (processtraces o).1 = .ok () ∧ (processtraces o).2.proc = some q ∧ q.nbins = 4 ∧
    Paired o (1 : ZMod 4) ∧ ∃ v, nll 1 (fitPtsP (processtraces o).2 q none) [1, 1, 0, 0] ⟨4, pinv (independent fun _ : Fin 4 => 1 / 3).m⟩
      [1, 0, 0, 0] = .ok v := by
  obtain ⟨o, q, h1, h2, h3, -, hr, ht, -, s1, -, -, s0, s2, s3⟩ := twin_measurement
  exact ⟨o, q, h1, h2, h3, ((ht 1).2 rfl).1, twin_defined h3 ((process_keeps o).2.2.2.2.2.1.trans hr) (twin_bars s0 s1 s2 s3) 0 le_rfl _ rfl _⟩

/-- Contrary to C154 the data count twice against the priors: of two sets of parameters the fit prefers one which the priors and
the data together make less probable. -/
theorem posterior_cost_violated : ∃ (o : Obj) (q : Proc) (priors p p' : List ℝ) (s : Fin 4 → ℝ) (v v' : ℝ) (Y Y' : ZMod 4 → ℂ),
    (processtraces o).1 = .ok () ∧ (processtraces o).2.proc = some q ∧ q.nbins = 4 ∧ (∀ i, 0 < s i) ∧
    nll 1 (fitPtsP (processtraces o).2 q none) priors ⟨4, pinv (independent s).m⟩ p = .ok v ∧
    nll 1 (fitPtsP (processtraces o).2 q none) priors ⟨4, pinv (independent s).m⟩ p' = .ok v' ∧
    (∀ k, scaledY (fftfreq o.fs k) p = .ok (Y k)) ∧ (∀ k, scaledY (fftfreq o.fs k) p' = .ok (Y' k)) ∧ v < v' ∧
    logPosterior o q none priors ⟨4, pinv (independent s).m⟩ p' Y' < logPosterior o q none priors ⟨4, pinv (independent s).m⟩ p Y := by
  obtain ⟨o, q, h1, h2, h3, -, hr, ht, m1, s1, m0, m2, s0, s2, s3⟩ := twin_measurement
  have hr' := (process_keeps o).2.2.2.2.2.1.trans hr
  have hb := twin_bars s0 s1 s2 s3
  obtain ⟨v, hv⟩ := twin_defined h3 hr' hb 0 le_rfl [1, 1, 0, 0] rfl fun _ => 1 / 3
  obtain ⟨v', hv'⟩ := twin_defined h3 hr' hb 1 zero_le_one [1, 1, 0, 0] rfl fun _ => 1 / 3
  have e := posterior_cost_partial h1 h2 h3 hv (Y := fun _ => ((1 / (1 + 0) : ℝ) : ℂ)) fun k _ => twin_model _ 0 le_rfl
  have e' := posterior_cost_partial h1 h2 h3 hv' (Y := fun _ => ((1 / (1 + 1) : ℝ) : ℂ)) fun k _ => twin_model _ 1 zero_le_one
  have l : ∀ rp y : ℝ, logPosterior o q none [1, 1, 0, 0] ⟨4, pinv (independent fun _ : Fin 4 => 1 / 3).m⟩ [1, rp, 0, 0]
      (fun _ : ZMod 4 => (y : ℂ)) = ((1 - rp) / (1 / 3)) ^ 2 / 2 + (deviation o q (fun _ => (y : ℂ)) (0 : ZMod 4) +
        8 * ((3 / 2 - y) ^ 2 + 9 / 4) + deviation o q (fun _ => (y : ℂ)) (2 : ZMod 4)) / 2 := by
    intro rp y
    unfold logPosterior
    rw [twin_prior _ (by norm_num), (twin_bins ht _).1, twin_deviation hr m1 s1]
  rw [(twin_bins ht _).2, twin_deviation hr m1 s1, l] at e e'
  have r0 := rest_deviation hr (k := (0 : ZMod 4)) m0 s0 (y := 1 / (1 + 0)) (by norm_num) (by norm_num)
  have r2 := rest_deviation hr (k := (2 : ZMod 4)) m2 s2 (y := 1 / (1 + 0)) (by norm_num) (by norm_num)
  have r0' := rest_deviation hr (k := (0 : ZMod 4)) m0 s0 (y := 1 / (1 + 1)) (by norm_num) (by norm_num)
  have r2' := rest_deviation hr (k := (2 : ZMod 4)) m2 s2 (y := 1 / (1 + 1)) (by norm_num) (by norm_num)
  refine ⟨o, q, [1, 1, 0, 0], [1, 0, 0, 0], [1, 1, 0, 0], fun _ => 1 / 3, v, v', _, _, h1, h2, h3, fun _ => by norm_num, hv, hv',
    fun k => twin_model _ 0 le_rfl, fun k => twin_model _ 1 zero_le_one, ?_, ?_⟩
  · rw [e, e']
    linarith [r0.1, r0.2, r2.1, r2.2, r0'.1, r0'.2, r2'.1, r2'.2]
  · rw [l, l]
    linarith [r0.1, r0.2, r2.1, r2.2, r0'.1, r0'.2, r2'.1, r2'.2]

end Verif.Device
