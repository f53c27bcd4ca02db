import Verif.DidvRecoverLemmas

/-! Property C133 for `dofit`: recovery from averages on the model, and failure on traces without noise. -/

namespace Verif.Didv
open Verif

/-- **C133**, partial form, two poles.  Averages which lie on the model in every bin below the cut-off, with a loop
gain which the guess has judged rightly: what `fitresult` returns after `dofit` is the detector.  Missing: traces. -/
theorem dofit_two_recovered_partial {x : Ext} (hx : Finds x.ls) {o : Obj} {p : Proc} (hp : o.proc = some p)
    {c : Option ℝ} (h : (dofit x o 2 c).1 = .ok ()) {A B t1 t2 dt f0 : ℝ}
    (hd : ∀ k < p.nbins, (∀ v ∈ c, |freqAt p.nbins o.fs k| < v) →
      fitY (freqAt p.nbins o.fs k) [A, B, t1, t2, dt] = .ok (p.didvmean k)) (hf : f0 ≠ 0)
    (hh : ∀ j : ℕ, j < 8 → ∃ k < p.nbins, (∀ v ∈ c, |freqAt p.nbins o.fs k| < v) ∧
      freqAt p.nbins o.fs k = (2 * j + 1) * f0) (hA : 0 < A) (h2 : 0 ≤ t2)
    (hb : (B < 0 ∧ t1 < 0 ∧ guessSub1 p.trace p.flat = false) ∨
      (0 < B ∧ 0 < t1 ∧ guessSub1 p.trace p.flat = true)) :
    ∃ r, fitresult (dofit x o 2 c).2 2 = .found r ∧ r.cost = 0 ∧
      ∃ dt', r.params = [A, B, t1, t2, dt'] ∧ ∃ m : ℤ, f0 * (dt' - dt) = m := by
  obtain ⟨n, r, hk, -, hr, hfound⟩ := dofit_run hp h
  obtain rfl : n = 2 := by exact_mod_cast hk.symm
  obtain ⟨A0, B0, C0, a1, a2, a3, d, s, cov, hg, hfit⟩ := runFit_fitdidv hr
  have hs := (startGuess_branch hg).2 (by norm_num)
  refine ⟨r, hfound, two_pole_recovered hx hfit ?_ hf ?_ hA h2 ?_⟩
  · intro q hq
    obtain ⟨k, h1, h2, rfl⟩ := mem_fitPts.1 hq
    exact hd k h1 h2
  · intro j hj
    obtain ⟨k, h1, h2, e⟩ := hh j hj
    exact ⟨_, mem_fitPts.2 ⟨k, h1, h2, rfl⟩, e⟩
  · rw [hs]
    rcases hb with ⟨b1, b2, b3⟩ | ⟨b1, b2, b3⟩
    · exact Or.inl ⟨b1, b2, by simp [b3]⟩
    · exact Or.inr ⟨b1, b2, by simp [b3]⟩

/-- **C133**, partial form, three poles. -/
theorem dofit_three_recovered_partial {x : Ext} (hx : Finds x.ls) {o : Obj} {p : Proc} (hp : o.proc = some p)
    {c : Option ℝ} (h : (dofit x o 3 c).1 = .ok ()) {A B C t1 t2 t3 dt f0 : ℝ}
    (hd : ∀ k < p.nbins, (∀ v ∈ c, |freqAt p.nbins o.fs k| < v) →
      fitY (freqAt p.nbins o.fs k) [A, B, C, t1, t2, t3, dt] = .ok (p.didvmean k)) (hf : f0 ≠ 0)
    (hh : ∀ j : ℕ, j < 12 → ∃ k < p.nbins, (∀ v ∈ c, |freqAt p.nbins o.fs k| < v) ∧
      freqAt p.nbins o.fs k = (2 * j + 1) * f0) (hA : 0 < A) (h2 : 0 ≤ t2) (h3 : 0 < t3)
    (hb : (B < 0 ∧ C < 0 ∧ t1 < 0 ∧ guessSub1 p.trace p.flat = false) ∨
      (0 < B ∧ 0 < C ∧ 0 < t1 ∧ guessSub1 p.trace p.flat = true)) :
    ∃ r, fitresult (dofit x o 3 c).2 3 = .found r ∧ r.cost = 0 ∧
      ∃ dt', r.params = [A, B, C, t1, t2, t3, dt'] ∧ ∃ m : ℤ, f0 * (dt' - dt) = m := by
  obtain ⟨n, r, hk, -, hr, hfound⟩ := dofit_run hp h
  obtain rfl : n = 3 := by exact_mod_cast hk.symm
  obtain ⟨A0, B0, C0, a1, a2, a3, d, s, cov, hg, hfit⟩ := runFit_fitdidv hr
  have hs := (startGuess_branch hg).2 (by norm_num)
  refine ⟨r, hfound, three_pole_recovered hx hfit ?_ hf ?_ hA h2 h3 ?_⟩
  · intro q hq
    obtain ⟨k, h1, h2, rfl⟩ := mem_fitPts.1 hq
    exact hd k h1 h2
  · intro j hj
    obtain ⟨k, h1, h2, e⟩ := hh j hj
    exact ⟨_, mem_fitPts.2 ⟨k, h1, h2, rfl⟩, e⟩
  · rw [hs]
    rcases hb with ⟨b1, b2, b3, b4⟩ | ⟨b1, b2, b3, b4⟩
    · exact Or.inl ⟨b1, b2, b3, by simp [b4]⟩
    · exact Or.inr ⟨b1, b2, b3, by simp [b4]⟩

/-- **C133**, partial form, one pole: `dofit` keeps `A ≥ 0`, so the inverted response is not among its answers. -/
theorem dofit_one_recovered_partial {x : Ext} (hx : Finds x.ls) {o : Obj} {p : Proc} (hp : o.proc = some p)
    {c : Option ℝ} (h : (dofit x o 1 c).1 = .ok ()) {A t2 dt f0 : ℝ}
    (hd : ∀ k < p.nbins, (∀ v ∈ c, |freqAt p.nbins o.fs k| < v) →
      fitY (freqAt p.nbins o.fs k) [A, t2, dt] = .ok (p.didvmean k)) (hf : f0 ≠ 0)
    (hh : ∀ j : ℕ, j < 2 → ∃ k < p.nbins, (∀ v ∈ c, |freqAt p.nbins o.fs k| < v) ∧
      freqAt p.nbins o.fs k = (2 * j + 1) * f0) (hA : 0 < A) (h2 : 0 ≤ t2) :
    ∃ r, fitresult (dofit x o 1 c).2 1 = .found r ∧ r.cost = 0 ∧
      ∃ dt', r.params = [A, t2, dt'] ∧ ∃ m : ℤ, f0 * (dt' - dt) = m := by
  obtain ⟨n, r, hk, -, hr, hfound⟩ := dofit_run hp h
  obtain rfl : n = 1 := by exact_mod_cast hk.symm
  obtain ⟨A0, B0, C0, a1, a2, a3, d, s, cov, hg, hfit⟩ := runFit_fitdidv hr
  obtain rfl := (startGuess_branch hg).1 rfl
  obtain ⟨h0, dt', hq⟩ := one_pole_recovered hx hfit (fun q hq => by
      obtain ⟨k, h1, h2, rfl⟩ := mem_fitPts.1 hq
      exact hd k h1 h2) hf (fun j hj => by
      obtain ⟨k, h1, h2, e⟩ := hh j hj
      exact ⟨_, mem_fitPts.2 ⟨k, h1, h2, rfl⟩, e⟩) hA h2 (by simp)
  refine ⟨r, hfound, h0, dt', ?_⟩
  rcases hq with hq | ⟨e, -⟩
  · exact hq
  · exfalso
    have hin : inB (-A) (some 0, none) := by
      have hl := fitdidv_ok hfit
      simp only [chosen] at hl
      obtain ⟨hp0, -, ⟨v, hv⟩, hout⟩ := leastSquares_ok hl
      have := (hx _ _ _ _ hp0 hv).1
      obtain ⟨w, hw, -, -⟩ := this
      rw [← hout] at hw
      simp only [e] at hw
      simp [starts] at hw
      exact hw.1
    have := hin.1 0 rfl
    linarith

/-- Contrary to C133 traces without noise cannot be fitted: repeated measurements which agree have no spread, the
error of every driven bin is zero and the residuals are not finite.  However many traces, `dofit` fails. -/
theorem noise_free_traces_violated (x : Ext) {o : Obj} (ho : Fresh o) {t : ℕ → ℝ} (h1 : ∀ u ∈ o.raw, u = t)
    {b : ℕ} (hb : b < nBins o.nraw o.fs o.sgfreq) {c : Option ℝ}
    (hc : ∀ v ∈ c, |freqAt (nBins o.nraw o.fs o.sgfreq) o.fs b| < v)
    (hf : (deconvAt (nBins o.nraw o.fs o.sgfreq) (1 / o.fs) (fun i => t i / o.gain) o.rsh o.sgamp
      o.sgfreq o.duty b).2 = false) (k : ℤ) : (dofit x o k c).1 ≠ .ok () := by
  intro h
  have hp1 : (processtraces o).1 = .ok () := by
    by_contra hne
    unfold dofit at h
    simp only [ho.1] at h
    rcases hq : processtraces o with ⟨r, o1⟩
    rw [hq] at h hne
    cases r with
    | error e => cases h
    | ok u => exact hne rfl
  obtain ⟨hpr, hne, _⟩ := process_ok hp1
  have hrd : ready o = (processtraces o).2 := by unfold ready; rw [ho.1]
  have hk : ∀ u ∈ keptTraces o (nBins o.nraw o.fs o.sgfreq), u = fun i => t i / o.gain := by
    intro u hu
    unfold keptTraces at hu
    obtain ⟨w, hw, rfl⟩ := List.mem_map.1 (List.mem_filter.1 hu).1
    rw [h1 w hw]
  set l := keptTraces o (nBins o.nraw o.fs o.sgfreq) with hl
  set q := procOf (shiftDt0 o) (nBins o.nraw o.fs o.sgfreq) l with hqdef
  have hfs : (ready o).fs = o.fs := by
    rw [hrd]
    exact (process_keeps o).2.2.1
  have hstd : q.didvstd b = 0 := by
    have e1 : ∀ i, lmean (l.map fun t => t i) = t i / o.gain := by
      intro i
      refine lmean_const (by simpa using hne) fun v hv => ?_
      obtain ⟨w, hw, rfl⟩ := List.mem_map.1 hv
      rw [hk w hw]
    change (if (deconvAt (nBins o.nraw o.fs o.sgfreq) (1 / o.fs)
      (fun i => lmean (l.map fun t => t i)) o.rsh o.sgamp o.sgfreq o.duty b).2 = true
      then _ else stdcomplex (l.map fun t => deconvVal (nBins o.nraw o.fs o.sgfreq) (1 / o.fs) t
        o.rsh o.sgamp o.sgfreq o.duty b) / _) = (0 : ℂ)
    simp only [e1]
    rw [hf, if_neg (by decide), stdcomplex_const (by simpa using hne) (fun v hv => by
      obtain ⟨w, hw, rfl⟩ := List.mem_map.1 hv
      rw [hk w hw]), zero_div]
  have key : ∀ poles r, runFit x (ready o) q poles c ≠ .ok r := by
    intro poles r hr
    obtain ⟨A0, B0, C0, t1, t2, t3, dt, sub1, params, cov, cost, ft, hg, hl, _⟩ := runFit_ok hr
    obtain ⟨_, _, ⟨v, hv⟩, _⟩ := leastSquares_ok hl
    have hm : (⟨freqAt q.nbins o.fs b, q.didvmean b, q.didvstd b⟩ : Pt) ∈ fitPts q (ready o).fs c := by
      rw [hfs]
      exact mem_fitPts.2 ⟨b, hb, hc, rfl⟩
    have := (residual_errs hv _ hm).1
    rw [hstd] at this
    exact this rfl
  rcases dofit_cases x o k c with ⟨e, hd⟩ | ⟨p, r, hp, _, hr, _⟩ | ⟨p, r, hp, _, hr, _⟩ |
    ⟨p, r, hp, _, hr, _⟩
  · rw [hd] at h; cases h
  all_goals
    rw [hrd, hpr] at hp
    cases hp
    exact key _ _ hr

end Verif.Didv
