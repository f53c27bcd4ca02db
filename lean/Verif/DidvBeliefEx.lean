import Verif.DidvBeliefPoles
import Verif.DidvErrEx
import Verif.DevicePriorsEx

/-! Detectors whose dI/dV averages with ever less noise are fitted with ever better priors. -/

namespace Verif.Device
open Verif Verif.Dft Verif.Didv MeasureTheory Filter Topology

/-- Which of two equally likely ways a prior is wrong: the position of the disturbance decides. -/
def lean (i : ℕ) (p : ZMod 64) : ℤ := if p.val.testBit i then 1 else -1

/-- The errors of the priors in units of the standard deviation. -/
def leanings (d : ℕ) (a : Bool × ZMod 64) (i : Fin d) : ℝ := lean i a.2

/-- Standard deviations one of the first `m` priors, and nothing known of the others. -/
def known (d m : ℕ) (i : Fin d) : ℝ := if i.val < m then 1 else 0

theorem lean_sums : (∀ i : Fin 3, ∑ p : ZMod 64, lean i p = 0) ∧
    ∀ i j : Fin 3, ∑ p : ZMod 64, lean i p * lean j p = if i = j then 64 else 0 := by
  decide +kernel

theorem fair_leanings {d m : ℕ} (hm : m ≤ 3) : FairPriors (throws 64) (jolt 64 1) (known d m) (leanings d) := by
  have hk : ∀ i : Fin d, known d m i ≠ 0 → i.val < 3 := by
    intro i hi
    by_contra h
    exact hi (if_neg (by omega))
  refine ⟨fun i _ => ?_, fun i hi => ?_, fun i j hi hj => ?_, fun i q hi => ?_⟩
  · refine MemLp.of_bound (Measurable.of_discrete).aestronglyMeasurable 1 (Eventually.of_forall fun a => ?_)
    unfold leanings lean
    split_ifs <;> simp
  · rw [throws_mean]
    unfold leanings
    have := lean_sums.1 ⟨i, hk i hi⟩
    have h2 : ∑ p : ZMod 64, ((lean i p : ℤ) : ℝ) = 0 := by exact_mod_cast this
    simp only [Finset.sum_add_distrib, h2, add_zero, zero_div]
  · rw [throws_mean]
    unfold leanings
    have := lean_sums.2 ⟨i, hk i hi⟩ ⟨j, hk j hj⟩
    have h2 : ∑ p : ZMod 64, ((lean i p : ℤ) : ℝ) * ((lean j p : ℤ) : ℝ) = if i = j then 64 else 0 := by
      have e : ((⟨i, hk i hi⟩ : Fin 3) = ⟨j, hk j hj⟩) ↔ i = j := by simp [Fin.ext_iff]
      simp only [e] at this
      split_ifs at this ⊢ <;> exact_mod_cast this
    simp only [Finset.sum_add_distrib, h2]
    split_ifs <;> norm_num
  · rw [throws_mean]
    rw [Finset.sum_eq_zero, zero_div]
    intro p _
    unfold jolt leanings
    by_cases h : q = p <;> simp [h]

theorem adm_of_scaled {f : ℝ} {v : List ℝ} {y : ℂ} (h : scaledY f v = .ok y) : ∃ z, complexadmittance f (sspArgs v) = .ok z := by
  unfold scaledY at h
  cases hc : complexadmittance f (sspArgs v) with
  | ok z => exact ⟨z, rfl⟩
  | error e => rw [hc] at h; cases h

/-- The object for the guess. -/
theorem err_guessObj (W : ZMod 64 → ℂ) (a : Bool × ZMod 64) (s : ℝ) {p0 p1 p2 : ℝ} (rest : List ℝ) (h1 : 0 < p1) (h2 : 0 < p2) :
    guessObj { errObj with proc := some (errData W a s) } (errData W a s) (p0 :: p1 :: p2 :: rest) =
      .ok { errObj with proc := some (errData W a s), r0 := p2, rp := p1 } := by
  have hb : ¬ ((1 : ℝ) = 0 ∨ (64 : ℝ) - 1 * ⌊(64 : ℝ) / 1⌋ ≠ 0) := by
    have : ⌊(64 : ℝ) / 1⌋ = 64 := by rw [Int.floor_eq_iff]; norm_num
    rw [this]; norm_num
  have hn : ⌊((64 : ℕ) : ℝ) * 1 / 64⌋.toNat = 1 := by
    have : ⌊((64 : ℕ) : ℝ) * 1 / 64⌋ = 1 := by rw [Int.floor_eq_iff]; norm_num
    rw [this]; rfl
  unfold guessObj initFromData create
  simp only [errData, errProc, errObj, if_pos h1.ne', if_pos h2.ne', if_neg hb, hn, ne_eq]
  simp only [ne_eq] at hb
  simp only [hb]
  simpa using demo_flat

section
variable {W : ZMod 64 → ℂ} {a : Bool × ZMod 64} {s p0 p1 p2 : ℝ} {rest : List ℝ}

/-- The guess of a fit whose small signal parameters are `ssp`. -/
theorem guess_of {x : Ext} {k : ℤ} (hk : k = 1 ∨ k = 2 ∨ k = 3) (h1 : 0 < p1) (h2 : 0 < p2) {r : Result}
    (hr : runFit x { errObj with proc := some (errData W a s), r0 := p2, rp := p1 } (errData W a s) k.toNat none = .ok r) {d : ℕ}
    (hd : 0 < d) (hl : r.ssp.length = d) :
    ∃ g, guessPriors x { errObj with proc := some (errData W a s) } (errData W a s) k none (p0 :: p1 :: p2 :: rest) = .ok g ∧ g.length = d := by
  refine ⟨r.ssp.dropLast.map abs ++ r.ssp.drop (r.ssp.length - 1), ?_, ?_⟩
  · unfold guessPriors
    rw [err_guessObj W a s rest h1 h2]
    rcases hk with rfl | rfl | rfl
    · change runFit x _ _ 1 none = .ok r at hr
      simp [dofit, hr, fitresult]
    · change runFit x _ _ 2 none = .ok r at hr
      simp [dofit, hr, fitresult]
    · change runFit x _ _ 3 none = .ok r at hr
      simp [dofit, hr, fitresult]
  · simp only [List.length_append, List.length_map, List.length_dropLast, List.length_drop, hl]
    omega

theorem guess_one (hs : 0 < s) (h1 : 0 < p1) (h2 : 0 < p2) :
    ∃ y cov g, guessPriors (answer y cov) { errObj with proc := some (errData W a s) } (errData W a s) 1 none (p0 :: p1 :: p2 :: rest) = .ok g ∧
      g.length = 4 := by
  have hg : startGuess { errObj with proc := some (errData W a s), r0 := p2, rp := p1 } (errData W a s) 1 = _ := (err_guess _ _).1
  have hfit := fit_one (W := W) (a := a) (cov := []) hs (A := 2) (t2 := 1) (dt := 0)
  refine ⟨[2, 1, 0], [], ?_⟩
  have : ∃ r, runFit (answer [2, 1, 0] []) { errObj with proc := some (errData W a s), r0 := p2, rp := p1 } (errData W a s) 1 none = .ok r ∧
      r.ssp.length = 4 := by
    unfold runFit
    rw [hg]
    simp only [hfit, findPoleFallTimes]
    have hy := adm_of_scaled ((scaledY_doc 0 1 (2 - 1) 0 0 0 (2 * 1) 0 0 0 0 (by norm_num) (by norm_num) (by norm_num)).1 (by
      simp [docOne]))
    obtain ⟨z, hz⟩ := hy
    simp only [fitResult, convertTo, errObj, hz]
    exact ⟨_, rfl, rfl⟩
  obtain ⟨r, hr, hl⟩ := this
  exact guess_of (by simp) h1 h2 hr (by norm_num) hl

theorem guess_result_two (h1 : 0 < p1) (h2 : 0 < p2) (cov : List (List ℝ)) (ft : List ℝ) (cost : ℝ) :
    ∃ r, fitResult [1 + p1 + 2 * p2, 3 * p2, 1, 1, 0] cov ft cost 1 p1 p2 = .ok r ∧ r.ssp.length = 8 := by
  have e1 : 1 + p1 + 2 * p2 + 3 * p2 + p2 - (1 + p1) = 6 * p2 := by ring
  have e2 : (1 + p1 + 2 * p2 - (1 + p1)) / p2 - 1 = 1 := by field_simp; ring
  have e3 : 3 * p2 / (6 * p2) = 1 / 2 := by field_simp; norm_num
  have hy := adm_of_scaled ((scaledY_doc 0 1 p1 p2 1 (1 / 2) ((1 + p1 + 2 * p2) * 1) (1 * (1 + p1 + 2 * p2 + p2 - (1 + p1)) / (6 * p2))
    0 0 0 (by norm_num) (by positivity) (by positivity)).2.1 (by
      have : docTwo 0 1 p1 p2 1 (1 / 2) ((1 + p1 + 2 * p2) * 1) (1 * (1 + p1 + 2 * p2 + p2 - (1 + p1)) / (6 * p2)) =
          ((1 + p1 + 5 * p2 : ℝ) : ℂ) := by
        unfold docTwo
        push_cast
        norm_num
        ring
      rw [this]
      exact Complex.ofReal_ne_zero.2 (by positivity)))
  obtain ⟨z, hz⟩ := hy
  simp only [fitResult, convertTo]
  rw [if_neg (by rw [e1]; simp [h2.ne'])]
  simp only [e1, e2, e3, hz]
  exact ⟨_, rfl, rfl⟩

theorem guess_two (hs : 0 < s) (h1 : 0 < p1) (h2 : 0 < p2) :
    ∃ y cov g, guessPriors (answer y cov) { errObj with proc := some (errData W a s) } (errData W a s) 2 none (p0 :: p1 :: p2 :: rest) = .ok g ∧
      g.length = 8 := by
  have hg : startGuess { errObj with proc := some (errData W a s), r0 := p2, rp := p1 } (errData W a s) 2 = _ := (err_guess _ _).2.1
  have hfit := fit_two (W := W) (a := a) (cov := []) hs (A := 1 + p1 + 2 * p2) (B := 3 * p2) (t1 := 1) (t2 := 1) (dt := 0)
  refine ⟨[1 + p1 + 2 * p2, 3 * p2, 1, 1, 0], [], ?_⟩
  have : ∃ r, runFit (answer [1 + p1 + 2 * p2, 3 * p2, 1, 1, 0] []) { errObj with proc := some (errData W a s), r0 := p2, rp := p1 }
      (errData W a s) 2 none = .ok r ∧ r.ssp.length = 8 := by
    unfold runFit
    rw [hg]
    simp only [hfit, findPoleFallTimes]
    rw [if_neg (by positivity)]
    exact guess_result_two h1 h2 _ _ _
  obtain ⟨r, hr, hl⟩ := this
  exact guess_of (by simp) h1 h2 hr (by norm_num) hl

theorem guess_result_three (h1 : 0 < p1) (h2 : 0 < p2) (cov : List (List ℝ)) (ft : List ℝ) (cost : ℝ) :
    ∃ r, fitResult [1 + p1 + 2 * p2, 3 * p2, 1 / 2, 1, 1, 1, 0] cov ft cost 1 p1 p2 = .ok r ∧ r.ssp.length = 10 := by
  have e1 : 1 + p1 + 2 * p2 + 3 * p2 + p2 - (1 + p1) = 6 * p2 := by ring
  have e2 : (1 + p1 + 2 * p2 - (1 + p1)) / p2 - 1 = 1 := by field_simp; ring
  have e3 : 3 * p2 / (6 * p2) = 1 / 2 := by field_simp; norm_num
  have e4 : 1 / 2 * (1 + p1 + 2 * p2 + p2 - (1 + p1)) / (6 * p2) = 1 / 4 := by field_simp; ring
  have hy := adm_of_scaled ((scaledY_doc 0 1 p1 p2 1 (1 / 2) ((1 + p1 + 2 * p2) * 1) (1 * (1 + p1 + 2 * p2 + p2 - (1 + p1)) / (6 * p2))
    (1 / 4) 1 0 (by norm_num) (by positivity) (by positivity)).2.2 (by unfold docThreeDen; norm_num) (by
      have : docThree 0 1 p1 p2 1 (1 / 2) ((1 + p1 + 2 * p2) * 1) (1 * (1 + p1 + 2 * p2 + p2 - (1 + p1)) / (6 * p2)) (1 / 4) 1 =
          ((1 + p1 + 8 * p2 : ℝ) : ℂ) := by
        unfold docThree docThreeDen
        push_cast
        norm_num
        ring
      rw [this]
      exact Complex.ofReal_ne_zero.2 (by positivity)))
  obtain ⟨z, hz⟩ := hy
  simp only [fitResult, convertTo]
  rw [if_neg (by rw [e1]; simp [h2.ne'])]
  simp only [e1, e2, e3, e4, hz]
  exact ⟨_, rfl, rfl⟩

theorem guess_three (hs : 0 < s) (h1 : 0 < p1) (h2 : 0 < p2) :
    ∃ y cov g, guessPriors (answer y cov) { errObj with proc := some (errData W a s) } (errData W a s) 3 none (p0 :: p1 :: p2 :: rest) = .ok g ∧
      g.length = 10 := by
  have hg : startGuess { errObj with proc := some (errData W a s), r0 := p2, rp := p1 } (errData W a s) 3 = _ := (err_guess _ _).2.2
  have hfit := fit_three (W := W) (a := a) (cov := []) hs (A := 1 + p1 + 2 * p2) (B := 3 * p2) (C := 1 / 2) (t1 := 1) (t2 := 1) (t3 := 1) (dt := 0)
  refine ⟨[1 + p1 + 2 * p2, 3 * p2, 1 / 2, 1, 1, 1, 0], [], ?_⟩
  have : ∃ r, runFit (answer [1 + p1 + 2 * p2, 3 * p2, 1 / 2, 1, 1, 1, 0] []) { errObj with proc := some (errData W a s), r0 := p2, rp := p1 }
      (errData W a s) 3 none = .ok r ∧ r.ssp.length = 10 := by
    unfold runFit
    rw [hg]
    simp only [hfit, findPoleFallTimes]
    rw [if_neg (by norm_num; positivity)]
    exact guess_result_three h1 h2 _ _ _
  obtain ⟨r, hr, hl⟩ := this
  exact guess_of (by simp) h1 h2 hr (by norm_num) hl

end

/-- A fit whose minimiser answers `y` runs through. -/
theorem storedP_of {W : ZMod 64 → ℂ} {a : Bool × ZMod 64} {s : ℝ} {k : ℤ} (hk : k = 1 ∨ k = 2 ∨ k = 3) {d : ℕ} (hd : d = nParams k)
    {x₀ σ g y : Fin d → ℝ} {cov : List (List ℝ)} {priors : List ℝ}
    (hb : Believed priors (List.ofFn x₀) σ g s)
    (hbest : LocalLeast (nll k (fitPtsP errObj (errData W a s) none) priors ⟨d, pinv (independent fun i => s * σ i).m⟩) (List.ofFn y) ∧
      InverseHessian (nll k (fitPtsP errObj (errData W a s) none) priors ⟨d, pinv (independent fun i => s * σ i).m⟩) (List.ofFn y) cov)
    (hcov : ¬∃ v ∈ diagOf cov, v < 0) {z : ℂ} (hz : complexadmittance 0 (sspArgs (List.ofFn y)) = .ok z)
    (hconv : ∃ q ft, convertFrom (List.ofFn y) = .ok q ∧ findPoleFallTimes (fun _ q => q) (fun _ q => q) q = .ok ft)
    (hguess : ∃ y' cov' guess, guessPriors (answer y' cov') { errObj with proc := some (errData W a s) } (errData W a s) k none priors =
      .ok guess ∧ guess.length = d) :
    ∃ r, StoredP errObj W (fun _ => 0) (jolt 64 1 a) errCorr k none (List.ofFn x₀) σ g s r ∧ r.params = List.ofFn y := by
  obtain ⟨q, ft, hq, hft⟩ := hconv
  obtain ⟨y', cov', guess, hgu, hgl⟩ := hguess
  have hrun : ∃ r, runFitP (answer y' cov') (fun _ _ => ⟨List.ofFn y, some cov, 0⟩) { errObj with proc := some (errData W a s) }
      (errData W a s) k priors (independent fun i => s * σ i) none = .ok r ∧ r.params = List.ofFn y := by
    unfold runFitP
    rw [hgu]
    dsimp only
    have hnv : ∀ w, nll k (fitPtsP { errObj with proc := some (errData W a s) } (errData W a s) none) priors
        ⟨(independent fun i => s * σ i).d, pinv (independent fun i => s * σ i).m⟩ (mixGuess guess priors) = w → w ≠ .error .valueError := by
      rintro w hw' rfl
      have lg : (mixGuess guess priors).length = d := by
        unfold mixGuess
        rw [List.length_zipWith, hb.1, hgl, min_self]
      unfold nll at hw'
      rw [if_neg (by rw [lg, hb.1]; simp only [not_or, not_not]; exact ⟨hd, trivial, rfl⟩)] at hw'
      generalize hrr : residualP (fitPtsP { errObj with proc := some (errData W a s) } (errData W a s) none) (mixGuess guess priors) = rr at hw'
      cases rr with
      | error e => exact residualP_nan _ _ (hrr.trans (congrArg _ (Except.error.inj hw')))
      | ok rr => simp only at hw'; split_ifs at hw'; cases hw'
    split
    · rename_i hv
      exact absurd rfl (hnv _ hv)
    · simp only [hq]
      have : findPoleFallTimes (answer y' cov').fsolve2 (answer y' cov').fsolve3 q = .ok ft := hft
      simp only [this, fitResultP, hz]
      rw [if_neg hcov]
      exact ⟨_, rfl, rfl⟩
  obtain ⟨r, hr, hp⟩ := hrun
  have hset : Settles (fun _ _ => ⟨List.ofFn y, some cov, 0⟩) (nll k (fitPtsP errObj (errData W a s) none) priors
      ⟨d, pinv (independent fun i => s * σ i).m⟩) := fun p0 => ⟨hbest.1, fun c hc => by cases hc; exact hbest.2⟩
  refine ⟨r, ?_, hp⟩
  rcases hk with rfl | rfl | rfl
  · exact ⟨answer y' cov', _, ⟨{ errObj with proc := some (errData W a s) }, some r, none, none⟩, errData W a s, priors,
      errData_averaged W a s, hb, hset, by simp [dofitP, hr], by simp [fitresultP]⟩
  · exact ⟨answer y' cov', _, ⟨{ errObj with proc := some (errData W a s) }, none, some r, none⟩, errData W a s, priors,
      errData_averaged W a s, hb, hset, by simp [dofitP, hr], by simp [fitresultP]⟩
  · exact ⟨answer y' cov', _, ⟨{ errObj with proc := some (errData W a s) }, none, none, some r⟩, errData W a s, priors,
      errData_averaged W a s, hb, hset, by simp [dofitP, hr], by simp [fitresultP]⟩

/-- From minima near the truth to fits which approach it. -/
theorem approachingP_of {W : ZMod 64 → ℂ} {k : ℤ} (hk : k = 1 ∨ k = 2 ∨ k = 3) {d : ℕ} (hd : d = nParams k) {G : ℝ → (Fin d → ℝ) → ℂ}
    {x₀ σ : Fin d → ℝ} (hfam : Family errObj W none σ G x₀) (g : Bool × ZMod 64 → Fin d → ℝ)
    (hconv : ∀ᶠ v in 𝓝 x₀, ∃ q ft, convertFrom (List.ofFn v) = .ok q ∧ findPoleFallTimes (fun _ q => q) (fun _ q => q) q = .ok ft)
    (hguess : ∀ (a : Bool × ZMod 64) (s : ℝ) (priors : Fin d → ℝ), 0 < s → (∀ i : Fin d, i.val + 1 < d → 0 < priors i) →
      ∃ y' cov' guess, guessPriors (answer y' cov') { errObj with proc := some (errData W a s) } (errData W a s) k none (List.ofFn priors) =
      .ok guess ∧ guess.length = d) :
    ∃ r, ApproachingP errObj W (jolt 64 1) errCorr k none (List.ofFn x₀) σ g r := by
  choose y cov hy hfit using fun a => beliefs_exist (by norm_num [errObj] : 0 < errObj.rsh) hfam hd err_mirrored (jolt 64 1 a) (fun _ => 0) (g a)
  have hst : ∀ a, ∀ᶠ s in 𝓝[>] 0, ∃ r, StoredP errObj W (fun _ => 0) (jolt 64 1 a) errCorr k none (List.ofFn x₀) σ (g a) s r ∧
      r.params = List.ofFn (y a s) := by
    intro a
    have hpos : ∀ᶠ s in 𝓝[>] (0 : ℝ), ∀ i : Fin d, i.val + 1 < d → 0 < x₀ i + s * (σ i * g a i) := by
      refine eventually_all.2 fun i => ?_
      by_cases hi : i.val + 1 < d
      · have : ContinuousAt (fun s : ℝ => x₀ i + s * (σ i * g a i)) 0 := by fun_prop
        filter_upwards [mem_nhdsWithin_of_mem_nhds (this.eventually_const_lt (by simpa using hfam.pos i hi))] with s hs _
        exact hs
      · exact Eventually.of_forall fun _ h => absurd h hi
    filter_upwards [hfit a, (hy a).eventually hconv, (hy a).eventually (hfam.ok 0), hpos, self_mem_nhdsWithin] with s h1 h2 h3 h4 hs
    have hb : Believed (List.ofFn fun i => if σ i ≠ 0 then x₀ i + s * (σ i * g a i) else 1) (List.ofFn x₀) σ (g a) s := by
      refine ⟨by simp, fun i hi => ?_⟩
      simp [List.getD_eq_getElem?_getD, hi]
    rw [show fftfreq errObj.fs (0 : ZMod 64) = 0 by simp [fftfreq, freqIdx]] at h3
    obtain ⟨z, hz⟩ := adm_of_scaled h3
    exact storedP_of hk hd hb (h1.2 _ _ (errData_averaged W a s) hb) h1.1 hz h2 (hguess a s _ hs fun i hi => by
      split_ifs
      · exact h4 i hi
      · exact one_pos)
  classical
  refine ⟨fun a s => if h : ∃ r, StoredP errObj W (fun _ => 0) (jolt 64 1 a) errCorr k none (List.ofFn x₀) σ (g a) s r ∧
      r.params = List.ofFn (y a s) then h.choose else ⟨[], [], [], [], 0, 0, [], ⟨0, 0⟩⟩, fun a => ⟨fun _ => 0, ?_⟩, fun a ε hε => ?_⟩
  · filter_upwards [hst a] with s hs
    rw [dif_pos hs]
    exact hs.choose_spec.1
  · filter_upwards [hst a, (hy a).eventually (Metric.ball_mem_nhds x₀ hε)] with s hs hb
    rw [dif_pos hs, hs.choose_spec.2]
    refine List.forall₂_iff_get.2 ⟨by simp, fun i h1 h2 => ?_⟩
    have h3 := (dist_le_pi_dist (y a s) x₀ ⟨i, by simpa using h1⟩).trans_lt (Metric.mem_ball.1 hb)
    simpa [Real.dist_eq] using h3

theorem re_div_nonneg {b : ℝ} (hb : 0 ≤ b) {z : ℂ} (hz : 0 < z.re) : 0 ≤ ((b : ℂ) / z).re := by
  rw [div_eq_mul_inv, Complex.re_ofReal_mul, Complex.inv_re]
  have := Complex.normSq_nonneg z
  positivity

theorem ne_of_re {z : ℂ} (hz : 0 < z.re) : z ≠ 0 := by
  rintro rfl
  simp at hz

theorem demo_two_re (f : ℝ) : docTwo f 1 1 1 1 (1 / 2) 1 1 ≠ 0 := by
  refine ne_of_re ?_
  have e : docTwo f 1 1 1 1 (1 / 2) 1 1 = 4 + 2 * Complex.I * Real.pi * f + ((3 : ℝ) : ℂ) / (1 + 2 * (2 * Complex.I * Real.pi * f)) := by
    unfold docTwo
    push_cast
    norm_num
    ring
  have h := re_div_nonneg (b := 3) (by norm_num) (z := 1 + 2 * (2 * Complex.I * Real.pi * f)) (by simp)
  rw [e, Complex.add_re, Complex.add_re, show (2 * Complex.I * Real.pi * f : ℂ).re = 0 by simp]
  have : (4 : ℂ).re = 4 := rfl
  rw [this]
  linarith

theorem demo_den_re (f : ℝ) : 0 < (docThreeDen f (1 / 2) 1 (1 / 4) 1).re := by
  have e : docThreeDen f (1 / 2) 1 (1 / 4) 1 = 1 + 2 * (2 * Complex.I * Real.pi * f) - ((1 / 2 : ℝ) : ℂ) / (1 + 2 * Complex.I * Real.pi * f) := by
    unfold docThreeDen
    push_cast
    norm_num
    ring
  rw [e, Complex.sub_re, div_eq_mul_inv, Complex.re_ofReal_mul, Complex.inv_re]
  have h1 : (1 + 2 * (2 * Complex.I * Real.pi * f) : ℂ).re = 1 := by simp
  have h2 : (1 + 2 * Complex.I * Real.pi * f : ℂ).re = 1 := by simp
  have h3 : 1 ≤ Complex.normSq (1 + 2 * Complex.I * Real.pi * f) := by
    rw [Complex.normSq_apply, h2]
    nlinarith [mul_self_nonneg (1 + 2 * Complex.I * Real.pi * f : ℂ).im]
  rw [h1, h2]
  have : 1 / Complex.normSq (1 + 2 * Complex.I * Real.pi * f) ≤ 1 := by
    rw [div_le_one (by linarith)]
    exact h3
  linarith

theorem demo_three_re (f : ℝ) : docThree f 1 1 1 1 (1 / 2) 1 1 (1 / 4) 1 ≠ 0 := by
  refine ne_of_re ?_
  have h := re_div_nonneg (b := 3) (by norm_num) (demo_den_re f)
  have e : docThree f 1 1 1 1 (1 / 2) 1 1 (1 / 4) 1 = 4 + 2 * Complex.I * Real.pi * f + ((3 : ℝ) : ℂ) / docThreeDen f (1 / 2) 1 (1 / 4) 1 := by
    unfold docThree
    generalize docThreeDen f (1 / 2) 1 (1 / 4) 1 = D
    push_cast
    norm_num
    ring
  rw [e, Complex.add_re, Complex.add_re, show (2 * Complex.I * Real.pi * f : ℂ).re = 0 by simp]
  have : (4 : ℂ).re = 4 := rfl
  rw [this]
  linarith

theorem find_two {A B t1 t2 dt : ℝ} (h : A + B ≠ 0) :
    ∃ ft, findPoleFallTimes (fun _ q => q) (fun _ q => q) [A, B, t1, t2, dt] = .ok ft := by
  simp only [findPoleFallTimes, if_neg h]
  exact ⟨_, rfl⟩

theorem find_three {A B C t1 t2 t3 dt : ℝ} (h : A * (1 - C) + B ≠ 0) :
    ∃ ft, findPoleFallTimes (fun _ q => q) (fun _ q => q) [A, B, C, t1, t2, t3, dt] = .ok ft := by
  simp only [findPoleFallTimes, if_neg h]
  exact ⟨_, rfl⟩

/-- The response of the impedance. -/
noncomputable def respond (Z : ℝ → ℂ) (dt : ℝ) (k : ZMod 64) : ℂ :=
  Complex.exp (-2 * Complex.I * Real.pi * fftfreq errObj.fs k * dt) / Z (fftfreq errObj.fs k)

theorem responds_respond {Z : ℝ → ℂ} (h : ∀ f, Z f ≠ 0) (dt : ℝ) : Responds errObj (respond Z dt) Z dt := fun _ => ⟨h _, rfl⟩

/-- Fits with priors of a detector with one pole which approach the truth. -/
theorem believed_one : ∃ (W : ZMod 64 → ℂ) (r : Bool × ZMod 64 → ℝ → PResult),
    Responds errObj W (fun f => docOne f errObj.rsh 1 1) 0 ∧
    ApproachingP errObj W (jolt 64 1) errCorr 1 none [errObj.rsh, 1, 1, 0] (known 4 1) (leanings 4) r := by
  have hW := responds_respond (Z := fun f => docOne f 1 1 1) (fun f => ne_of_re (by simp [docOne])) 0
  have hl : [errObj.rsh, 1, 1, 0] = List.ofFn ![(1 : ℝ), 1, 1, 0] := by simp [List.ofFn_succ, errObj]
  rw [hl]
  have hpos : ∀ i : Fin 4, i.val + 1 < 4 → 0 < ![(1 : ℝ), 1, 1, 0] i := by
    intro i hi
    fin_cases i <;> simp at hi ⊢
  have hfam := p1_family (σ := known 4 1) (err_driven (by norm_num : 3 ≤ 12)) (x := ![(1 : ℝ), 1, 1, 0]) rfl hpos (by simp [known]) hW
  obtain ⟨r, hr⟩ := approachingP_of (k := 1) (Or.inl rfl) (by simp [nParams]) hfam (leanings 4) (by
    have hs : ∀ᶠ v in 𝓝 ![(1 : ℝ), 1, 1, 0], v 0 + v 1 ≠ 0 :=
      ContinuousAt.eventually_ne (g := fun v : Fin 4 → ℝ => v 0 + v 1) (by fun_prop) (by simp)
    filter_upwards [hs] with v hv
    rw [show List.ofFn v = [v 0, v 1, v 2, v 3] by simp [List.ofFn_succ]]
    simp only [convertFrom, if_neg hv, findPoleFallTimes]
    exact ⟨_, _, rfl, rfl⟩) (by
    intro a s priors hs hp
    rw [show List.ofFn priors = [priors 0, priors 1, priors 2, priors 3] by simp [List.ofFn_succ]]
    exact guess_one hs (hp 1 (by simp)) (hp 2 (by simp)))
  exact ⟨_, r, hW, hr⟩

/-- The same with two poles. -/
theorem believed_two : ∃ (W : ZMod 64 → ℂ) (r : Bool × ZMod 64 → ℝ → PResult),
    Responds errObj W (fun f => docTwo f errObj.rsh 1 1 1 (1 / 2) 1 1) 0 ∧
    ApproachingP errObj W (jolt 64 1) errCorr 2 none [errObj.rsh, 1, 1, 1, 1 / 2, 1, 1, 0] (known 8 3) (leanings 8) r := by
  have hW := responds_respond (Z := fun f => docTwo f 1 1 1 1 (1 / 2) 1 1) demo_two_re 0
  have hl : [errObj.rsh, 1, 1, 1, 1 / 2, 1, 1, 0] = List.ofFn ![(1 : ℝ), 1, 1, 1, 1 / 2, 1, 1, 0] := by simp [List.ofFn_succ, errObj]
  rw [hl]
  have hpos : ∀ i : Fin 8, i.val + 1 < 8 → 0 < ![(1 : ℝ), 1, 1, 1, 1 / 2, 1, 1, 0] i := by
    intro i hi
    fin_cases i <;> simp at hi ⊢
  have hfam := p2_family (σ := known 8 3) (err_driven (by norm_num : 5 ≤ 12)) (x := ![(1 : ℝ), 1, 1, 1, 1 / 2, 1, 1, 0]) rfl hpos
    (by change (1 / 2 : ℝ) ≠ 1; norm_num) (by simp [known]) hW
  obtain ⟨r, hr⟩ := approachingP_of (k := 2) (Or.inr (Or.inl rfl)) (by simp [nParams]) hfam (leanings 8) (by
    have hl1 : ∀ᶠ v in 𝓝 ![(1 : ℝ), 1, 1, 1, 1 / 2, 1, 1, 0], v 4 < 1 :=
      (continuous_apply 4).continuousAt.eventually_lt_const (by change (1 / 2 : ℝ) < 1; norm_num)
    filter_upwards [hl1, eventually_all.2 fun i : Fin 8 => eventually_imp_distrib_left.2 fun hi : i.val + 1 < 8 =>
      (continuous_apply i).continuousAt.eventually_const_lt (hpos i hi)] with v h4 hp
    have p0 := hp 0 (by simp)
    have p1 := hp 1 (by simp)
    have p2 := hp 2 (by simp)
    have p3 := hp 3 (by simp)
    have p4 := hp 4 (by simp)
    have h4' : 0 < 1 - v 4 := by linarith
    have hA : 0 < v 0 + v 1 + v 2 * (1 + v 3) := by positivity
    rw [show List.ofFn v = [v 0, v 1, v 2, v 3, v 4, v 5, v 6, v 7] by simp [List.ofFn_succ]]
    simp only [convertFrom, if_neg (not_or.2 ⟨h4'.ne', hA.ne'⟩)]
    obtain ⟨ft, hft⟩ := find_two (A := v 0 + v 1 + v 2 * (1 + v 3)) (B := v 2 * v 4 / (1 - v 4) * (2 + v 3)) (t1 := v 6 / (1 - v 4))
      (t2 := v 5 / (v 0 + v 1 + v 2 * (1 + v 3))) (dt := v 7) (by positivity)
    exact ⟨_, ft, rfl, hft⟩) (by
    intro a s priors hs hp
    rw [show List.ofFn priors = [priors 0, priors 1, priors 2, priors 3, priors 4, priors 5, priors 6, priors 7] by simp [List.ofFn_succ]]
    exact guess_two hs (hp 1 (by simp)) (hp 2 (by simp)))
  exact ⟨_, r, hW, hr⟩

/-- The same with three poles. -/
theorem believed_three : ∃ (W : ZMod 64 → ℂ) (r : Bool × ZMod 64 → ℝ → PResult),
    Responds errObj W (fun f => docThree f errObj.rsh 1 1 1 (1 / 2) 1 1 (1 / 4) 1) 0 ∧
    ApproachingP errObj W (jolt 64 1) errCorr 3 none [errObj.rsh, 1, 1, 1, 1 / 2, 1, 1, 1 / 4, 1, 0] (known 10 3) (leanings 10) r := by
  have hW := responds_respond (Z := fun f => docThree f 1 1 1 1 (1 / 2) 1 1 (1 / 4) 1) demo_three_re 0
  have hl : [errObj.rsh, 1, 1, 1, 1 / 2, 1, 1, 1 / 4, 1, 0] = List.ofFn ![(1 : ℝ), 1, 1, 1, 1 / 2, 1, 1, 1 / 4, 1, 0] := by
    simp [List.ofFn_succ, errObj]
  rw [hl]
  have hpos : ∀ i : Fin 10, i.val + 1 < 10 → 0 < ![(1 : ℝ), 1, 1, 1, 1 / 2, 1, 1, 1 / 4, 1, 0] i := by
    intro i hi
    fin_cases i <;> simp at hi ⊢
  have hfam := p3_family (σ := known 10 3) (err_driven (by norm_num : 7 ≤ 12)) (x := ![(1 : ℝ), 1, 1, 1, 1 / 2, 1, 1, 1 / 4, 1, 0]) rfl hpos
    (by change (1 / 2 : ℝ) ≠ 1; norm_num) (by simp [known]) (fun k => ne_of_re (demo_den_re _)) hW
  obtain ⟨r, hr⟩ := approachingP_of (k := 3) (Or.inr (Or.inr rfl)) (by simp [nParams]) hfam (leanings 10) (by
    have hl1 : ∀ᶠ v in 𝓝 ![(1 : ℝ), 1, 1, 1, 1 / 2, 1, 1, 1 / 4, 1, 0], v 4 + v 7 < 1 :=
      Tendsto.eventually_lt_const (u := 1) (v := (1 / 2 : ℝ) + 1 / 4) (by norm_num)
        (ContinuousAt.tendsto (f := fun v : Fin 10 → ℝ => v 4 + v 7) (x := ![(1 : ℝ), 1, 1, 1, 1 / 2, 1, 1, 1 / 4, 1, 0]) (by fun_prop))
    filter_upwards [hl1, eventually_all.2 fun i : Fin 10 => eventually_imp_distrib_left.2 fun hi : i.val + 1 < 10 =>
      (continuous_apply i).continuousAt.eventually_const_lt (hpos i hi)] with v h4 hp
    have p0 := hp 0 (by simp)
    have p1 := hp 1 (by simp)
    have p2 := hp 2 (by simp)
    have p3 := hp 3 (by simp)
    have p4 := hp 4 (by simp)
    have p7 := hp 7 (by simp)
    have h4' : 0 < 1 - v 4 := by linarith
    have hA : 0 < v 0 + v 1 + v 2 * (1 + v 3) := by positivity
    have hC : 0 < 1 - v 7 / (1 - v 4) := by
      rw [sub_pos, div_lt_one h4']
      linarith
    rw [show List.ofFn v = [v 0, v 1, v 2, v 3, v 4, v 5, v 6, v 7, v 8, v 9] by simp [List.ofFn_succ]]
    simp only [convertFrom, if_neg (not_or.2 ⟨h4'.ne', hA.ne'⟩)]
    obtain ⟨ft, hft⟩ := find_three (A := v 0 + v 1 + v 2 * (1 + v 3)) (B := v 2 * v 4 / (1 - v 4) * (2 + v 3)) (C := v 7 / (1 - v 4))
      (t1 := v 6 / (1 - v 4)) (t2 := v 5 / (v 0 + v 1 + v 2 * (1 + v 3))) (t3 := v 8) (dt := v 9) (by positivity)
    exact ⟨_, ft, rfl, hft⟩) (by
    intro a s priors hs hp
    rw [show List.ofFn priors = [priors 0, priors 1, priors 2, priors 3, priors 4, priors 5, priors 6, priors 7, priors 8, priors 9] by
      simp [List.ofFn_succ]]
    exact guess_three hs (hp 1 (by simp)) (hp 2 (by simp)))
  exact ⟨_, r, hW, hr⟩

end Verif.Device
