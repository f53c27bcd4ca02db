import Verif.DevicePriorsProps
import Verif.DeviceEx

/-! Concrete cases for property C139. -/

namespace Verif.Device
open Verif Verif.Didv

/-- A minimiser which finds a best point, and the given one if it is among the best. -/
theorem findsP_exists {t : List ℝ} (ht : Within t) : ∃ mn : Minimiser, FindsP mn ∧ ∀ f p0, (mn f p0).cov = some [] ∧
    ∀ c, f t = .ok c → (∀ x' c', Within x' → f x' = .ok c' → c ≤ c') → (mn f p0).x = t ∧ (mn f p0).fval = c := by
  classical
  let Best (f : List ℝ → Except Err ℝ) (q : List ℝ × ℝ) : Prop :=
    Within q.1 ∧ f q.1 = .ok q.2 ∧ ∀ x' c', Within x' → f x' = .ok c' → q.2 ≤ c'
  let pick (f : List ℝ → Except Err ℝ) : List ℝ × ℝ :=
    if h : ∃ c, Best f (t, c) then (t, h.choose) else if h : ∃ q, Best f q then h.choose else ([], 0)
  have hpick : ∀ f, (∃ q, Best f q) → Best f (pick f) := by
    intro f h
    by_cases h1 : ∃ c, Best f (t, c)
    · simp only [pick, dif_pos h1]
      exact h1.choose_spec
    · simp only [pick, dif_neg h1, dif_pos h]
      exact h.choose_spec
  refine ⟨fun f _ => ⟨(pick f).1, some [], (pick f).2⟩, ?_, fun f p0 => ⟨rfl, fun c hc hmin => ?_⟩⟩
  · intro f p0 x c hx hc hmin
    obtain ⟨b1, b2, b3⟩ := hpick f ⟨(x, c), hx, hc, hmin⟩
    exact ⟨b1, b2, le_antisymm (b3 x c hx hc) (hmin _ _ b1 b2)⟩
  · have h1 : ∃ c, Best f (t, c) := ⟨c, ht, hc, hmin⟩
    have e : pick f = (t, h1.choose) := dif_pos h1
    have h2 := h1.choose_spec.2.1
    exact ⟨by simp only [e], by simp only [e]; exact Except.ok.inj (h2.symm.trans hc)⟩

/-- The error bars of the demonstration. -/
theorem demo_bars {v : List ℝ} {o : Obj} {p : Proc} {r0 rp : ℝ} (D : Demo v o p r0 rp) : ErrorBars o p none := by
  intro f k _
  rw [D.std]
  simp

/-- The residuals do not raise ValueError. -/
theorem residualP_nan (l : List Pt) (q : List ℝ) : residualP l q ≠ .error .valueError := by
  induction l with
  | nil => simp [residualP]
  | cons b l ih =>
    intro h
    unfold residualP scaledY at h
    cases hc : complexadmittance b.f (sspArgs q) with
    | error e => simp [hc] at h
    | ok y =>
      rw [hc] at h
      cases hr : residualP l q with
      | error e =>
        rw [hr] at h
        exact ih (hr.trans h)
      | ok r =>
        rw [hr] at h
        simp only at h
        split_ifs at h
        cases h

/-- A fit with priors of the demonstration runs through. -/
theorem demo_priors {v : List ℝ} {o : Obj} {p : Proc} {r0 rp : ℝ} (D : Demo v o p r0 rp) (hr0 : r0 ≠ 0) (hrp : rp ≠ 0)
    {x : Ext} {k : ℤ} {n : ℕ} (hk : Shape k n) (hdo : (dofit x o k none).1 = .ok ())
    (hlen : ∃ r, fitresult (dofit x o k none).2 k = .found r ∧ r.ssp.length = n)
    {s : Fin n → ℝ} {truth rest q : List ℝ} {a : ℝ} (hpl : (a :: rp :: r0 :: rest).length = n)
    (hn : truth.length = n) (hlim : Within truth) (hpri : Right s (a :: rp :: r0 :: rest) truth)
    (hd : ∀ f j, Fitted o p none f j → scaledY f truth = .ok (p.didvmean j * o.rsh))
    (hq : convertFrom truth = .ok q) (hft : ∃ ft, findPoleFallTimes x.fsolve2 x.fsolve3 q = .ok ft)
    (hy : ∃ y, complexadmittance 0 (sspArgs truth) = .ok y) :
    ∃ mn, FindsP mn ∧
      (dofitP x mn ⟨o, none, none, none⟩ k (a :: rp :: r0 :: rest) (independent s) none).1 = .ok () := by
  obtain ⟨mn, hmn, hm⟩ := findsP_exists hlim
  obtain ⟨ft, hft⟩ := hft
  refine ⟨mn, hmn, ?_⟩
  have hg : guessObj o p (a :: rp :: r0 :: rest) = .ok o := by
    rw [← D.init]
    simp only [guessObj, demoInit, D.nbins, D.tmean, D.mean, D.std, D.offset, D.offsetErr, D.fs, D.sgfreq, D.sgamp,
      D.rsh, D.add180, D.dt0, if_pos hr0, if_pos hrp]
  obtain ⟨r, hr, hl⟩ := hlen
  have hpos : 0 < n := by rcases hk with ⟨-, rfl⟩ | ⟨-, rfl⟩ | ⟨-, rfl⟩ <;> norm_num
  have hguess : guessPriors x o p k none (a :: rp :: r0 :: rest) =
      .ok (r.ssp.dropLast.map abs ++ r.ssp.drop (r.ssp.length - 1)) := by
    unfold guessPriors
    rw [hg]
    simp only
    generalize hdd : dofit x o k none = d at hdo hr
    obtain ⟨d1, d2⟩ := d
    simp only at hdo hr
    subst hdo
    simp only [hr]
  have hw : Weighted (fitPtsP o p none) := by
    intro q hq
    obtain ⟨f, j, hj, rfl⟩ := mem_fitPtsP.1 hq
    rw [D.std, D.rsh]
    simp
  have hpts : ∀ q ∈ fitPtsP o p none, scaledY q.f truth = .ok q.y := by
    intro q hq
    obtain ⟨f, j, hj, rfl⟩ := mem_fitPtsP.1 hq
    exact hd f j hj
  obtain ⟨c0, hc0⟩ := nll_defined (poles := k) (pts := fitPtsP o p none) (priors := a :: rp :: r0 :: rest)
    (C := independent s) (params := truth) (Matrix.diagonal_transpose _) (diagonal_nonneg s)
    (by rw [hn]; exact hk) (hpl.trans hn.symm) hn.symm hw fun q hq => ⟨_, hpts q hq⟩
  have hz := (no_cost hw hc0).2.2 ⟨hpts, hpri⟩
  have hrun : ∃ R, runFitP x mn o p k (a :: rp :: r0 :: rest) (independent s) none = .ok R := by
    unfold runFitP
    rw [hguess]
    dsimp only
    obtain ⟨h1, h2⟩ := hm (nll k (fitPtsP o p none) (a :: rp :: r0 :: rest)
      ⟨(independent s).d, pinv (independent s).m⟩)
      (mixGuess (r.ssp.dropLast.map abs ++ r.ssp.drop (r.ssp.length - 1)) (a :: rp :: r0 :: rest))
    obtain ⟨h3, h4⟩ := h2 c0 hc0 fun x' c' _ hx' => by rw [hz]; exact (no_cost hw hx').1
    have hnv : ∀ w, nll k (fitPtsP o p none) (a :: rp :: r0 :: rest) ⟨(independent s).d, pinv (independent s).m⟩
        (mixGuess (r.ssp.dropLast.map abs ++ r.ssp.drop (r.ssp.length - 1)) (a :: rp :: r0 :: rest)) = w →
        w ≠ .error .valueError := by
      rintro w hw' rfl
      have lg : (mixGuess (r.ssp.dropLast.map abs ++ r.ssp.drop (r.ssp.length - 1)) (a :: rp :: r0 :: rest)).length
          = n := by
        unfold mixGuess
        rw [List.length_zipWith, hpl]
        simp only [List.length_append, List.length_map, List.length_dropLast, List.length_drop, hl]
        omega
      unfold nll at hw'
      rw [if_neg (by rw [lg, hpl]; simp only [not_or, not_not]; exact ⟨hk.length, trivial, rfl⟩)] at hw'
      generalize hrr : residualP (fitPtsP o p none) (mixGuess (r.ssp.dropLast.map abs ++
        r.ssp.drop (r.ssp.length - 1)) (a :: rp :: r0 :: rest)) = rr at hw'
      cases rr with
      | error e => exact residualP_nan _ _ (hrr.trans (congrArg _ (Except.error.inj hw')))
      | ok rr => simp only at hw'; split_ifs at hw'; cases hw'
    generalize hff : nll k (fitPtsP o p none) (a :: rp :: r0 :: rest) ⟨(independent s).d, pinv (independent s).m⟩ = ff
      at h1 h3 h4 hnv
    split
    · rename_i hv
      exact absurd rfl (hnv _ hv)
    · obtain ⟨y, hy⟩ := hy
      simp only [h3, hq, hft, fitResultP, h1, hy, diagOf]
      rw [if_neg (by simp)]
      exact ⟨_, rfl⟩
  obtain ⟨R, hrun⟩ := hrun
  unfold dofitP
  simp only [D.proc, hrun]
  split_ifs <;> rfl

/-- Two poles: a device with loop gain one third and priors on its resistances. -/
theorem demo_priors_two : ∃ x mn, FindsP mn ∧ ∃ o p, o.proc = some p ∧ o.rsh = 1 ∧
    (dofitP x mn ⟨o, none, none, none⟩ 2 [1, 1, 1, 0, 0, 0, 0, 0] (independent ![1, 1, 1, 0, 0, 0, 0, 0]) none).1 = .ok () ∧
    ErrorBars o p none ∧
    Measured o p none (fun f => complexadmittance f (transition 1 1 1 0 (1 / 3) 3 (2 / 3))) 0 ∧
    Harmonics o p none 1 8 := by
  obtain ⟨x, hx, o, p, D, h, hd, hh, hs⟩ := demo_fit_two_general (A := 3) (r0 := 1) (rp := 1) (by norm_num)
    fun dt cov ft cost => by
      simp only [fitResult, convertTo]
      rw [if_neg (by norm_num)]
      simp only [sspArgs, complexadmittance, compleximpedance, poleExtractor]
      norm_num [convertFrom, recipZ, twoPoleZ, jw]
  have hm : Measured o p none (fun f => complexadmittance f (transition 1 1 1 0 (1 / 3) 3 (2 / 3))) 0 := by
    intro f k hk
    obtain ⟨h1, rfl, -⟩ := hk
    rw [← hd k h1]
    dsimp only
    rw [admittance_two (by norm_num)]
    norm_num [fitY]
  obtain ⟨r, hr, -, dt', hssp, -⟩ := two_pole_device hx D.proc h (beta := 0) (l := 1 / 3) (L := 3) (tau0 := 2 / 3)
    (dt := 0) (f0 := 1) (by rw [D.rsh, D.rp, D.r0]; constructor <;> norm_num) (by rw [D.rsh, D.rp, D.r0]; exact hm)
    (demo_harmonics 8 hh) (by rw [hs, eq_comm, decide_eq_true_eq]; norm_num)
  obtain ⟨mn, hmn, hfit⟩ := demo_priors D one_ne_zero one_ne_zero (n := 8) (by simp [Shape]) h ⟨r, hr, by simp [hssp]⟩
    (s := ![1, 1, 1, 0, 0, 0, 0, 0]) (truth := [1, 1, 1, 0, 1 / 3, 3, 2 / 3, 0]) (a := 1) (rest := [0, 0, 0, 0, 0])
    rfl rfl (by intro v hv; simp at hv; rcases hv with rfl | rfl | rfl | rfl | rfl <;> norm_num)
    (by intro i hi; fin_cases i <;> simp_all) (measured_scaled hm (fun f => rfl) D.rsh.symm rfl)
    (q := [3, 1, 1, 1, 0]) (by norm_num [convertFrom])
    (by unfold findPoleFallTimes; simp only; rw [if_neg (by norm_num)]; exact ⟨_, rfl⟩)
    (by change ∃ y, complexadmittance 0 (transition 1 1 1 0 (1 / 3) 3 (2 / 3)) = .ok y
        rw [admittance_two (by norm_num)]
        norm_num [twoPoleY, recipZ, twoPoleZ, jw])
  exact ⟨x, mn, hmn, o, p, D.proc, D.rsh, hfit, demo_bars D, hm, demo_harmonics 8 hh⟩

/-- Three poles. -/
theorem demo_priors_three : ∃ x mn, FindsP mn ∧ ∃ o p, o.proc = some p ∧ o.rsh = 1 ∧
    (dofitP x mn ⟨o, none, none, none⟩ 3 [1, 1, 1, 0, 0, 0, 0, 0, 0, 0] (independent ![1, 1, 1, 0, 0, 0, 0, 0, 0, 0])
      none).1 = .ok () ∧ ErrorBars o p none ∧
    Measured o p none (fun f => complexadmittance f (twoBodies 1 1 1 0 (1 / 3) 3 (2 / 3) (1 / 3) 1)) 0 ∧
    Harmonics o p none 1 12 := by
  obtain ⟨x, hx, o, p, D, h, hd, hh, hs⟩ := demo_fit_three_general (A := 3) (r0 := 1) (rp := 1) (by norm_num)
    fun dt cov ft cost => by
      simp only [fitResult, convertTo]
      rw [if_neg (by norm_num)]
      simp only [sspArgs, complexadmittance, compleximpedance, poleExtractor]
      norm_num [convertFrom, recipZ, threePoleZ, jw]
  have hm : Measured o p none (fun f => complexadmittance f (twoBodies 1 1 1 0 (1 / 3) 3 (2 / 3) (1 / 3) 1)) 0 := by
    intro f k hk
    obtain ⟨h1, rfl, -⟩ := hk
    rw [← hd k h1]
    dsimp only
    rw [admittance_three (by norm_num)]
    norm_num [fitY]
  obtain ⟨r, hr, -, dt', hssp, -⟩ := three_pole_device hx D.proc h (beta := 0) (l := 1 / 3) (L := 3) (tau0 := 2 / 3)
    (gratio := 1 / 3) (tau3 := 1) (dt := 0) (f0 := 1) (by rw [D.rsh, D.rp, D.r0]; constructor <;> norm_num)
    (by norm_num) one_pos (by rw [D.rsh, D.rp, D.r0]; exact hm)
    (demo_harmonics 12 hh) (by rw [hs, eq_comm, decide_eq_true_eq]; norm_num)
  obtain ⟨mn, hmn, hfit⟩ := demo_priors D one_ne_zero one_ne_zero (n := 10) (by simp [Shape]) h
    ⟨r, hr, by simp [hssp]⟩ (s := ![1, 1, 1, 0, 0, 0, 0, 0, 0, 0])
    (truth := [1, 1, 1, 0, 1 / 3, 3, 2 / 3, 1 / 3, 1, 0]) (a := 1) (rest := [0, 0, 0, 0, 0, 0, 0])
    rfl rfl (by intro v hv; simp at hv; rcases hv with rfl | rfl | rfl | rfl | rfl | rfl | rfl <;> norm_num)
    (by intro i hi; fin_cases i <;> simp_all) (measured_scaled hm (fun f => rfl) D.rsh.symm rfl)
    (q := [3, 1, 1 / 2, 1, 1, 1, 0]) (by norm_num [convertFrom])
    (by unfold findPoleFallTimes; simp only; rw [if_neg (by norm_num)]; exact ⟨_, rfl⟩)
    (by change ∃ y, complexadmittance 0 (twoBodies 1 1 1 0 (1 / 3) 3 (2 / 3) (1 / 3) 1) = .ok y
        rw [admittance_three (by norm_num)]
        norm_num [threePoleY, recipZ, threePoleZ, jw])
  exact ⟨x, mn, hmn, o, p, D.proc, D.rsh, hfit, demo_bars D, hm, demo_harmonics 12 hh⟩

/-- One pole, with priors which are right everywhere but used for the shunt resistance only. -/
theorem demo_priors_one : ∃ x mn, FindsP mn ∧ ∃ o p, o.proc = some p ∧ o.rsh = 1 ∧
    (dofitP x mn ⟨o, none, none, none⟩ 1 [1, 1, 2, 0] (independent ![1, 0, 0, 0]) none).1 = .ok () ∧
    ErrorBars o p none ∧
    Measured o p none (fun f => complexadmittance f { rsh := some 1, rp := some 1, L := some 2 }) 0 ∧
    Harmonics o p none 1 2 := by
  obtain ⟨x, hx, o, p, D, h, hd, hh⟩ := demo_fit_one_general 2 1
  have hm : Measured o p none (fun f => complexadmittance f { rsh := some 1, rp := some 1, L := some 2 }) 0 := by
    intro f k hk
    obtain ⟨h1, rfl, -⟩ := hk
    rw [← hd k h1]
    dsimp only
    rw [admittance_one (by norm_num)]
    norm_num [fitY]
  obtain ⟨r, hr, -, dt', hssp, -⟩ := one_pole_device hx D.proc h (rp := 1) (L := 2) (dt := 0) (f0 := 1)
    (by rw [D.rsh]; norm_num) (by norm_num) (by rw [D.rsh]; exact hm) (demo_harmonics 2 hh)
  obtain ⟨mn, hmn, hfit⟩ := demo_priors D two_ne_zero one_ne_zero (n := 4) (by simp [Shape]) h
    ⟨r, hr, by simp [hssp]⟩ (s := ![1, 0, 0, 0]) (truth := [1, 1, 2, 0]) (a := 1) (rest := [0])
    rfl rfl (by intro v hv; simp at hv; rcases hv with rfl | rfl <;> norm_num)
    (by intro i hi; fin_cases i <;> simp_all) (measured_scaled hm (fun f => rfl) D.rsh.symm rfl)
    (q := [2, 1, 0]) (by norm_num [convertFrom]) (by unfold findPoleFallTimes; exact ⟨_, rfl⟩)
    (by change ∃ y, complexadmittance 0 { rsh := some 1, rp := some 1, L := some 2 } = .ok y
        rw [admittance_one (by norm_num)]
        norm_num [onePoleY, recipZ, onePoleZ, jw])
  exact ⟨x, mn, hmn, o, p, D.proc, D.rsh, hfit, demo_bars D, hm, demo_harmonics 2 hh⟩

/-- The hypotheses of `priors_two_pole` are met. -/
example : ∃ x mn, FindsP mn ∧ ∃ (o : PObj) (p : Proc) (s : Fin 8 → ℝ) (priors : List ℝ), o.base.proc = some p ∧
    (dofitP x mn o 2 priors (independent s) none).1 = .ok () ∧
    Physical (o.base.rsh + 1) 1 0 (1 / 3) 3 (2 / 3) ∧ 0 < o.base.rsh ∧
    Right s priors [o.base.rsh, 1, 1, 0, 1 / 3, 3, 2 / 3, 0] ∧ s 0 ≠ 0 ∧ s 1 ≠ 0 ∧ s 2 ≠ 0 ∧
    ErrorBars o.base p none ∧
    Measured o.base p none (fun f => complexadmittance f (transition o.base.rsh 1 1 0 (1 / 3) 3 (2 / 3))) 0 ∧
    Harmonics o.base p none 1 8 := by
  obtain ⟨x, mn, hmn, o, p, hp, hr, h, he, hm, hh⟩ := demo_priors_two
  refine ⟨x, mn, hmn, ⟨o, none, none, none⟩, p, _, _, hp, h, ?_, ?_, ?_, by simp, by simp, by simp, he, ?_, hh⟩
  · simp only [hr]; constructor <;> norm_num
  · simp only [hr]; norm_num
  · simp only [hr]; intro i hi; fin_cases i <;> simp_all
  · simp only [hr]; exact hm

/-- The hypotheses of `priors_three_pole` are met. -/
example : ∃ x mn, FindsP mn ∧ ∃ (o : PObj) (p : Proc) (s : Fin 10 → ℝ) (priors : List ℝ), o.base.proc = some p ∧
    (dofitP x mn o 3 priors (independent s) none).1 = .ok () ∧
    Physical (o.base.rsh + 1) 1 0 (1 / 3) 3 (2 / 3) ∧ 0 < o.base.rsh ∧
    Right s priors [o.base.rsh, 1, 1, 0, 1 / 3, 3, 2 / 3, 1 / 3, 1, 0] ∧ s 0 ≠ 0 ∧ s 1 ≠ 0 ∧ s 2 ≠ 0 ∧
    ErrorBars o.base p none ∧ Measured o.base p none
      (fun f => complexadmittance f (twoBodies o.base.rsh 1 1 0 (1 / 3) 3 (2 / 3) (1 / 3) 1)) 0 ∧
    Harmonics o.base p none 1 12 := by
  obtain ⟨x, mn, hmn, o, p, hp, hr, h, he, hm, hh⟩ := demo_priors_three
  refine ⟨x, mn, hmn, ⟨o, none, none, none⟩, p, _, _, hp, h, ?_, ?_, ?_, by simp, by simp, by simp, he, ?_, hh⟩
  · simp only [hr]; constructor <;> norm_num
  · simp only [hr]; norm_num
  · simp only [hr]; intro i hi; fin_cases i <;> simp_all
  · simp only [hr]; exact hm

/-- The hypotheses of `priors_one_pole` are met. -/
example : ∃ x mn, FindsP mn ∧ ∃ (o : PObj) (p : Proc) (s : Fin 4 → ℝ) (priors : List ℝ), o.base.proc = some p ∧
    (dofitP x mn o 1 priors (independent s) none).1 = .ok () ∧ 0 < o.base.rsh ∧
    Right s priors [o.base.rsh, 1, 2, 0] ∧ s 0 ≠ 0 ∧ ErrorBars o.base p none ∧
    Measured o.base p none (fun f => complexadmittance f { rsh := some o.base.rsh, rp := some 1, L := some 2 }) 0 ∧
    Harmonics o.base p none 1 2 := by
  obtain ⟨x, mn, hmn, o, p, hp, hr, h, he, hm, hh⟩ := demo_priors_one
  refine ⟨x, mn, hmn, ⟨o, none, none, none⟩, p, _, _, hp, h, ?_, ?_, by simp, he, ?_, hh⟩
  · simp only [hr]; norm_num
  · simp only [hr]; intro i hi; fin_cases i <;> simp_all
  · simp only [hr]; exact hm

/-- The hypotheses of `priors_device_reloaded` are met. -/
example : ∃ x mn, FindsP mn ∧ ∃ (o : PObj) (p : Proc) (s : Fin 8 → ℝ) (priors : List ℝ) (t : Sim.TES),
    o.base.proc = some p ∧ (dofitP x mn o 2 priors (independent s) none).1 = .ok () ∧
    Sim.create ⟨o.base.rsh + 1, t.r0, o.base.rsh, t.beta, t.loopgain, t.inductance, t.tau0, demoLoad.G,
      demoLoad.qetbias, demoLoad.tc, demoLoad.tload, demoLoad.tbath, 5, true, demoLoad.squiddc, demoLoad.squidpole,
      demoLoad.squidn⟩ = .ok t ∧
    Physical t.rload t.r0 t.beta t.loopgain t.inductance t.tau0 ∧ 0 < o.base.rsh ∧ 0 ≤ t.beta ∧
    Right s priors [o.base.rsh, 1, t.r0, t.beta, t.loopgain, t.inductance, t.tau0, 0] ∧ s 0 ≠ 0 ∧ s 1 ≠ 0 ∧ s 2 ≠ 0 ∧
    ErrorBars o.base p none ∧ Measured o.base p none (Sim.dIdV t) 0 ∧ Harmonics o.base p none 1 8 := by
  obtain ⟨x, mn, hmn, o, p, hp, hr, h, he, hm, hh⟩ := demo_priors_two
  refine ⟨x, mn, hmn, ⟨o, none, none, none⟩, p, _, _, ⟨2, 1, 1, 0, 1 / 3, 3, 2 / 3, 1, 1 / 3, 1, 1, 1, 0, 5, 1, 0, 0, 1 / 2⟩,
    hp, h, ?_, ?_, ?_, le_refl _, ?_, by simp, by simp, by simp, he, fun f k hk => ?_, hh⟩
  · simp only [hr]
    norm_num [Sim.create, Sim.suppression, Sim.pw, demoLoad]
  · constructor <;> norm_num
  · simp only [hr]; norm_num
  · simp only [hr]; intro i hi; fin_cases i <;> simp_all
  · rw [← hm f k hk, Sim.dIdV_agrees _ f (by norm_num) (by norm_num)]
    norm_num [transition, Sim.didvArgs]

/-- The hypotheses of `r0_prior_needed` are met: resistances one and two, loop gains one half and two. -/
example : Physical (1 + 0) 2 1 (1 / 2) 1 1 ∧ Physical (1 + 0) 2 1 2 1 1 ∧ (0 : ℝ) < 1 ∧ (1 : ℝ) ≤ 2 * (1 + 1) ∧
    ((1 / 2 : ℝ) < 1 ∨ (1 : ℝ) ≤ 2) ∧ ((2 : ℝ) < 1 ∨ (1 : ℝ) ≤ 2) :=
  ⟨by constructor <;> norm_num, by constructor <;> norm_num, by norm_num, by norm_num, by norm_num, by norm_num⟩

/-- A scaled device. -/
example : (2 : ℝ) ≠ 0 := two_ne_zero

end Verif.Device
