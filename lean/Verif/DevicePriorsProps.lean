import Verif.DevicePriorsLemmas
import Verif.SimPriorsProps

/-! Property C139: with the resistances known a fit with priors finds the device, without them it cannot. -/

namespace Verif.Device
open Verif Verif.Didv

/-- Two poles, with right priors on the three resistances (and possibly on more): the fit with priors returns the
device; the time shift is right up to whole periods, and right if it has a prior. -/
theorem priors_two_pole {x : Ext} {mn : Minimiser} (hmn : FindsP mn) {o : PObj} {p : Proc} (hp : o.base.proc = some p)
    {s : Fin 8 → ℝ} {priors : List ℝ} {c : Option ℝ} (h : (dofitP x mn o 2 priors (independent s) c).1 = .ok ())
    {rp r0 beta l L tau0 dt f0 : ℝ} (hd : Physical (o.base.rsh + rp) r0 beta l L tau0) (hrsh : 0 < o.base.rsh)
    (hrp : 0 ≤ rp) (hbeta : 0 ≤ beta) (hpri : Right s priors [o.base.rsh, rp, r0, beta, l, L, tau0, dt])
    (h0 : s 0 ≠ 0) (h1 : s 1 ≠ 0) (h2 : s 2 ≠ 0) (he : ErrorBars o.base p c)
    (hm : Measured o.base p c (fun f => complexadmittance f (transition o.base.rsh rp r0 beta l L tau0)) dt)
    (hh : Harmonics o.base p c f0 8) :
    ∃ r, fitresultP (dofitP x mn o 2 priors (independent s) c).2 2 = some r ∧ r.cost = 0 ∧
      ∃ dt', r.params = [o.base.rsh, rp, r0, beta, l, L, tau0, dt'] ∧ (∃ m : ℤ, f0 * (dt' - dt) = m) ∧
        (s 7 ≠ 0 → dt' = dt) := by
  obtain ⟨hA, hL, s1, s2⟩ := signs hd
  have hmd := measured_scaled (truth := [o.base.rsh, rp, r0, beta, l, L, tau0, dt]) hm (fun f => rfl) rfl rfl
  obtain ⟨r, hr, hc, hlen, hlim, hfit, hright⟩ := priors_exact hmn hp h
    (truth := [o.base.rsh, rp, r0, beta, l, L, tau0, dt]) rfl (by
      intro v hv
      simp only [List.dropLast_cons_cons, List.dropLast_singleton, List.mem_cons, List.not_mem_nil, or_false] at hv
      rcases hv with rfl | rfl | rfl | rfl | rfl | rfl | rfl
      exacts [hrsh.le, hrp, hd.hr0.le, hbeta, hd.hl.le, hd.hL, hd.htau0.le]) hpri hrsh.ne' he hmd
  refine ⟨r, hr, hc, ?_⟩
  generalize r.params = q at hlen hlim hfit hright
  match q, hlen with
  | [a, b, r0', beta', l', L', tau', dt'], _ =>
  have ea : a = o.base.rsh := hright 0 h0
  have eb : b = rp := hright 1 h1
  have er : r0' = r0 := hright 2 h2
  subst ea eb er
  have hb' : 0 ≤ beta' := hlim _ (by simp)
  obtain ⟨k0, hk0⟩ := hh.2 0 (by norm_num)
  have hl1 := (scaled_two hrsh.ne' (hmd _ _ hk0)).1
  have hl2 := (scaled_two hrsh.ne' (hfit _ _ hk0)).1
  have hBne : r0' * l / (1 - l) * (2 + beta) ≠ 0 ∧ tau0 / (1 - l) ≠ 0 := by
    rcases lt_or_gt_of_ne hd.hl1 with q | q
    · exact ⟨(s2 q).1.ne', (s2 q).2.ne'⟩
    · exact ⟨(s1 q).1.ne, (s1 q).2.ne⟩
  have hA' : 0 ≤ o.base.rsh + b + r0' * (1 + beta') := by
    have := mul_nonneg hd.hr0.le (by linarith : 0 ≤ 1 + beta')
    linarith [hd.hrload]
  obtain ⟨e1, e2, e3, e4, hm'⟩ := two_pole_shift_determined (dt := dt) (dt' := dt') hA hA' hBne.1 hBne.2 hh.1
    fun j hj => by
      obtain ⟨k, hk⟩ := hh.2 j hj
      exact ⟨_, (scaled_two hrsh.ne' (hmd _ _ hk)).2, (scaled_two hrsh.ne' (hfit _ _ hk)).2⟩
  have ebeta : beta' = beta := by
    have : r0' * (1 + beta) = r0' * (1 + beta') := by linarith
    have := mul_left_cancel₀ hd.hr0.ne' this
    linarith
  subst ebeta
  rw [not_or] at hl1 hl2
  have el : l' = l := by
    have h2b : (2 + beta') ≠ 0 := by linarith
    have := mul_right_cancel₀ h2b e2
    rw [div_eq_div_iff hl1.1 hl2.1] at this
    have : r0' * l = r0' * l' := by linear_combination this
    exact (mul_left_cancel₀ hd.hr0.ne' this).symm
  subst el
  have et : tau' = tau0 := by
    rw [div_eq_div_iff hl1.1 hl1.1] at e3
    exact (mul_right_cancel₀ hl1.1 e3).symm
  have eL : L' = L := by
    rw [div_eq_div_iff hl1.2 hl1.2] at e4
    exact (mul_right_cancel₀ hl1.2 e4).symm
  subst et eL
  exact ⟨dt', rfl, hm', fun h7 => hright 7 h7⟩

/-- Three poles. -/
theorem priors_three_pole {x : Ext} {mn : Minimiser} (hmn : FindsP mn) {o : PObj} {p : Proc}
    (hp : o.base.proc = some p) {s : Fin 10 → ℝ} {priors : List ℝ} {c : Option ℝ}
    (h : (dofitP x mn o 3 priors (independent s) c).1 = .ok ())
    {rp r0 beta l L tau0 gratio tau3 dt f0 : ℝ} (hd : Physical (o.base.rsh + rp) r0 beta l L tau0)
    (hg : 0 < gratio) (h3 : 0 < tau3) (hrsh : 0 < o.base.rsh) (hrp : 0 ≤ rp) (hbeta : 0 ≤ beta)
    (hpri : Right s priors [o.base.rsh, rp, r0, beta, l, L, tau0, gratio, tau3, dt])
    (h0 : s 0 ≠ 0) (h1 : s 1 ≠ 0) (h2 : s 2 ≠ 0) (he : ErrorBars o.base p c)
    (hm : Measured o.base p c
      (fun f => complexadmittance f (twoBodies o.base.rsh rp r0 beta l L tau0 gratio tau3)) dt)
    (hh : Harmonics o.base p c f0 12) :
    ∃ r, fitresultP (dofitP x mn o 3 priors (independent s) c).2 3 = some r ∧ r.cost = 0 ∧
      ∃ dt', r.params = [o.base.rsh, rp, r0, beta, l, L, tau0, gratio, tau3, dt'] ∧
        (∃ m : ℤ, f0 * (dt' - dt) = m) ∧ (s 9 ≠ 0 → dt' = dt) := by
  obtain ⟨hA, hL, s1, s2⟩ := signs hd
  have hmd := measured_scaled (truth := [o.base.rsh, rp, r0, beta, l, L, tau0, gratio, tau3, dt]) hm (fun f => rfl) rfl
    rfl
  obtain ⟨r, hr, hc, hlen, hlim, hfit, hright⟩ := priors_exact hmn hp h
    (truth := [o.base.rsh, rp, r0, beta, l, L, tau0, gratio, tau3, dt]) rfl (by
      intro v hv
      simp only [List.dropLast_cons_cons, List.dropLast_singleton, List.mem_cons, List.not_mem_nil, or_false] at hv
      rcases hv with rfl | rfl | rfl | rfl | rfl | rfl | rfl | rfl | rfl
      exacts [hrsh.le, hrp, hd.hr0.le, hbeta, hd.hl.le, hd.hL, hd.htau0.le, hg.le, h3.le]) hpri hrsh.ne' he hmd
  refine ⟨r, hr, hc, ?_⟩
  generalize r.params = q at hlen hlim hfit hright
  match q, hlen with
  | [a, b, r0', beta', l', L', tau', g', t3', dt'], _ =>
  have ea : a = o.base.rsh := hright 0 h0
  have eb : b = rp := hright 1 h1
  have er : r0' = r0 := hright 2 h2
  subst ea eb er
  have hb' : 0 ≤ beta' := hlim _ (by simp)
  obtain ⟨k0, hk0⟩ := hh.2 0 (by norm_num)
  have hl1 := (scaled_three hrsh.ne' (hmd _ _ hk0)).1
  have hl2 := (scaled_three hrsh.ne' (hfit _ _ hk0)).1
  have hBne : r0' * l / (1 - l) * (2 + beta) ≠ 0 ∧ tau0 / (1 - l) ≠ 0 := by
    rcases lt_or_gt_of_ne hd.hl1 with q | q
    · exact ⟨(s2 q).1.ne', (s2 q).2.ne'⟩
    · exact ⟨(s1 q).1.ne, (s1 q).2.ne⟩
  have hA' : 0 ≤ o.base.rsh + b + r0' * (1 + beta') := by
    have := mul_nonneg hd.hr0.le (by linarith : 0 ≤ 1 + beta')
    linarith [hd.hrload]
  rw [not_or] at hl1 hl2
  obtain ⟨e1, e2, e6, e3, e4, e5, hm'⟩ := three_pole_shift_determined (dt := dt) (dt' := dt') hA hA' hBne.1
    (div_ne_zero hg.ne' hl1.1) hBne.2 h3.ne' hh.1
    fun j hj => by
      obtain ⟨k, hk⟩ := hh.2 j hj
      exact ⟨_, (scaled_three hrsh.ne' (hmd _ _ hk)).2, (scaled_three hrsh.ne' (hfit _ _ hk)).2⟩
  have ebeta : beta' = beta := by
    have : r0' * (1 + beta) = r0' * (1 + beta') := by linarith
    have := mul_left_cancel₀ hd.hr0.ne' this
    linarith
  subst ebeta
  have el : l' = l := by
    have h2b : (2 + beta') ≠ 0 := by linarith
    have := mul_right_cancel₀ h2b e2
    rw [div_eq_div_iff hl1.1 hl2.1] at this
    have : r0' * l = r0' * l' := by linear_combination this
    exact (mul_left_cancel₀ hd.hr0.ne' this).symm
  subst el
  have et : tau' = tau0 := by
    rw [div_eq_div_iff hl1.1 hl1.1] at e3
    exact (mul_right_cancel₀ hl1.1 e3).symm
  have eg : g' = gratio := by
    rw [div_eq_div_iff hl1.1 hl1.1] at e6
    exact (mul_right_cancel₀ hl1.1 e6).symm
  have eL : L' = L := by
    rw [div_eq_div_iff hl1.2 hl1.2] at e4
    exact (mul_right_cancel₀ hl1.2 e4).symm
  subst et eL eg e5
  exact ⟨dt', rfl, hm', fun h9 => hright 9 h9⟩

/-- One pole: a right prior on the shunt resistance is enough. -/
theorem priors_one_pole {x : Ext} {mn : Minimiser} (hmn : FindsP mn) {o : PObj} {p : Proc} (hp : o.base.proc = some p)
    {s : Fin 4 → ℝ} {priors : List ℝ} {c : Option ℝ} (h : (dofitP x mn o 1 priors (independent s) c).1 = .ok ())
    {rp L dt f0 : ℝ} (hrsh : 0 < o.base.rsh) (hrp : 0 ≤ rp) (hL : 0 ≤ L) (hpri : Right s priors [o.base.rsh, rp, L, dt])
    (h0 : s 0 ≠ 0) (he : ErrorBars o.base p c)
    (hm : Measured o.base p c
      (fun f => complexadmittance f { rsh := some o.base.rsh, rp := some rp, L := some L }) dt)
    (hh : Harmonics o.base p c f0 2) :
    ∃ r, fitresultP (dofitP x mn o 1 priors (independent s) c).2 1 = some r ∧ r.cost = 0 ∧
      ∃ dt', r.params = [o.base.rsh, rp, L, dt'] ∧ (∃ m : ℤ, f0 * (dt' - dt) = m) ∧ (s 3 ≠ 0 → dt' = dt) := by
  have hmd := measured_scaled (truth := [o.base.rsh, rp, L, dt]) hm (fun f => rfl) rfl rfl
  obtain ⟨r, hr, hc, hlen, hlim, hfit, hright⟩ := priors_exact hmn hp h
    (truth := [o.base.rsh, rp, L, dt]) rfl (by
      intro v hv
      simp only [List.dropLast_cons_cons, List.dropLast_singleton, List.mem_cons, List.not_mem_nil, or_false] at hv
      rcases hv with rfl | rfl | rfl
      exacts [hrsh.le, hrp, hL]) hpri hrsh.ne' he hmd
  refine ⟨r, hr, hc, ?_⟩
  generalize r.params = q at hlen hlim hfit hright
  match q, hlen with
  | [a, b, L', dt'], _ =>
  have ea : a = o.base.rsh := hright 0 h0
  subst ea
  have hb : 0 ≤ b := hlim _ (by simp)
  have hL' : 0 ≤ L' := hlim _ (by simp)
  have hA : 0 < o.base.rsh + rp := by linarith
  have hA' : 0 < o.base.rsh + b := by linarith
  have hne : |f0| ≠ |3 * f0| := by
    intro e
    rw [abs_mul] at e
    have := abs_pos.2 hh.1
    norm_num at e
    linarith
  obtain ⟨e1, e2, ⟨m, hm'⟩, -⟩ := one_pole_determined (dt := dt) (dt' := dt') hA hA' (div_nonneg hL hA.le)
    (div_nonneg hL' hA'.le) hne fun u hu => by
      obtain ⟨k, hk⟩ : ∃ k, Fitted o.base p c u k := by
        rcases hu with rfl | rfl
        · obtain ⟨k, hk⟩ := hh.2 0 (by norm_num)
          exact ⟨k, by simpa using hk⟩
        · obtain ⟨k, hk⟩ := hh.2 1 (by norm_num)
          exact ⟨k, by norm_num at hk; exact hk⟩
      exact ⟨_, (scaled_one hrsh.ne' (hmd _ _ hk)).2, (scaled_one hrsh.ne' (hfit _ _ hk)).2⟩
  obtain rfl : rp = b := by linarith
  obtain rfl : L = L' := by
    rw [div_eq_div_iff hA.ne' hA.ne'] at e2
    exact mul_right_cancel₀ hA.ne' e2
  refine ⟨dt', rfl, ⟨-m, ?_⟩, fun h3 => hright 3 h3⟩
  push_cast
  linarith

/-- A simulated device which is measured, fitted with priors on its resistances and loaded again is the same device. -/
theorem priors_device_reloaded {x : Ext} {mn : Minimiser} (hmn : FindsP mn) {o : PObj} {p : Proc}
    (hp : o.base.proc = some p) {s : Fin 8 → ℝ} {priors : List ℝ} {c : Option ℝ}
    (h : (dofitP x mn o 2 priors (independent s) c).1 = .ok ()) {t : Sim.TES} {a : Sim.LoadArgs} {rp dt f0 : ℝ}
    (ht : Sim.create ⟨o.base.rsh + rp, t.r0, o.base.rsh, t.beta, t.loopgain, t.inductance, t.tau0, a.G, a.qetbias,
      a.tc, a.tload, a.tbath, 5, true, a.squiddc, a.squidpole, a.squidn⟩ = .ok t)
    (hd : Physical t.rload t.r0 t.beta t.loopgain t.inductance t.tau0) (hrsh : 0 < o.base.rsh) (hrp : 0 ≤ rp)
    (hbeta : 0 ≤ t.beta)
    (hpri : Right s priors [o.base.rsh, rp, t.r0, t.beta, t.loopgain, t.inductance, t.tau0, dt])
    (h0 : s 0 ≠ 0) (h1 : s 1 ≠ 0) (h2 : s 2 ≠ 0) (he : ErrorBars o.base p c)
    (hm : Measured o.base p c (Sim.dIdV t) dt) (hh : Harmonics o.base p c f0 8) (rnormal : Option ℝ) :
    Sim.loadfrompriors (dofitP x mn o 2 priors (independent s) c).2 a rnormal ⟨"transition", true⟩ = .ok t := by
  obtain ⟨e1, e3⟩ : t.rload = o.base.rsh + rp ∧ t.rshunt = o.base.rsh := by
    have := ht
    unfold Sim.create at this
    split_ifs at this
    split at this
    · cases this
    · injection this with this
      rw [← this]
      exact ⟨rfl, rfl⟩
  obtain ⟨hA, -⟩ := signs hd
  have hm' : Measured o.base p c (fun f => complexadmittance f (transition o.base.rsh rp t.r0 t.beta t.loopgain
      t.inductance t.tau0)) dt := by
    intro f k hk
    rw [← hm f k hk, Sim.dIdV_agrees t f hd.hl1 hA.ne']
    simp only [transition, Sim.didvArgs, e1, e3, add_sub_cancel_left]
  obtain ⟨r, hr, -, dt', hs, -⟩ := priors_two_pole hmn hp h (by rw [← e1]; exact hd) hrsh hrp hbeta hpri h0 h1 h2 he
    hm' hh
  unfold Sim.loadfrompriors Sim.loadWith
  rw [if_neg (by decide), if_neg (by decide), if_pos (by decide)]
  simp only [hr, Sim.paramsOf, hs]
  exact ht

/-- Without a prior on `r0` there is another set of parameters, within the limits, for every `r0'` up to
`r0 (1 + beta)` (up to `r0` if the loop gain is above one), which has the same scaled response at all frequencies: the fit cannot tell them apart. -/
theorem r0_prior_needed {rsh rp r0 beta l L tau0 r0' : ℝ} (hd : Physical (rsh + rp) r0 beta l L tau0) (h' : 0 < r0')
    (hle : r0' ≤ r0 * (1 + beta)) (hl : l < 1 ∨ r0' ≤ r0) (dt : ℝ) :
    ∃ beta' l' tau0', Physical (rsh + rp) r0' beta' l' L tau0' ∧ 0 ≤ beta' ∧
      ∀ f, scaledY f [rsh, rp, r0', beta', l', L, tau0', dt] = scaledY f [rsh, rp, r0, beta, l, L, tau0, dt] := by
  obtain ⟨hA, -, s1, s2⟩ := signs hd
  set D := r0 * (1 + beta) with hD
  set B := r0 * l / (1 - l) * (2 + beta) with hBd
  have hDp : 0 < D := h'.trans_le hle
  have hN : 0 < D + r0' := by linarith
  obtain ⟨hS, hl', ht'⟩ : B + D + r0' ≠ 0 ∧ 0 < B / (B + D + r0') ∧
      0 < tau0 / (1 - l) * ((D + r0') / (B + D + r0')) := by
    rcases lt_or_gt_of_ne hd.hl1 with q | q
    · obtain ⟨hB, ht1⟩ := s2 q
      have hS : 0 < B + D + r0' := by linarith
      exact ⟨hS.ne', div_pos hB hS, mul_pos ht1 (div_pos hN hS)⟩
    · obtain ⟨hB, ht1⟩ := s1 q
      have hl1 : 1 - l < 0 := by linarith
      have e : B + D + r0 = r0 * (2 + beta) / (1 - l) := by
        rw [hBd, hD]
        field_simp [hl1.ne]
        ring
      have hneg : r0 * (2 + beta) / (1 - l) < 0 :=
        div_neg_of_pos_of_neg (mul_pos hd.hr0 (by linarith [hd.hbeta])) hl1
      have hS : B + D + r0' < 0 := by
        rcases hl with h | h <;> linarith
      exact ⟨hS.ne, div_pos_of_neg_of_neg hB hS, mul_pos_of_neg_of_neg ht1 (div_neg_of_pos_of_neg hN hS)⟩
  have el : 1 - B / (B + D + r0') = (D + r0') / (B + D + r0') := by
    field_simp
    ring
  have hne : 1 - B / (B + D + r0') ≠ 0 := by rw [el]; exact div_ne_zero hN.ne' hS
  refine ⟨D / r0' - 1, B / (B + D + r0'), tau0 / (1 - l) * (1 - B / (B + D + r0')), ⟨hd.hrload, h', ?_, hl', ?_,
    hd.hL, ?_⟩, ?_, fun f => ?_⟩
  · have : 0 < D / r0' := div_pos hDp h'
    linarith
  · intro e
    rw [e, sub_self] at hne
    exact hne rfl
  · rw [el]
    exact ht'
  · rw [sub_nonneg, le_div_iff₀ h', one_mul]
    exact hle
  · have e1 : r0' * (1 + (D / r0' - 1)) = D := by field_simp; ring
    have e2 : r0' * (B / (B + D + r0')) / (1 - B / (B + D + r0')) * (2 + (D / r0' - 1)) = B := by
      rw [el]
      field_simp
      ring
    have a1 : complexadmittance f (sspArgs [rsh, rp, r0', D / r0' - 1, B / (B + D + r0'), L,
        tau0 / (1 - l) * (1 - B / (B + D + r0')), dt]) = complexadmittance f (sspArgs [rsh, rp, r0, beta, l, L, tau0, dt]) := by
      change complexadmittance f (transition _ _ _ _ _ _ _) = complexadmittance f (transition _ _ _ _ _ _ _)
      rw [admittance_two (by rw [e1, not_or]; exact ⟨hne, hA.ne'⟩),
        admittance_two (not_or.2 ⟨sub_ne_zero.2 hd.hl1.symm, hA.ne'⟩), e1, e2, mul_div_cancel_right₀ _ hne]
    unfold scaledY
    rw [a1]
    rfl

/-- Without a prior on any of the resistances and the inductance their common scale is free. -/
theorem scale_prior_needed {k rsh rp r0 beta l L tau0 : ℝ} (hk : k ≠ 0) (dt f : ℝ) :
    scaledY f [k * rsh, k * rp, k * r0, beta, l, k * L, tau0, dt] = scaledY f [rsh, rp, r0, beta, l, L, tau0, dt] ∧
      scaledY f [k * rsh, k * rp, k * L, dt] = scaledY f [rsh, rp, L, dt] := by
  have hkc : (k : ℂ) ≠ 0 := Complex.ofReal_ne_zero.2 hk
  have hrec : ∀ z : ℂ, recipZ ((k : ℂ) * z) = (recipZ z).map fun y => y / (k : ℂ) := by
    intro z
    unfold recipZ
    by_cases hz : z = 0
    · rw [if_pos (by simp [hz]), if_pos hz]
      rfl
    · rw [if_neg (mul_ne_zero hkc hz), if_neg hz]
      change Except.ok _ = Except.ok _
      dsimp only
      rw [div_div, mul_comm z]
  have fin : ∀ q q' : List ℝ, q'.headD 0 = k * q.headD 0 → q'.getLastD 0 = q.getLastD 0 →
      complexadmittance f (sspArgs q') = (complexadmittance f (sspArgs q)).map (fun y => y / (k : ℂ)) →
      scaledY f q' = scaledY f q := by
    intro q q' h1 h2 h3
    unfold scaledY
    rw [h3, h1, h2]
    cases complexadmittance f (sspArgs q) with
    | error e => rfl
    | ok y =>
      simp only [Except.map]
      congr 2
      push_cast
      field_simp
  refine ⟨fin _ _ rfl rfl ?_, fin _ _ rfl rfl ?_⟩
  · change complexadmittance f (transition _ _ _ _ _ _ _) = (complexadmittance f (transition _ _ _ _ _ _ _)).map _
    have e : k * rsh + k * rp + k * r0 * (1 + beta) = k * (rsh + rp + r0 * (1 + beta)) := by ring
    have e2 : k * r0 * l / (1 - l) * (2 + beta) = k * (r0 * l / (1 - l) * (2 + beta)) := by ring
    by_cases hl : 1 - l = 0 ∨ rsh + rp + r0 * (1 + beta) = 0
    · have h1 : convertFrom [k * rsh, k * rp, k * r0, beta, l, k * L, tau0, 0] = .error .zeroDivision :=
        if_pos (by rw [e, mul_eq_zero]; tauto)
      have h2 : convertFrom [rsh, rp, r0, beta, l, L, tau0, 0] = .error .zeroDivision := if_pos hl
      have e1 : ∀ a b c d e f g, poleExtractor (transition a b c d e f g) = .ok 2 := fun _ _ _ _ _ _ _ => rfl
      unfold complexadmittance compleximpedance
      simp only [e1]
      simp only [transition, Option.getD_some, h1, h2]
      rfl
    · rw [admittance_two hl, admittance_two (by rw [e, mul_eq_zero]; tauto), e, e2, mul_div_mul_left _ _ hk]
      unfold twoPoleY
      rw [← hrec]
      congr 1
      unfold twoPoleZ
      push_cast
      ring
  · change complexadmittance f { rsh := some (k * rsh), rp := some (k * rp), L := some (k * L) } =
      (complexadmittance f { rsh := some rsh, rp := some rp, L := some L }).map _
    have e : k * rsh + k * rp = k * (rsh + rp) := by ring
    by_cases hl : rsh + rp = 0
    · have h1 : convertFrom [k * rsh, k * rp, k * L, 0] = .error .zeroDivision := if_pos (by rw [e, hl, mul_zero])
      have h2 : convertFrom [rsh, rp, L, 0] = .error .zeroDivision := if_pos hl
      have e1 : ∀ a b c : ℝ, poleExtractor { rsh := some a, rp := some b, L := some c } = .ok 1 := fun _ _ _ => rfl
      unfold complexadmittance compleximpedance
      simp only [e1]
      simp only [Option.getD_some, h1, h2]
      rfl
    · rw [admittance_one hl, admittance_one (by rw [e]; exact mul_ne_zero hk hl), e, mul_div_mul_left _ _ hk]
      unfold onePoleY
      rw [← hrec]
      congr 1
      unfold onePoleZ
      push_cast
      ring

end Verif.Device
