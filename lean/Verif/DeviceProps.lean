import Verif.DeviceLemmas

/-! Property C138: a device whose response has been measured is found again. -/

namespace Verif.Device
open Verif Verif.Didv

/-- Two poles: the small signal parameters stored by the fit are those of the device. -/
theorem two_pole_device {x : Ext} (hx : Finds x.ls) {o : Obj} {p : Proc} (hp : o.proc = some p) {c : Option ℝ}
    (h : (dofit x o 2 c).1 = .ok ()) {beta l L tau0 dt f0 : ℝ} (hd : Physical (o.rsh + o.rp) o.r0 beta l L tau0)
    (hm : Measured o p c (fun f => complexadmittance f (transition o.rsh o.rp o.r0 beta l L tau0)) dt)
    (hh : Harmonics o p c f0 8) (hb : guessSub1 p.trace p.flat = decide (l < 1)) :
    ∃ r, fitresult (dofit x o 2 c).2 2 = .found r ∧ r.cost = 0 ∧
      ∃ dt', r.ssp = [o.rsh, o.rp, o.r0, beta, l, L, tau0, dt'] ∧ ∃ m : ℤ, f0 * (dt' - dt) = m := by
  obtain ⟨hA, h2, s1, s2⟩ := signs hd
  have hl' : ¬ (1 - l = 0 ∨ o.rsh + o.rp + o.r0 * (1 + beta) = 0) :=
    not_or.2 ⟨sub_ne_zero.2 hd.hl1.symm, hA.ne'⟩
  obtain ⟨r, hr, hc, dt', hpar, hm'⟩ := dofit_two_recovered_partial hx hp h
    (A := o.rsh + o.rp + o.r0 * (1 + beta)) (B := o.r0 * l / (1 - l) * (2 + beta)) (t1 := tau0 / (1 - l))
    (t2 := L / (o.rsh + o.rp + o.r0 * (1 + beta))) (dt := dt) (f0 := f0)
    (fun k hk hv => by
      rw [← hm _ k ⟨hk, rfl, hv⟩]
      dsimp only
      rw [admittance_two hl']
      rfl) hh.1 (fun j hj => by
        obtain ⟨k, h1, h2, h3⟩ := hh.2 j hj
        exact ⟨k, h1, by rw [← h2]; exact h3, h2.symm⟩) hA h2 (by
        rcases lt_or_gt_of_ne hd.hl1 with q | q
        · exact Or.inr ⟨(s2 q).1, (s2 q).2, by rw [hb]; simpa using q⟩
        · exact Or.inl ⟨(s1 q).1, (s1 q).2, by rw [hb]; simpa using q.le⟩)
  refine ⟨r, hr, hc, dt', ?_, hm'⟩
  have e := stored_ssp hp h hr
  rw [hpar] at e
  obtain ⟨-, ⟨q, c1, -, c2⟩, -⟩ := tes_roundtrip (rsh := o.rsh) (rp := o.rp) (r0 := o.r0) (beta := beta) (l := l) (L := L)
    (tau0 := tau0) (gratio := 0) (tau3 := 0) (dt := dt') hd.hl1 hd.hr0.ne' (by have := hd.hbeta; intro q; linarith) hA.ne' hd.hrload.ne'
  simp only [convertFrom, if_neg hl'] at c1
  cases c1
  rw [c2] at e
  exact (Except.ok.inj e).symm

/-- Three poles. -/
theorem three_pole_device {x : Ext} (hx : Finds x.ls) {o : Obj} {p : Proc} (hp : o.proc = some p)
    {c : Option ℝ} (h : (dofit x o 3 c).1 = .ok ()) {beta l L tau0 gratio tau3 dt f0 : ℝ}
    (hd : Physical (o.rsh + o.rp) o.r0 beta l L tau0) (hg : 0 < gratio) (h3 : 0 < tau3)
    (hm : Measured o p c (fun f => complexadmittance f (twoBodies o.rsh o.rp o.r0 beta l L tau0 gratio tau3)) dt)
    (hh : Harmonics o p c f0 12) (hb : guessSub1 p.trace p.flat = decide (l < 1)) :
    ∃ r, fitresult (dofit x o 3 c).2 3 = .found r ∧ r.cost = 0 ∧
      ∃ dt', r.ssp = [o.rsh, o.rp, o.r0, beta, l, L, tau0, gratio, tau3, dt'] ∧ ∃ m : ℤ, f0 * (dt' - dt) = m := by
  obtain ⟨hA, h2, s1, s2⟩ := signs hd
  have hl' : ¬ (1 - l = 0 ∨ o.rsh + o.rp + o.r0 * (1 + beta) = 0) :=
    not_or.2 ⟨sub_ne_zero.2 hd.hl1.symm, hA.ne'⟩
  obtain ⟨r, hr, hc, dt', hpar, hm'⟩ := dofit_three_recovered_partial hx hp h
    (A := o.rsh + o.rp + o.r0 * (1 + beta)) (B := o.r0 * l / (1 - l) * (2 + beta)) (C := gratio / (1 - l))
    (t1 := tau0 / (1 - l)) (t2 := L / (o.rsh + o.rp + o.r0 * (1 + beta))) (t3 := tau3) (dt := dt) (f0 := f0)
    (fun k hk hv => by
      rw [← hm _ k ⟨hk, rfl, hv⟩]
      dsimp only
      rw [admittance_three hl']
      rfl) hh.1 (fun j hj => by
        obtain ⟨k, h1, h2, h3⟩ := hh.2 j hj
        exact ⟨k, h1, by rw [← h2]; exact h3, h2.symm⟩) hA h2 h3 (by
        rcases lt_or_gt_of_ne hd.hl1 with q | q
        · exact Or.inr ⟨(s2 q).1, div_pos hg (by linarith), (s2 q).2, by rw [hb]; simpa using q⟩
        · exact Or.inl ⟨(s1 q).1, div_neg_of_pos_of_neg hg (by linarith), (s1 q).2, by
            rw [hb]; simpa using q.le⟩)
  refine ⟨r, hr, hc, dt', ?_, hm'⟩
  have e := stored_ssp hp h hr
  rw [hpar] at e
  obtain ⟨-, -, ⟨q, c1, -, c2⟩⟩ := tes_roundtrip (rsh := o.rsh) (rp := o.rp) (r0 := o.r0) (beta := beta) (l := l)
    (L := L) (tau0 := tau0) (gratio := gratio) (tau3 := tau3) (dt := dt') hd.hl1 hd.hr0.ne'
    (by have := hd.hbeta; intro q; linarith) hA.ne' hd.hrload.ne'
  simp only [convertFrom, if_neg hl'] at c1
  cases c1
  rw [c2] at e
  exact (Except.ok.inj e).symm

/-- One pole: the parasitic resistance and the inductance of a superconducting device are found, whatever parasitic
and operating resistances the object was given. -/
theorem one_pole_device {x : Ext} (hx : Finds x.ls) {o : Obj} {p : Proc} (hp : o.proc = some p)
    {c : Option ℝ} (h : (dofit x o 1 c).1 = .ok ()) {rp L dt f0 : ℝ} (hR : 0 < o.rsh + rp) (hL : 0 ≤ L)
    (hm : Measured o p c (fun f => complexadmittance f { rsh := some o.rsh, rp := some rp, L := some L }) dt)
    (hh : Harmonics o p c f0 2) :
    ∃ r, fitresult (dofit x o 1 c).2 1 = .found r ∧ r.cost = 0 ∧
      ∃ dt', r.ssp = [o.rsh, rp, L, dt'] ∧ ∃ m : ℤ, f0 * (dt' - dt) = m := by
  obtain ⟨r, hr, hc, dt', hpar, hm'⟩ := dofit_one_recovered_partial hx hp h
    (A := o.rsh + rp) (t2 := L / (o.rsh + rp)) (dt := dt) (f0 := f0)
    (fun k hk hv => by
      rw [← hm _ k ⟨hk, rfl, hv⟩]
      dsimp only
      rw [admittance_one hR.ne']
      rfl) hh.1 (fun j hj => by
        obtain ⟨k, h1, h2, h3⟩ := hh.2 j hj
        exact ⟨k, h1, by rw [← h2]; exact h3, h2.symm⟩) hR (div_nonneg hL hR.le)
  refine ⟨r, hr, hc, dt', ?_, hm'⟩
  have e := stored_ssp hp h hr
  rw [hpar] at e
  simp only [convertTo, add_sub_cancel_left, mul_div_cancel₀ _ hR.ne'] at e
  exact (Except.ok.inj e).symm

/-- A simulated device whose response is measured, fitted and loaded again is the same device, so that every noise
spectrum, response and resolution predicted for it is the same. -/
theorem device_reloaded {x : Ext} (hx : Finds x.ls) {o : Obj} {p : Proc} (hp : o.proc = some p)
    {c : Option ℝ} (h : (dofit x o 2 c).1 = .ok ()) {t : Sim.TES} {a : Sim.LoadArgs} {dt f0 : ℝ}
    (ht : Sim.create ⟨o.rsh + o.rp, o.r0, o.rsh, t.beta, t.loopgain, t.inductance, t.tau0, a.G, a.qetbias, a.tc,
      a.tload, a.tbath, 5, true, a.squiddc, a.squidpole, a.squidn⟩ = .ok t)
    (hd : Physical t.rload t.r0 t.beta t.loopgain t.inductance t.tau0) (hm : Measured o p c (Sim.dIdV t) dt)
    (hh : Harmonics o p c f0 8) (hb : guessSub1 p.trace p.flat = decide (t.loopgain < 1)) (rnormal : Option ℝ) :
    Sim.loadfromdidv (dofit x o 2 c).2 a rnormal ⟨"transition", true⟩ = .ok t := by
  obtain ⟨e1, e2, e3⟩ : t.rload = o.rsh + o.rp ∧ t.r0 = o.r0 ∧ t.rshunt = o.rsh := by
    have := ht
    unfold Sim.create at this
    split_ifs at this
    split at this
    · cases this
    · injection this with this
      rw [← this]
      exact ⟨rfl, rfl, rfl⟩
  obtain ⟨hA, -⟩ := signs hd
  have hm' : Measured o p c (fun f => complexadmittance f (transition o.rsh o.rp o.r0 t.beta t.loopgain
      t.inductance t.tau0)) dt := by
    intro f k hk
    rw [← hm f k hk, Sim.dIdV_agrees t f hd.hl1 hA.ne']
    simp only [transition, Sim.didvArgs, e1, e2, e3, add_sub_cancel_left]
  obtain ⟨r, hr, -, dt', hs, -⟩ := two_pole_device hx hp h (by rw [← e1, ← e2]; exact hd) hm' hh hb
  unfold Sim.loadfromdidv Sim.loadWith
  rw [if_neg (by decide), if_neg (by decide), if_pos (by decide)]
  simp only [hr, Sim.sspOf, hs]
  exact ht

/-- A superconducting device: the loaded one has the same response and the same noise. -/
theorem superconductor_reloaded {x : Ext} (hx : Finds x.ls) {o : Obj} {p : Proc} (hp : o.proc = some p)
    {c : Option ℝ} (h : (dofit x o 1 c).1 = .ok ()) {t : Sim.TES} {a : Sim.LoadArgs} {dt f0 : ℝ}
    (hr : 0 < t.rload) (hL : 0 ≤ t.inductance) (hrs : t.rshunt = o.rsh) (htl : t.tload = a.tload)
    (h1 : t.squiddc = a.squiddc) (h2 : t.squidpole = a.squidpole) (h3 : t.squidn = a.squidn) (htc : 0 < a.tc)
    (htb : 0 ≤ a.tbath) (hm : Measured o p c (Sim.dIdVsc t) dt) (hh : Harmonics o p c f0 2) (rnormal : Option ℝ) :
    ∃ t', Sim.loadfromdidv (dofit x o 1 c).2 a rnormal ⟨"superconducting", true⟩ = .ok t' ∧
      ∀ f, Sim.dIdVsc t' f = Sim.dIdVsc t f ∧ Sim.sIloadSc t' f = Sim.sIloadSc t f ∧
        Sim.sIsquid t' f = Sim.sIsquid t f ∧ Sim.sItotSc t' f = Sim.sItotSc t f := by
  have hR : 0 < o.rsh + (t.rload - o.rsh) := by rw [add_sub_cancel]; exact hr
  obtain ⟨r, hr', -, dt', hs, -⟩ := one_pole_device hx hp h (rp := t.rload - o.rsh) (L := t.inductance)
    (dt := dt) (f0 := f0) hR hL (fun f k hk => by
      rw [← hm f k hk, (Sim.onePole_agrees t f).1 hr.ne', hrs]) hh
  have hsup : Sim.suppression true a.tbath a.tc 5 = .ok (((a.tbath / a.tc) ^ (6 : ℝ) + 1) / 2) := by
    unfold Sim.suppression
    rw [if_neg htc.ne', if_pos rfl, Sim.pw_ok (by positivity) (fun _ => by norm_num)]
    norm_num
  refine ⟨⟨o.rsh + (t.rload - o.rsh), 0, o.rsh, 0, 0, t.inductance, 0, a.qetbias,
    a.qetbias * o.rsh / (0 + (o.rsh + (t.rload - o.rsh))), a.tc, a.tload, 0, a.tbath, 5, a.squiddc, a.squidpole,
    a.squidn, ((a.tbath / a.tc) ^ (6 : ℝ) + 1) / 2⟩, ?_, fun f => ?_⟩
  · unfold Sim.loadfromdidv Sim.loadWith
    rw [if_pos (by decide)]
    simp only [hr', Sim.sspOf, hs, Sim.create]
    rw [if_neg (by rw [zero_add]; exact hR.ne'), hsup]
  · have e1 : o.rsh + (t.rload - o.rsh) = t.rload := add_sub_cancel _ _
    simp only [Sim.dIdVsc, Sim.sIloadSc, Sim.sIsquid, Sim.sItotSc, Sim.sVload, e1, htl, h1, h2, h3, and_self]

end Verif.Device
