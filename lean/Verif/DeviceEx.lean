import Verif.DeviceProps
import Verif.DidvRecoverEx

/-! Concrete cases for property C138. -/

namespace Verif.Device
open Verif Verif.Didv

/-- The harmonics of the demonstration. -/
theorem demo_harmonics {o : Obj} {p : Proc} (n : ℕ)
    (h : ∀ j : ℕ, j < n → ∃ k < p.nbins, freqAt p.nbins o.fs k = (2 * j + 1) * 1) : Harmonics o p none 1 n := by
  refine ⟨one_ne_zero, fun j hj => ?_⟩
  obtain ⟨k, h1, h2⟩ := h j hj
  exact ⟨k, h1, h2.symm, by simp⟩

/-- A device with loop gain one half. -/
theorem demo_device : Physical 1 1 (-1) (1 / 2) 1 (1 / 2) := by
  constructor <;> norm_num

/-- Two poles. -/
theorem demo_transition : ∃ x : Ext, Finds x.ls ∧ ∃ o p, o.proc = some p ∧ (dofit x o 2 none).1 = .ok () ∧
    o.rsh = 1 ∧ o.rp = 0 ∧ o.r0 = 1 ∧
    Measured o p none (fun f => complexadmittance f (transition 1 0 1 (-1) (1 / 2) 1 (1 / 2))) 0 ∧
    Harmonics o p none 1 8 ∧ guessSub1 p.trace p.flat = decide ((1 / 2 : ℝ) < 1) := by
  obtain ⟨x, hx, o, p, D, h, hd, hh, hs⟩ := demo_fit_two
  refine ⟨x, hx, o, p, D.proc, h, D.rsh, D.rp, D.r0, fun f k hk => ?_, demo_harmonics 8 hh, ?_⟩
  · obtain ⟨h1, rfl, -⟩ := hk
    rw [← hd k h1]
    dsimp only
    rw [admittance_two (by norm_num)]
    norm_num [fitY]
  · rw [hs, eq_comm, decide_eq_true_eq]
    norm_num

/-- The hypotheses of `two_pole_device` are met. -/
example : ∃ x : Ext, Finds x.ls ∧ ∃ o p, o.proc = some p ∧ (dofit x o 2 none).1 = .ok () ∧
    Physical (o.rsh + o.rp) o.r0 (-1) (1 / 2) 1 (1 / 2) ∧
    Measured o p none (fun f => complexadmittance f (transition o.rsh o.rp o.r0 (-1) (1 / 2) 1 (1 / 2))) 0 ∧
    Harmonics o p none 1 8 ∧ guessSub1 p.trace p.flat = decide ((1 / 2 : ℝ) < 1) := by
  obtain ⟨x, hx, o, p, hp, h, e1, e2, e3, hm, hh⟩ := demo_transition
  refine ⟨x, hx, o, p, hp, h, ?_, ?_, hh⟩
  · rw [e1, e2, e3, add_zero]; exact demo_device
  · rw [e1, e2, e3]; exact hm

/-- The hypotheses of `three_pole_device` are met. -/
example : ∃ x : Ext, Finds x.ls ∧ ∃ o p, o.proc = some p ∧ (dofit x o 3 none).1 = .ok () ∧
    Physical (o.rsh + o.rp) o.r0 (-1) (1 / 2) 1 (1 / 2) ∧
    Measured o p none
      (fun f => complexadmittance f (twoBodies o.rsh o.rp o.r0 (-1) (1 / 2) 1 (1 / 2) (1 / 4) 1)) 0 ∧
    Harmonics o p none 1 12 ∧ guessSub1 p.trace p.flat = decide ((1 / 2 : ℝ) < 1) := by
  obtain ⟨x, hx, o, p, D, h, hd, hh, hs⟩ := demo_fit_three
  refine ⟨x, hx, o, p, D.proc, h, ?_, ?_, demo_harmonics 12 hh, ?_⟩
  · rw [D.rsh, D.rp, D.r0, add_zero]; exact demo_device
  · intro f k hk
    obtain ⟨h1, rfl, -⟩ := hk
    rw [← hd k h1]
    dsimp only
    rw [D.rsh, D.rp, D.r0, admittance_three (by norm_num)]
    norm_num [fitY]
  · rw [hs, eq_comm, decide_eq_true_eq]
    norm_num

/-- The hypotheses of `one_pole_device` are met. -/
example : ∃ x : Ext, Finds x.ls ∧ ∃ o p, o.proc = some p ∧ (dofit x o 1 none).1 = .ok () ∧ 0 < o.rsh + 1 ∧
    Measured o p none (fun f => complexadmittance f { rsh := some o.rsh, rp := some 1, L := some 2 }) 0 ∧
    Harmonics o p none 1 2 := by
  obtain ⟨x, hx, o, p, D, h, hd, hh⟩ := demo_fit_one
  refine ⟨x, hx, o, p, D.proc, h, by rw [D.rsh]; norm_num, fun f k hk => ?_, demo_harmonics 2 hh⟩
  obtain ⟨h1, rfl, -⟩ := hk
  rw [← hd k h1]
  dsimp only
  rw [D.rsh, admittance_one (by norm_num)]
  norm_num [fitY]

/-- The other arguments: a bath at zero temperature. -/
def demoLoad : Sim.LoadArgs := ⟨1, 1, 1, 1, 0, 1, 0, 0⟩

/-- The hypotheses of `device_reloaded` are met. -/
example : ∃ x : Ext, Finds x.ls ∧ ∃ o p, o.proc = some p ∧ (dofit x o 2 none).1 = .ok () ∧ ∃ t : Sim.TES,
    Sim.create ⟨o.rsh + o.rp, o.r0, o.rsh, t.beta, t.loopgain, t.inductance, t.tau0, demoLoad.G, demoLoad.qetbias,
      demoLoad.tc, demoLoad.tload, demoLoad.tbath, 5, true, demoLoad.squiddc, demoLoad.squidpole,
      demoLoad.squidn⟩ = .ok t ∧
    Physical t.rload t.r0 t.beta t.loopgain t.inductance t.tau0 ∧ Measured o p none (Sim.dIdV t) 0 ∧
    Harmonics o p none 1 8 ∧ guessSub1 p.trace p.flat = decide (t.loopgain < 1) := by
  obtain ⟨x, hx, o, p, hp, h, e1, e2, e3, hm, hh, hs⟩ := demo_transition
  refine ⟨x, hx, o, p, hp, h, ⟨1, 1, 1, -1, 1 / 2, 1, 1 / 2, 1, 1 / 2, 1, 1, 1, 0, 5, 1, 0, 0, 1 / 2⟩, ?_, demo_device,
    fun f k hk => ?_, hh, hs⟩
  · rw [e1, e2, e3]
    norm_num [Sim.create, Sim.suppression, Sim.pw, demoLoad]
  · rw [← hm f k hk, Sim.dIdV_agrees _ f (by norm_num) (by norm_num)]
    norm_num [transition, Sim.didvArgs]

/-- The hypotheses of `superconductor_reloaded` are met. -/
example : ∃ x : Ext, Finds x.ls ∧ ∃ o p, o.proc = some p ∧ (dofit x o 1 none).1 = .ok () ∧ ∃ t : Sim.TES,
    0 < t.rload ∧ 0 ≤ t.inductance ∧ t.rshunt = o.rsh ∧ t.tload = demoLoad.tload ∧ t.squiddc = demoLoad.squiddc ∧
    t.squidpole = demoLoad.squidpole ∧ t.squidn = demoLoad.squidn ∧ 0 < demoLoad.tc ∧ 0 ≤ demoLoad.tbath ∧
    Measured o p none (Sim.dIdVsc t) 0 ∧ Harmonics o p none 1 2 := by
  obtain ⟨x, hx, o, p, D, h, hd, hh⟩ := demo_fit_one
  refine ⟨x, hx, o, p, D.proc, h, ⟨2, 0, 1, 0, 0, 2, 0, 1, 1 / 2, 1, 1, 0, 0, 5, 1, 0, 0, 1 / 2⟩, by norm_num, by norm_num,
    D.rsh.symm, rfl, rfl, rfl, rfl, by norm_num [demoLoad], le_refl _, fun f k hk => ?_, demo_harmonics 2 hh⟩
  obtain ⟨h1, rfl, -⟩ := hk
  rw [← hd k h1, (Sim.onePole_agrees _ _).1 (by norm_num), admittance_one (by norm_num)]
  norm_num [fitY]

end Verif.Device
