import Verif.DeviceSpec
import Verif.DidvRecoverProps
import Verif.SimProps

/-! Lemmas for property C138. -/

namespace Verif.Device
open Verif Verif.Didv

/-- What is stored belongs to the fitted parameters. -/
theorem stored_ssp {x : Ext} {o : Obj} {p : Proc} {c : Option ℝ} {k : ℤ} (hp : o.proc = some p)
    (h : (dofit x o k c).1 = .ok ()) {r : Result} (hr : fitresult (dofit x o k c).2 k = .found r) :
    convertTo r.params o.rsh o.r0 o.rp = .ok r.ssp := by
  obtain ⟨n, r', hk, -, hrun, hfound⟩ := dofit_run hp h
  rw [hk] at hr hfound
  rw [hr] at hfound
  cases hfound
  obtain ⟨A0, B0, C0, t1, t2, t3, dt, sub1, params, cov, cost, ft, hg, hl, _, hres⟩ := runFit_ok hrun
  obtain ⟨e, hc, -⟩ := fitResult_params hres
  rw [e]
  exact hc

/-- The fit parameters of a device have the signs of the branch which its loop gain asks for. -/
theorem signs {rload r0 beta l L tau0 : ℝ} (h : Physical rload r0 beta l L tau0) :
    0 < rload + r0 * (1 + beta) ∧ 0 ≤ L / (rload + r0 * (1 + beta)) ∧
      (1 < l → r0 * l / (1 - l) * (2 + beta) < 0 ∧ tau0 / (1 - l) < 0) ∧
      (l < 1 → 0 < r0 * l / (1 - l) * (2 + beta) ∧ 0 < tau0 / (1 - l)) := by
  obtain ⟨h1, h2, h3, h4, -, h6, h7⟩ := h
  have hA : 0 < rload + r0 * (1 + beta) := by
    have : 0 ≤ r0 * (1 + beta) := mul_nonneg h2.le (by linarith)
    linarith
  have hb : 0 < 2 + beta := by linarith
  refine ⟨hA, div_nonneg h6 hA.le, fun hl => ⟨mul_neg_of_neg_of_pos (div_neg_of_pos_of_neg (mul_pos h2 h4) (by linarith)) hb,
    div_neg_of_pos_of_neg h7 (by linarith)⟩, fun hl => ⟨?_, div_pos h7 (by linarith)⟩⟩
  exact mul_pos (div_pos (mul_pos h2 h4) (by linarith)) hb

/-- The responses of the device in terms of the fit parameters. -/
theorem admittance_two {f rsh rp r0 beta l L tau0 : ℝ} (h : ¬ (1 - l = 0 ∨ rsh + rp + r0 * (1 + beta) = 0)) :
    complexadmittance f (transition rsh rp r0 beta l L tau0) =
      twoPoleY f (rsh + rp + r0 * (1 + beta)) (r0 * l / (1 - l) * (2 + beta)) (tau0 / (1 - l))
        (L / (rsh + rp + r0 * (1 + beta))) := by
  have e : poleExtractor (transition rsh rp r0 beta l L tau0) = .ok 2 := rfl
  have hcf : convertFrom [rsh, rp, r0, beta, l, L, tau0, 0] = .ok [rsh + rp + r0 * (1 + beta),
      r0 * l / (1 - l) * (2 + beta), tau0 / (1 - l), L / (rsh + rp + r0 * (1 + beta)), 0] := if_neg h
  unfold complexadmittance compleximpedance
  simp only [e]
  simp only [transition, Option.getD_some, hcf]
  rfl

theorem admittance_three {f rsh rp r0 beta l L tau0 gratio tau3 : ℝ}
    (h : ¬ (1 - l = 0 ∨ rsh + rp + r0 * (1 + beta) = 0)) :
    complexadmittance f (twoBodies rsh rp r0 beta l L tau0 gratio tau3) =
      threePoleY f (rsh + rp + r0 * (1 + beta)) (r0 * l / (1 - l) * (2 + beta)) (gratio / (1 - l)) (tau0 / (1 - l))
        (L / (rsh + rp + r0 * (1 + beta))) tau3 := by
  have e : poleExtractor (twoBodies rsh rp r0 beta l L tau0 gratio tau3) = .ok 3 := rfl
  have hcf : convertFrom [rsh, rp, r0, beta, l, L, tau0, gratio, tau3, 0] = .ok [rsh + rp + r0 * (1 + beta),
      r0 * l / (1 - l) * (2 + beta), gratio / (1 - l), tau0 / (1 - l), L / (rsh + rp + r0 * (1 + beta)), tau3, 0] :=
    if_neg h
  unfold complexadmittance compleximpedance
  simp only [e]
  simp only [twoBodies, transition, Option.getD_some, hcf]
  rfl

theorem admittance_one {f rsh rp L : ℝ} (h : rsh + rp ≠ 0) :
    complexadmittance f { rsh := some rsh, rp := some rp, L := some L } =
      onePoleY f (rsh + rp) (L / (rsh + rp)) := by
  have e : poleExtractor { rsh := some rsh, rp := some rp, L := some L } = .ok 1 := rfl
  have hcf : convertFrom [rsh, rp, L, 0] = .ok [rsh + rp, L / (rsh + rp), 0] := if_neg h
  unfold complexadmittance compleximpedance
  simp only [e, Option.getD_some, hcf]
  rfl

end Verif.Device
