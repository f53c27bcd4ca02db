import Verif.DeviceNoiseProps
import Verif.DidvRecoverEx

/-! The hypotheses of property C140 can be met: an optimiser which stops where it starts is honest. -/

namespace Verif.Device
open Verif Verif.Didv

/-- It returns the starting point, and half the sum of squares there. -/
noncomputable def lazy : Ext :=
  ⟨fun res p0 _ => ⟨p0, match res p0 with | .ok r => (r.map fun v => v ^ 2).sum / 2 | .error _ => 0, .ok []⟩,
    fun _ q => q, fun _ q => q⟩

theorem lazy_honest : Honest lazy.ls := fun res p0 bounds r0 _ h => ⟨r0, h, by simp only [lazy, h]⟩

/-- The averages are those of a detector with `A = B = 1` and time constants of one second; the fit stops at its guess,
whose time constants are far smaller, so that there is a deviation to be bounded. -/
theorem demo_lazy : ∃ o p, demoInit [1, 1, 1, 1, 0] = .ok o ∧ o.proc = some p ∧ (dofit lazy o 2 none).1 = .ok () := by
  obtain ⟨o, p, D⟩ := demo_init [1, 1, 1, 1, 0] 1 0
  obtain ⟨hs1, -, hg, -⟩ := demo_guess D
  obtain ⟨hd, hh, hres⟩ := demo_data D fun f => fitY_two_def one_pos zero_le_one
  refine ⟨o, p, D.init, D.proc, ?_⟩
  obtain ⟨r, hr⟩ := hres [1, 1, 100 / 10 ^ 6, 1 / 10 ^ 7, 1 / 128] fun f => fitY_two_def one_pos zero_le_one
  have h2 : List.Forall₂ inB [(1 : ℝ), 1, 100 / 10 ^ 6, 1 / 10 ^ 7, 1 / 128]
      [(some 0, none), (some 0, none), (some 0, none), (some 0, none), (none, none)] :=
    .cons (inB_pos zero_le_one) (.cons (inB_pos zero_le_one) (.cons (inB_pos (by norm_num))
      (.cons (inB_pos (by norm_num)) (.cons (inB_free _) .nil))))
  have hfit : ∃ cost, fitdidv lazy.ls (fitPts p o.fs none) 2 1 (-1) (-6 / 10) (-100 / 10 ^ 6) (1 / 10 ^ 7) 0 (1 / 128)
      (some true) = .ok ([1, 1, 100 / 10 ^ 6, 1 / 10 ^ 7, 1 / 128], [], cost) := by
    have e : starts 2 1 (-1) (-6 / 10) (-100 / 10 ^ 6) (1 / 10 ^ 7) 0 (1 / 128) =
        ([1, -1, -100 / 10 ^ 6, 1 / 10 ^ 7, 1 / 128],
          [(some 0, none), (none, some 0), (none, some 0), (some 0, none), (none, none)],
          [1, 1, 100 / 10 ^ 6, 1 / 10 ^ 7, 1 / 128],
          [(some 0, none), (some 0, none), (some 0, none), (some 0, none), (none, none)]) := by
      unfold starts
      norm_num
    unfold fitdidv
    rw [e]
    unfold leastSquares
    simp only
    rw [if_neg (not_not.2 h2), if_neg (by
      simp only [List.map_cons, List.map_nil, List.mem_cons, List.not_mem_nil, or_false, not_exists, not_and, not_le]
      rintro s (rfl | rfl | rfl | rfl | rfl) <;> norm_num), hr]
    exact ⟨_, rfl⟩
  obtain ⟨cost, hfit⟩ := hfit
  have hrun : ∃ r, runFit lazy o p 2 none = .ok r := by
    unfold runFit
    rw [hg]
    simp only [hfit, findPoleFallTimes, D.rsh, D.r0, D.rp]
    rw [if_neg (by positivity)]
    simp only [fitResult, convertTo]
    rw [if_neg (by norm_num)]
    simp only [sspArgs, complexadmittance, compleximpedance, poleExtractor]
    norm_num [convertFrom, recipZ, twoPoleZ, jw]
  obtain ⟨r, hrun⟩ := hrun
  unfold dofit
  simp only [D.proc, hrun]
  norm_num

/-- `cost_is_distance` and `fit_near_device` apply. -/
example : Honest lazy.ls ∧ ∃ o p, demoInit [1, 1, 1, 1, 0] = .ok o ∧ o.proc = some p ∧
    (dofit lazy o 2 none).1 = .ok () := ⟨lazy_honest, demo_lazy⟩

end Verif.Device
