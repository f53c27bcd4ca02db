import Verif.NsmbUnitsLemmas
import Verif.NsmbProps

/-! C127: the multi-template fits do not depend on the units or on the order of the backgrounds. -/

namespace Verif.Nsmb
open Verif.Dft Verif.Nsmb.Spec Matrix

variable {n : ℕ} [NeZero n] {nb : ℕ}

/-- The unconstrained fit: all amplitudes follow the units of trace and templates and the order of the
backgrounds, times the sampling rate, chi-squares the common factor; the chosen delay, the window and every
failure are the same. -/
theorem nsmb_units {u : Change nb} (hu : u.Proper) (T : Fin (nb + 1) → ZMod n → ℝ) (psd : ZMod n → ℝ) (fs : ℝ)
    (p : ZMod n → ℝ) (window : List ℤ) (lf : ℕ) :
    runNsmb (u.templates T) (u.psd psd) (u.rate * fs) (u.trace p) window lf =
      (runNsmb T psd fs p window lf).map u.fit :=
  run_change u T psd fs p _ _ _ fun _ _ h => h.ofNsmb hu window lf

/-- The background-only fit; the polarities are reversed if the amplitudes are. -/
theorem mb_units {u : Change nb} (hu : u.Proper) (T : Fin (nb + 1) → ZMod n → ℝ) (psd : ZMod n → ℝ) (fs : ℝ)
    (p : ZMod n → ℝ) (c : Fin nb → ℤ) (lf : ℕ) :
    runMb (u.templates T) (u.psd psd) (u.rate * fs) (u.trace p) (fun i => u.sign (c (u.order i))) lf =
      (runMb T psd fs p c lf).map u.mb :=
  run_change u T psd fs p _ _ _ fun _ _ h => h.ofMb hu c lf

/-- The fit with polarity constraints, its interpolated minimum and its further windows. -/
theorem con_units {u : Change nb} (hu : u.Proper) (T : Fin (nb + 1) → ZMod n → ℝ) (psd : ZMod n → ℝ) (fs : ℝ)
    (p : ZMod n → ℝ) (c : Fin (nb + 1) → ℤ) (window : List ℤ) (wins : List (List ℤ)) (lf : ℕ) :
    runCon (u.templates T) (u.psd psd) (u.rate * fs) (u.trace p) (u.signs c) window wins lf =
      (runCon T psd fs p c window wins lf).map u.con :=
  run_change u T psd fs p _ _ _ fun _ _ h => h.ofNsmbCon hu c window wins lf

/-- Microvolts instead of volts, reversed polarity, and the first two backgrounds exchanged. -/
noncomputable def exU : Change 4 := ⟨-1000000, 2, 10, 1 / 2, Equiv.swap 0 1⟩

example : exU.Proper := ⟨by norm_num [exU], by norm_num [exU], by norm_num [exU], by norm_num [exU]⟩

example : exU.idx 1 = 2 ∧ exU.idx 2 = 1 ∧ exU.idx 3 = 3 ∧ exU.sign 1 = -1 := by
  refine ⟨by decide, by decide, by decide, ?_⟩
  norm_num [Change.sign, exU]

/-- Each of the three fits succeeds on a trace. -/
example : (∃ r, runNsmb exT exPsd 8 exP [-2, 0, 3, 11] 500 = .ok r) ∧
    (∃ r, runMb exT exPsd 8 exP (fun _ => 1) 500 = .ok r ∧ r.1 = ![0, -1, 1, 1]) ∧
    ∃ r, runCon exT exPsd 8 exP exC [3] [] 500 = .ok r ∧ r.amps = ![1, 0, 0, 0, -1] := by
  unfold runNsmb runMb runCon
  rw [exF_setup]
  refine ⟨?_, ?_, ?_⟩
  · obtain ⟨r, hr, -⟩ := nsmb_defined (by norm_num) exP exF (getiP exF.P) (fs := 8) (by norm_num)
      (window := [-2, 0, 3, 11]) (by simp) (by decide) 500
    exact ⟨r, hr⟩
  · obtain ⟨a, x, y, h, ha, -⟩ := mb_polarity_violated
    exact ⟨(a, x, y), h, ha⟩
  · obtain ⟨r, h, ha, -⟩ := con_polarity_violated
    exact ⟨r, h, ha⟩

end Verif.Nsmb
