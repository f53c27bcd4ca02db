import Verif.Didv

/-! Specification vocabulary for the dI/dV formulas: the formulas of the documentation of
`compleximpedance`, and the impedance as a function of a complex frequency. -/

namespace Verif.Didv
open Verif

/-- One-pole model: `rsh + rp + 2.0j*pi*freq*L`. -/
noncomputable def docOne (f rsh rp L : ℝ) : ℂ := rsh + rp + 2 * Complex.I * Real.pi * f * L

/-- Two-pole model (documentation of `compleximpedance`). -/
noncomputable def docTwo (f rsh rp r0 beta l L tau0 : ℝ) : ℂ :=
  rsh + rp + 2 * Complex.I * Real.pi * f * L + r0 * (1 + beta) +
    r0 * (2 + beta) * l / (1 - l) / (1 + 2 * Complex.I * Real.pi * f * tau0 / (1 - l))

/-- Denominator of the thermal term of the three-pole model. -/
noncomputable def docThreeDen (f l tau0 gratio tau3 : ℝ) : ℂ :=
  1 + 2 * Complex.I * Real.pi * f * tau0 / (1 - l) -
    gratio / (1 - l) / (1 + 2 * Complex.I * Real.pi * f * tau3)

/-- Three-pole model (documentation of `compleximpedance`). -/
noncomputable def docThree (f rsh rp r0 beta l L tau0 gratio tau3 : ℝ) : ℂ :=
  rsh + rp + 2 * Complex.I * Real.pi * f * L + r0 * (1 + beta) +
    r0 * (2 + beta) * l / (1 - l) / docThreeDen f l tau0 gratio tau3

/-- The impedance of the one-pole model at complex frequency `s`. -/
noncomputable def Z1 (A tau2 : ℝ) (s : ℂ) : ℂ := A * (1 + s * tau2)

/-- The impedance of the two-pole model at complex frequency `s`. -/
noncomputable def Z2 (A B tau1 tau2 : ℝ) (s : ℂ) : ℂ := A * (1 + s * tau2) + B / (1 + s * tau1)

/-- The impedance of the three-pole model at complex frequency `s`. -/
noncomputable def Z3 (A B C tau1 tau2 tau3 : ℝ) (s : ℂ) : ℂ :=
  A * (1 + s * tau2) + B / (1 + s * tau1 - C / (1 + s * tau3))

/-- A response with fall time `τ` decays as `exp(-t/τ)`: the admittance has a pole, that is, the impedance
has a zero, at `s = -1/τ`.  One-pole model. -/
def IsFallTime1 (A tau2 τ : ℝ) : Prop := τ ≠ 0 ∧ Z1 A tau2 (-1 / (τ : ℂ)) = 0

/-- Two-pole model; the impedance is defined at `s`. -/
def IsFallTime2 (A B tau1 tau2 τ : ℝ) : Prop :=
  τ ≠ 0 ∧ 1 + (-1 / (τ : ℂ)) * tau1 ≠ 0 ∧ Z2 A B tau1 tau2 (-1 / (τ : ℂ)) = 0

/-- Three-pole model; the impedance is defined at `s`. -/
def IsFallTime3 (A B C tau1 tau2 tau3 τ : ℝ) : Prop :=
  τ ≠ 0 ∧ 1 + (-1 / (τ : ℂ)) * tau3 ≠ 0 ∧
    1 + (-1 / (τ : ℂ)) * tau1 - C / (1 + (-1 / (τ : ℂ)) * tau3) ≠ 0 ∧
    Z3 A B C tau1 tau2 tau3 (-1 / (τ : ℂ)) = 0

/-- The response of a two-pole fit is electrothermally oscillating: no real number is a zero of the
characteristic polynomial of the impedance. -/
def Underdamped (A B tau1 tau2 : ℝ) : Prop :=
  A ^ 2 * (tau1 + tau2) ^ 2 < 4 * A * (A + B) * (tau1 * tau2)

end Verif.Didv
