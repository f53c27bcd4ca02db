import Verif.Sim

/-! Specification vocabulary for the noise simulation. -/

namespace Verif.Sim
open Verif

/-- The denominator of the two-pole response, `dV/dI`. -/
noncomputable def Zted (t : TES) (f : ℝ) : ℂ :=
  t.rload + t.r0 * (1 + t.beta) + 2 * Real.pi * f * t.inductance * Complex.I +
    t.r0 * (2 + t.beta) * t.loopgain / (1 - t.loopgain + 2 * Real.pi * f * t.tau0 * Complex.I)

/-- The parameters for which the device in transition has a current and power response. -/
def InTransition (t : TES) (f : ℝ) : Prop :=
  t.i0 ≠ 0 ∧ t.loopgain ≠ 0 ∧ t.loopgain ≠ 1 ∧ Zted t f ≠ 0

/-- The amplifier noise model is defined. -/
def SquidOk (t : TES) (f : ℝ) : Prop :=
  f ≠ 0 ∧ (0 ≤ t.squidpole / f ∨ ∃ k : ℤ, t.squidn = k) ∧ (t.squidpole / f = 0 → 0 ≤ t.squidn)

/-- The power responsivity of the theory of Irwin and Hilton (the form kept as a comment in the source). -/
noncomputable def irwinHilton (t : TES) (f : ℝ) : ℂ :=
  -(t.G * t.loopgain / (t.i0 * t.inductance * t.tau0 * t.G)) /
    ((1 / (t.inductance / (t.rload + (1 + t.beta) * t.r0)) + Complex.I * (2 * Real.pi * f)) *
      (1 / (t.tau0 / (1 - t.loopgain)) + Complex.I * (2 * Real.pi * f)) +
      t.loopgain * t.G / (t.inductance * t.tau0 * t.G) * t.r0 * (2 + t.beta))

/-- Physical parameters: temperatures, resistances and conductance are not negative. -/
def Physical (t : TES) : Prop :=
  0 ≤ t.tload ∧ 0 ≤ t.rload ∧ 0 ≤ t.tc ∧ 0 ≤ t.r0 ∧ 0 ≤ t.G ∧ 0 ≤ t.fTfn

/-- The keyword arguments of `complexadmittance` for the same device. -/
noncomputable def didvArgs (t : TES) : Didv.Args :=
  { rsh := some t.rshunt, rp := some (t.rload - t.rshunt), r0 := some t.r0, beta := some t.beta,
    l := some t.loopgain, L := some t.inductance, tau0 := some t.tau0 }

/-- Frequencies in increasing order. -/
def Increasing (pts : List (ℝ × ℝ)) : Prop := pts.Pairwise fun p q => p.1 < q.1

/-- The two-sided form of a one-sided spectral density given at zero frequency (`s0`) and at the
frequencies of `r`: half of it at each of the frequencies `-f`, `f`. -/
noncomputable def twoSided (s0 : ℝ) (r : List (ℝ × ℝ)) : List (ℝ × ℝ) :=
  (r.reverse.map fun p => (-p.1, p.2 / 2)) ++ (0, s0 / 2) :: r.map fun p => (p.1, p.2 / 2)

end Verif.Sim
