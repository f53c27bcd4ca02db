import Verif.SimLemmas
import Verif.DidvObjProps

/-! Properties C53 to C56, C75 and C76 (the noise simulation). -/

namespace Verif.Sim
open Verif

/-! ### C53: noise budget -/

/-- The total noises are defined exactly for devices in transition with a defined amplifier noise. -/
theorem total_defined (t : TES) (f : ℝ) :
    ((∃ s, sItot t f = .ok s) ↔ InTransition t f ∧ SquidOk t f) ∧
    ((∃ s, sPtot t f = .ok s) ↔ InTransition t f ∧ SquidOk t f) := by
  have key : (∃ s, sItot t f = .ok s) ↔ InTransition t f ∧ SquidOk t f := by
    constructor
    · rintro ⟨s, h⟩
      obtain ⟨_, _, h1, h2, _⟩ := add_ok h
      obtain ⟨_, _, h3, h4, _⟩ := add_ok h1
      refine ⟨?_, squid_inv h2⟩
      unfold sItfn at h4
      cases hp : dIdP t f with
      | error e => rw [hp] at h4; cases h4
      | ok p => exact (dIdP_ok hp).1
    · rintro ⟨ht, hs⟩
      have hv : dIdV t f = .ok (1 / Zted t f) := by rw [dIdV_eq t f ht.2.2.1, if_neg ht.2.2.2]
      have hp := dIdP_eq ht
      simp only [sItot, sIload, sItes, sItfn, hv, hp, squid_ok hs, add]
      exact ⟨_, rfl⟩
  refine ⟨key, ?_⟩
  rw [← key]
  constructor
  · rintro ⟨s, h⟩
    obtain ⟨a, p, h1, _⟩ := toPower_inv h
    exact ⟨a, h1⟩
  · rintro ⟨s, h⟩
    have hp := dIdP_eq (key.1 ⟨s, h⟩).1
    unfold sPtot
    rw [h, toPower_eq hp]
    exact ⟨_, rfl⟩

/-- The totals are the sums of the components, in current and in power, and every power component is the
current component over the squared responsivity. -/
theorem noise_budget {t : TES} {f I P : ℝ} (hI : sItot t f = .ok I) (hP : sPtot t f = .ok P) :
    ∃ iL iT iF iS pL pT pS p, sIload t f = .ok iL ∧ sItes t f = .ok iT ∧ sItfn t f = .ok iF ∧
      sIsquid t f = .ok iS ∧ sPload t f = .ok pL ∧ sPtes t f = .ok pT ∧ sPsquid t f = .ok pS ∧
      dIdP t f = .ok p ∧ p ≠ 0 ∧ I = iL + iT + iF + iS ∧ P = pL + pT + sPtfn t + pS ∧
      iL = pL * ‖p‖ ^ 2 ∧ iT = pT * ‖p‖ ^ 2 ∧ iF = sPtfn t * ‖p‖ ^ 2 ∧ iS = pS * ‖p‖ ^ 2 ∧
      I = P * ‖p‖ ^ 2 := by
  have hI' := hI
  obtain ⟨x, iS, h1, hS, rfl⟩ := add_ok hI'
  obtain ⟨y, iF, h2, hF, rfl⟩ := add_ok h1
  obtain ⟨iL, iT, hL, hT, rfl⟩ := add_ok h2
  obtain ⟨a, p, ha, hp, rfl⟩ := toPower_inv hP
  rw [hI] at ha
  cases ha
  have hp0 := (dIdP_ok hp).2
  have h0 : abs2 p ≠ 0 := (abs2_pos hp0).ne'
  have hF' : iF = sPtfn t * abs2 p := by
    unfold sItfn at hF
    rw [hp] at hF
    cases hF
    rfl
  refine ⟨iL, iT, iF, iS, iL / abs2 p, iT / abs2 p, iS / abs2 p, p, hL, hT, hF, hS, ?_, ?_, ?_, hp, hp0,
    rfl, ?_, ?_, ?_, hF', ?_, ?_⟩
  · unfold sPload; rw [hL, toPower_eq hp]
  · unfold sPtes; rw [hT, toPower_eq hp]
  · unfold sPsquid; rw [hS, toPower_eq hp]
  · rw [hF']
    field_simp
  · exact (div_mul_cancel₀ _ h0).symm
  · exact (div_mul_cancel₀ _ h0).symm
  · exact (div_mul_cancel₀ _ h0).symm
  · exact (div_mul_cancel₀ _ h0).symm

example : InTransition exTES 1 ∧ SquidOk exTES 1 ∧ Physical exTES :=
  ⟨exTES_transition 1, by norm_num [SquidOk, exTES], by norm_num [Physical, exTES]⟩

/-- The power noises of the theory of Irwin and Hilton: both Johnson noises, seen as power noise, have no
electrical pole. -/
theorem power_noise_formula {t : TES} {f : ℝ} (h : InTransition t f) :
    sPload t f = .ok (4 * kB * t.tload * t.rload * t.i0 ^ 2 *
      ((t.loopgain - 1) ^ 2 + (2 * Real.pi * f * t.tau0) ^ 2) / t.loopgain ^ 2) ∧
    sPtes t f = .ok (4 * kB * t.tc * t.r0 * (1 + t.beta) ^ 2 * t.i0 ^ 2 *
      (1 + (2 * Real.pi * f * t.tau0) ^ 2) / t.loopgain ^ 2) := by
  have hv : dIdV t f = .ok (1 / Zted t f) := by rw [dIdV_eq t f h.2.2.1, if_neg h.2.2.2]
  have hp := dIdP_eq h
  obtain ⟨hi, h0, hl, hz⟩ := h
  have hz2 : abs2 (Zted t f) ≠ 0 := (abs2_pos hz).ne'
  have hth := thermal_ne t f hl
  have eth : abs2 ((1 : ℂ) - t.loopgain + 2 * Real.pi * f * t.tau0 * Complex.I) =
      (t.loopgain - 1) ^ 2 + (2 * Real.pi * f * t.tau0) ^ 2 := by
    have := abs2_reIm (1 - t.loopgain) (2 * Real.pi * f * t.tau0)
    push_cast at this
    rw [this]
    ring
  have hth2 : (t.loopgain - 1) ^ 2 + (2 * Real.pi * f * t.tau0) ^ 2 ≠ 0 := by
    rw [← eth]
    exact (abs2_pos hth).ne'
  have ep : abs2 (-(t.loopgain / (t.i0 *
      (1 - t.loopgain + 2 * Real.pi * f * t.tau0 * Complex.I) * Zted t f) : ℂ)) =
      t.loopgain ^ 2 / (t.i0 ^ 2 * ((t.loopgain - 1) ^ 2 + (2 * Real.pi * f * t.tau0) ^ 2) *
        abs2 (Zted t f)) := by
    rw [abs2_neg, abs2_div, abs2_mul, abs2_mul, abs2_real, abs2_real, eth]
  have e1 : abs2 1 = 1 := by simp [abs2]
  constructor
  · unfold sPload sIload
    rw [hv]
    simp only
    rw [toPower_eq hp, ep, abs2_div, e1]
    congr 1
    unfold sVload
    field_simp
  · have e2 : (1 / Zted t f - t.i0 * -(t.loopgain / (t.i0 *
        (1 - t.loopgain + 2 * Real.pi * f * t.tau0 * Complex.I) * Zted t f)) : ℂ) =
        (1 + ((2 * Real.pi * f * t.tau0 : ℝ) : ℂ) * Complex.I) /
          ((1 - t.loopgain + 2 * Real.pi * f * t.tau0 * Complex.I) * Zted t f) := by
      have hic : (t.i0 : ℂ) ≠ 0 := Complex.ofReal_ne_zero.2 hi
      push_cast
      rw [show (1 : ℂ) + 2 * Real.pi * f * t.tau0 * Complex.I =
        (1 - t.loopgain + 2 * Real.pi * f * t.tau0 * Complex.I) + t.loopgain by ring]
      generalize (1 : ℂ) - t.loopgain + 2 * Real.pi * f * t.tau0 * Complex.I = y at hth
      field_simp
      ring
    have e3 : abs2 (1 + ((2 * Real.pi * f * t.tau0 : ℝ) : ℂ) * Complex.I) =
        1 + (2 * Real.pi * f * t.tau0) ^ 2 := by
      have := abs2_reIm 1 (2 * Real.pi * f * t.tau0)
      rw [Complex.ofReal_one] at this
      rw [this]
      ring
    unfold sPtes sItes
    rw [hv, hp]
    simp only
    rw [toPower_eq hp, ep, e2, abs2_div, abs2_mul, e3, eth]
    congr 1
    unfold sVtes
    field_simp

/-- The thermal fluctuation noise of the theory, as power and as current noise (`Zted` is the impedance of the
biased TES); the SQUID noise. -/
theorem noise_sources {t : TES} {f : ℝ} (h : InTransition t f) (hs : SquidOk t f) :
    sPtfn t = 4 * kB * t.tc ^ 2 * t.G * t.fTfn ∧
    sItfn t f = .ok (4 * kB * t.tc ^ 2 * t.G * t.fTfn * t.loopgain ^ 2 /
      (t.i0 ^ 2 * ((t.loopgain - 1) ^ 2 + (2 * Real.pi * f * t.tau0) ^ 2) * ‖Zted t f‖ ^ 2)) ∧
    sIsquid t f = .ok (t.squiddc ^ 2 * (1 + (t.squidpole / f) ^ t.squidn) ^ 2) := by
  refine ⟨rfl, ?_, ?_⟩
  · have eth : abs2 ((1 : ℂ) - t.loopgain + 2 * Real.pi * f * t.tau0 * Complex.I) =
        (t.loopgain - 1) ^ 2 + (2 * Real.pi * f * t.tau0) ^ 2 := by
      have := abs2_reIm (1 - t.loopgain) (2 * Real.pi * f * t.tau0)
      push_cast at this
      rw [this]
      ring
    unfold sItfn
    rw [dIdP_eq h]
    simp only
    rw [abs2_neg, abs2_div, abs2_mul, abs2_mul, abs2_real, abs2_real, eth]
    unfold sPtfn
    rw [show abs2 (Zted t f) = ‖Zted t f‖ ^ 2 from rfl, mul_div_assoc]
  · rw [squid_ok hs, mul_pow]

/-- Johnson noise of the normal and of the superconducting circuit: `4 kB T R` of each resistor over the squared
impedance, plus the SQUID noise. -/
theorem noise_normal_sc {t : TES} {f : ℝ} (hr : 0 < t.rload) (h0 : 0 ≤ t.r0) (hs : SquidOk t f) :
    sItotNormal t f = .ok (4 * kB * (t.tload * t.rload + t.tc * t.r0) /
      ((t.rload + t.r0) ^ 2 + (2 * Real.pi * f * t.inductance) ^ 2) +
      t.squiddc ^ 2 * (1 + (t.squidpole / f) ^ t.squidn) ^ 2) ∧
    sItotSc t f = .ok (4 * kB * (t.tload * t.rload) /
      (t.rload ^ 2 + (2 * Real.pi * f * t.inductance) ^ 2) +
      t.squiddc ^ 2 * (1 + (t.squidpole / f) ^ t.squidn) ^ 2) := by
  have e1 : abs2 1 = 1 := by simp [abs2]
  have key : ∀ R : ℝ, 0 < R → (R + jw f * t.inductance : ℂ) ≠ 0 ∧
      abs2 (1 / (R + jw f * t.inductance : ℂ)) = 1 / (R ^ 2 + (2 * Real.pi * f * t.inductance) ^ 2) := by
    intro R hR
    have e : (R + jw f * t.inductance : ℂ) = (R : ℂ) + ((2 * Real.pi * f * t.inductance : ℝ) : ℂ) * Complex.I := by
      unfold jw
      push_cast
      ring
    rw [e]
    constructor
    · intro hz
      have := congrArg Complex.re hz
      simp at this
      exact hR.ne' this
    · rw [abs2_div, e1, abs2_reIm]
  constructor
  · obtain ⟨k1, k2⟩ := key (t.rload + t.r0) (by linarith)
    push_cast at k1 k2
    unfold sItotNormal sIloadNormal sItesNormal dIdVnormal
    rw [if_neg k1, squid_ok hs]
    simp only [add]
    rw [k2]
    congr 1
    unfold sVload sVtesNormal
    ring
  · obtain ⟨k1, k2⟩ := key t.rload hr
    unfold sItotSc sIloadSc dIdVsc
    rw [if_neg k1, squid_ok hs]
    simp only [add]
    rw [k2]
    congr 1
    unfold sVload
    ring

/-- All noises of a physical device are non-negative. -/
theorem noise_nonneg {t : TES} (ht : Physical t) {f s : ℝ} :
    (sItot t f = .ok s → 0 ≤ s) ∧ (sPtot t f = .ok s → 0 ≤ s) ∧ (sItotNormal t f = .ok s → 0 ≤ s) ∧
    (sItotSc t f = .ok s → 0 ≤ s) := by
  obtain ⟨h1, h2, h3, h4, h5, h6⟩ := ht
  have hk := kB_pos
  have hVl : 0 ≤ sVload t := by unfold sVload; positivity
  have hVt : 0 ≤ sVtes t := by unfold sVtes; positivity
  have hVn : 0 ≤ sVtesNormal t := by unfold sVtesNormal; positivity
  have hF : 0 ≤ sPtfn t := by unfold sPtfn; positivity
  have hsq : ∀ {s}, sIsquid t f = .ok s → 0 ≤ s := by
    intro s h
    rw [squid_ok (squid_inv h)] at h
    cases h
    positivity
  have hI : ∀ {s}, sItot t f = .ok s → 0 ≤ s := by
    intro s h
    obtain ⟨_, iS, k1, hS, rfl⟩ := add_ok h
    obtain ⟨_, iF, k2, hF', rfl⟩ := add_ok k1
    obtain ⟨iL, iT, hL, hT, rfl⟩ := add_ok k2
    have := hsq hS
    have a1 : 0 ≤ iL := by
      unfold sIload at hL
      split at hL
      · cases hL
      · cases hL; exact mul_nonneg hVl (abs2_nonneg _)
    have a2 : 0 ≤ iT := by
      unfold sItes at hT
      split at hT
      · cases hT
      · cases hT
      · cases hT; exact mul_nonneg hVt (abs2_nonneg _)
    have a3 : 0 ≤ iF := by
      unfold sItfn at hF'
      split at hF'
      · cases hF'
      · cases hF'; exact mul_nonneg hF (abs2_nonneg _)
    linarith
  refine ⟨hI, ?_, ?_, ?_⟩
  · intro h
    obtain ⟨a, p, ha, _, rfl⟩ := toPower_inv h
    exact div_nonneg (hI ha) (abs2_nonneg _)
  · intro h
    obtain ⟨_, iS, k1, hS, rfl⟩ := add_ok h
    obtain ⟨iL, iT, hL, hT, rfl⟩ := add_ok k1
    have := hsq hS
    have a1 : 0 ≤ iL := by
      unfold sIloadNormal at hL
      split at hL
      · cases hL
      · cases hL; exact mul_nonneg hVl (abs2_nonneg _)
    have a2 : 0 ≤ iT := by
      unfold sItesNormal at hT
      split at hT
      · cases hT
      · cases hT; exact mul_nonneg hVn (abs2_nonneg _)
    linarith
  · intro h
    obtain ⟨iL, iS, hL, hS, rfl⟩ := add_ok h
    have := hsq hS
    have a1 : 0 ≤ iL := by
      unfold sIloadSc at hL
      split at hL
      · cases hL
      · cases hL; exact mul_nonneg hVl (abs2_nonneg _)
    linarith

/-! ### C54: agreement with the dI/dV module -/

/-- The response of the simulation is the two-pole admittance of the dI/dV module. -/
theorem dIdV_agrees (t : TES) (f : ℝ) (hl : t.loopgain ≠ 1) (hA : t.rload + t.r0 * (1 + t.beta) ≠ 0) :
    dIdV t f = Didv.complexadmittance f (didvArgs t) := by
  have hl' : 1 - t.loopgain ≠ 0 := sub_ne_zero.2 hl.symm
  have h1 := one_sub_ne hl
  have h2 := thermal_ne t f hl
  have hA' : t.rshunt + (t.rload - t.rshunt) + t.r0 * (1 + t.beta) ≠ 0 := by
    rw [add_sub_cancel]
    exact hA
  have hAc : (t.rload : ℂ) + t.r0 * (1 + t.beta) ≠ 0 := by exact_mod_cast hA
  have e : Didv.poleExtractor (didvArgs t) = .ok 2 := rfl
  have hcf : Didv.convertFrom [(didvArgs t).rsh.getD 0, (didvArgs t).rp.getD 0, (didvArgs t).r0.getD 0,
      (didvArgs t).beta.getD 0, (didvArgs t).l.getD 0, (didvArgs t).L.getD 0, (didvArgs t).tau0.getD 0, 0] =
      .ok [t.rshunt + (t.rload - t.rshunt) + t.r0 * (1 + t.beta),
        t.r0 * t.loopgain / (1 - t.loopgain) * (2 + t.beta), t.tau0 / (1 - t.loopgain),
        t.inductance / (t.rshunt + (t.rload - t.rshunt) + t.r0 * (1 + t.beta)), 0] :=
    if_neg (not_or.2 ⟨hl', hA'⟩)
  unfold Didv.complexadmittance Didv.compleximpedance
  simp only [e, hcf, dIdV_eq t f hl, Didv.recipZ]
  have ez : Didv.twoPoleZ f (t.rshunt + (t.rload - t.rshunt) + t.r0 * (1 + t.beta))
      (t.r0 * t.loopgain / (1 - t.loopgain) * (2 + t.beta)) (t.tau0 / (1 - t.loopgain))
      (t.inductance / (t.rshunt + (t.rload - t.rshunt) + t.r0 * (1 + t.beta))) = Zted t f := by
    have e3 : (1 : ℂ) + Didv.jw f * ((t.tau0 / (1 - t.loopgain) : ℝ) : ℂ) =
        (1 - t.loopgain + 2 * Real.pi * f * t.tau0 * Complex.I) / (1 - t.loopgain) := by
      rw [← thermal_eq t f hl]
      unfold Didv.jw jw
      push_cast
      ring
    unfold Didv.twoPoleZ Zted
    rw [e3, add_sub_cancel]
    refine congrArg₂ (· + ·) ?_ ?_
    · unfold Didv.jw
      push_cast
      field_simp
    · push_cast
      generalize (1 : ℂ) - t.loopgain + 2 * Real.pi * f * t.tau0 * Complex.I = y at h2
      generalize (1 : ℂ) - t.loopgain = x at h1
      field_simp
  rw [ez]

/-- Limits: without loop gain and current sensitivity the response is the normal one; without resistance
it is the superconducting one. -/
theorem dIdV_limits (t : TES) (f : ℝ) :
    (t.loopgain = 0 → t.beta = 0 → dIdV t f = dIdVnormal t f) ∧
    (t.r0 = 0 → t.loopgain ≠ 1 → dIdV t f = dIdVsc t f) ∧
    (t.r0 = 0 → dIdVnormal t f = dIdVsc t f) := by
  refine ⟨fun h0 hb => ?_, fun h0 hl => ?_, fun h0 => ?_⟩
  · have e : Zted t f = t.rload + t.r0 + jw f * t.inductance := by
      unfold Zted
      rw [jw_eq, h0, hb]
      push_cast
      ring
    rw [dIdV_eq t f (by rw [h0]; norm_num), e]
    rfl
  · have e : Zted t f = t.rload + jw f * t.inductance := by
      unfold Zted
      rw [jw_eq, h0]
      push_cast
      ring
    rw [dIdV_eq t f hl, e]
    rfl
  · unfold dIdVnormal dIdVsc
    rw [h0, Complex.ofReal_zero, add_zero]

/-- The normal and superconducting responses are the one-pole admittances of the dI/dV module. -/
theorem onePole_agrees (t : TES) (f : ℝ) :
    (t.rload ≠ 0 → dIdVsc t f = Didv.complexadmittance f
      { rsh := some t.rshunt, rp := some (t.rload - t.rshunt), L := some t.inductance }) ∧
    (t.rload + t.r0 ≠ 0 → dIdVnormal t f = Didv.complexadmittance f
      { rsh := some t.rshunt, rp := some (t.rload + t.r0 - t.rshunt), L := some t.inductance }) := by
  have key : ∀ R : ℝ, R ≠ 0 → Didv.complexadmittance f
      { rsh := some t.rshunt, rp := some (R - t.rshunt), L := some t.inductance } =
        if (R + jw f * t.inductance : ℂ) = 0 then .error .nan else
          .ok (1 / (R + jw f * t.inductance)) := by
    intro R hR
    have hRc : (R : ℂ) ≠ 0 := Complex.ofReal_ne_zero.2 hR
    have e : Didv.poleExtractor
        { rsh := some t.rshunt, rp := some (R - t.rshunt), L := some t.inductance } = .ok 1 := by
      simp [Didv.poleExtractor]
    have hcf : Didv.convertFrom [t.rshunt, R - t.rshunt, t.inductance, 0] =
        .ok [R, t.inductance / R, 0] := by
      have h : Didv.convertFrom [t.rshunt, R - t.rshunt, t.inductance, 0] =
          .ok [t.rshunt + (R - t.rshunt), t.inductance / (t.rshunt + (R - t.rshunt)), 0] :=
        if_neg (show ¬ t.rshunt + (R - t.rshunt) = 0 by rw [add_sub_cancel]; exact hR)
      rw [h, add_sub_cancel]
    unfold Didv.complexadmittance Didv.compleximpedance
    simp only [e, Option.getD_some, hcf, Didv.recipZ]
    have ez : Didv.onePoleZ f R (t.inductance / R) = R + jw f * t.inductance := by
      unfold Didv.onePoleZ Didv.jw jw
      push_cast
      field_simp
    rw [ez]
  constructor
  · intro h
    rw [key _ h]
    rfl
  · intro h
    rw [key _ h]
    unfold dIdVnormal
    push_cast
    rfl

/-- The power response is the formula of Irwin and Hilton. -/
theorem dIdP_agrees {t : TES} {f : ℝ} (h : InTransition t f) (hG : t.G ≠ 0) (hL : t.inductance ≠ 0)
    (ht : t.tau0 ≠ 0) (hA : t.rload + (1 + t.beta) * t.r0 ≠ 0) :
    dIdP t f = .ok (irwinHilton t f) := by
  rw [dIdP_eq h]
  obtain ⟨hi, h0, hl, hz⟩ := h
  have h1 := one_sub_ne hl
  have h2 := thermal_ne t f hl
  have hic : (t.i0 : ℂ) ≠ 0 := Complex.ofReal_ne_zero.2 hi
  have hGc : (t.G : ℂ) ≠ 0 := Complex.ofReal_ne_zero.2 hG
  have hLc : (t.inductance : ℂ) ≠ 0 := Complex.ofReal_ne_zero.2 hL
  have htc : (t.tau0 : ℂ) ≠ 0 := Complex.ofReal_ne_zero.2 ht
  have hAc : (t.rload : ℂ) + (1 + t.beta) * t.r0 ≠ 0 := by exact_mod_cast hA
  congr 1
  unfold irwinHilton
  have e : ((1 / (t.inductance / (t.rload + (1 + t.beta) * t.r0)) + Complex.I * (2 * Real.pi * f)) *
      (1 / (t.tau0 / (1 - t.loopgain)) + Complex.I * (2 * Real.pi * f)) +
      t.loopgain * t.G / (t.inductance * t.tau0 * t.G) * t.r0 * (2 + t.beta) : ℂ) =
      (1 - t.loopgain + 2 * Real.pi * f * t.tau0 * Complex.I) * Zted t f / (t.inductance * t.tau0) := by
    unfold Zted
    rw [one_div_div, one_div_div]
    have e1 : (1 : ℂ) - t.loopgain = (1 - t.loopgain + 2 * Real.pi * f * t.tau0 * Complex.I) -
      2 * Real.pi * f * t.tau0 * Complex.I := by ring
    rw [e1]
    have e2 : (1 - t.loopgain + 2 * Real.pi * f * t.tau0 * Complex.I -
      2 * Real.pi * f * t.tau0 * Complex.I + 2 * Real.pi * f * t.tau0 * Complex.I : ℂ) =
      1 - t.loopgain + 2 * Real.pi * f * t.tau0 * Complex.I := by ring
    rw [e2]
    generalize (1 : ℂ) - t.loopgain + 2 * Real.pi * f * t.tau0 * Complex.I = y at h2
    field_simp
    ring
  rw [e]
  generalize (1 : ℂ) - t.loopgain + 2 * Real.pi * f * t.tau0 * Complex.I = y at h2
  field_simp

example : exTES.loopgain ≠ 1 ∧ exTES.rload + exTES.r0 * (1 + exTES.beta) ≠ 0 ∧ InTransition exTES 3 ∧
    exTES.G ≠ 0 ∧ exTES.inductance ≠ 0 ∧ exTES.tau0 ≠ 0 ∧
    exTES.rload + (1 + exTES.beta) * exTES.r0 ≠ 0 :=
  ⟨by norm_num [exTES], by norm_num [exTES], exTES_transition 3, by norm_num [exTES],
    by norm_num [exTES], by norm_num [exTES], by norm_num [exTES]⟩

/-! ### C55: loadfromdidv -/

/-- Contrary to C55 the documented noise type 'normal' always raises ValueError, even with `rnormal`. -/
theorem load_normal_violated (o : Didv.Obj) (a : LoadArgs) (rnormal : Option ℝ) (s : PyStr)
    (h : s.val = "normal") : loadfromdidv o a rnormal s = .error .valueError := by
  obtain ⟨v, b⟩ := s
  cases h
  cases b <;> rfl

/-- Contrary to C55 a noise type which equals a documented one but is another string object (for instance
built at run time) raises ValueError. -/
theorem load_identity_violated (o : Didv.Obj) (a : LoadArgs) (rnormal : Option ℝ) (s : PyStr)
    (h : s.interned = false) : loadfromdidv o a rnormal s = .error .valueError := by
  obtain ⟨v, b⟩ := s
  cases h
  rfl

/-- Any other noise type raises ValueError. -/
theorem load_unknown (o : Didv.Obj) (a : LoadArgs) (rnormal : Option ℝ) (s : PyStr)
    (h1 : s.val ≠ "superconducting") (h2 : s.val ≠ "normal") (h3 : s.val ≠ "transition") :
    loadfromdidv o a rnormal s = .error .valueError := by
  unfold loadfromdidv loadWith PyStr.is
  have e1 : (s.val == "superconducting") = false := beq_eq_false_iff_ne.2 h1
  have e2 : (s.val == "normal") = false := beq_eq_false_iff_ne.2 h2
  have e3 : (s.val == "transition") = false := beq_eq_false_iff_ne.2 h3
  simp [e1, e2, e3]

example : (⟨"normal", true⟩ : PyStr).val = "normal" ∧ (⟨"transition", false⟩ : PyStr).interned = false ∧
    "sc" ≠ "superconducting" ∧ "sc" ≠ "normal" ∧ "sc" ≠ "transition" := by decide

/-- Partial form of C55: from a two-pole fit the noise type "transition" gives a device whose response is
the fitted admittance (without the time shift), at the given temperatures. -/
theorem load_transition_partial (o : Didv.Obj) (a : LoadArgs) (rnormal : Option ℝ)
    {params ft : List ℝ} {cov : List (List ℝ)} {cost rsh rp r0 : ℝ} {r : Didv.Result}
    (hf : Didv.fitResult params cov ft cost rsh rp r0 = .ok r) (h5 : params.length = 5)
    (hr : Didv.fitresult o 2 = .found r) (hc : r0 + (rsh + rp) ≠ 0) (htc : 0 < a.tc)
    (htb : 0 ≤ a.tbath) :
    ∃ t, loadfromdidv o a rnormal ⟨"transition", true⟩ = .ok t ∧ t.rload = rsh + rp ∧ t.r0 = r0 ∧
      t.i0 = a.qetbias * rsh / (r0 + (rsh + rp)) ∧ t.G = a.G ∧ t.tc = a.tc ∧ t.tload = a.tload ∧
      t.fTfn = ((a.tbath / a.tc) ^ (6 : ℝ) + 1) / 2 ∧
      ∃ dt, params.getLast? = some dt ∧ ∀ f, (dIdV t f).map
        (fun y => y * Complex.exp (-2 * Complex.I * Real.pi * f * dt)) = Didv.fitY f params := by
  obtain ⟨-, ⟨dt, hdt, hfit⟩, -⟩ := Didv.result_reproduces_fit hf
  match params, h5 with
  | [A, B, tau1, tau2, dt'], _ =>
  have hssp : ∃ beta l L tau0, r.ssp = [rsh, rp, r0, beta, l, L, tau0, dt'] ∧
      ∃ y, Didv.complexadmittance 0 (Didv.sspArgs r.ssp) = .ok y := by
    unfold Didv.fitResult Didv.convertTo at hf
    simp only at hf
    by_cases h0 : r0 = 0 ∨ A + B + r0 - (rsh + rp) = 0
    · rw [if_pos h0] at hf; cases hf
    · rw [if_neg h0] at hf
      simp only at hf
      split at hf
      · cases hf
      · rename_i y hy
        cases hf
        exact ⟨_, _, _, _, rfl, y, hy⟩
  obtain ⟨beta, l, L, tau0, hs, y, hy⟩ := hssp
  have hcond : 1 - l ≠ 0 ∧ rsh + rp + r0 * (1 + beta) ≠ 0 := by
    rw [hs] at hy
    have e : Didv.poleExtractor (Didv.sspArgs [rsh, rp, r0, beta, l, L, tau0, dt']) = .ok 2 := rfl
    by_contra hn
    have hcf : Didv.convertFrom [(Didv.sspArgs [rsh, rp, r0, beta, l, L, tau0, dt']).rsh.getD 0,
        (Didv.sspArgs [rsh, rp, r0, beta, l, L, tau0, dt']).rp.getD 0,
        (Didv.sspArgs [rsh, rp, r0, beta, l, L, tau0, dt']).r0.getD 0,
        (Didv.sspArgs [rsh, rp, r0, beta, l, L, tau0, dt']).beta.getD 0,
        (Didv.sspArgs [rsh, rp, r0, beta, l, L, tau0, dt']).l.getD 0,
        (Didv.sspArgs [rsh, rp, r0, beta, l, L, tau0, dt']).L.getD 0,
        (Didv.sspArgs [rsh, rp, r0, beta, l, L, tau0, dt']).tau0.getD 0, 0] = .error .zeroDivision :=
      if_pos (show 1 - l = 0 ∨ rsh + rp + r0 * (1 + beta) = 0 by tauto)
    unfold Didv.complexadmittance Didv.compleximpedance at hy
    simp only [e, hcf] at hy
    cases hy
  have hsup : suppression true a.tbath a.tc 5 = .ok (((a.tbath / a.tc) ^ (6 : ℝ) + 1) / 2) := by
    unfold suppression
    rw [if_neg htc.ne', if_pos rfl, pw_ok (by positivity) (fun _ => by norm_num)]
    norm_num
  refine ⟨⟨rsh + rp, r0, rsh, beta, l, L, tau0, a.qetbias, a.qetbias * rsh / (r0 + (rsh + rp)), a.tc,
    a.tload, a.G, a.tbath, 5, a.squiddc, a.squidpole, a.squidn,
    ((a.tbath / a.tc) ^ (6 : ℝ) + 1) / 2⟩, ?_, rfl, rfl, rfl, rfl, rfl, rfl, rfl, dt, hdt, fun f => ?_⟩
  · unfold loadfromdidv loadWith
    rw [if_neg (by decide), if_neg (by decide), if_pos (by decide)]
    simp only [hr, sspOf, hs, create]
    rw [if_neg hc, hsup]
  · rw [← hfit f, hs, dIdV_agrees _ f (fun h => hcond.1 (sub_eq_zero.2 h.symm)) hcond.2]
    congr 2
    simp [didvArgs, Didv.sspArgs]

/-- Partial form of C55: from a one-pole fit the noise type "superconducting" gives a device whose
superconducting response is the fitted admittance.  The responses in transition and the total noise in
transition are not defined for it. -/
theorem load_superconducting_partial (o : Didv.Obj) (a : LoadArgs) (rnormal : Option ℝ)
    {params ft : List ℝ} {cov : List (List ℝ)} {cost rsh rp r0 : ℝ} {r : Didv.Result}
    (hf : Didv.fitResult params cov ft cost rsh rp r0 = .ok r) (h3 : params.length = 3)
    (hr : Didv.fitresult o 1 = .found r) (htc : 0 < a.tc) (htb : 0 ≤ a.tbath) :
    ∃ t, loadfromdidv o a rnormal ⟨"superconducting", true⟩ = .ok t ∧ t.tload = a.tload ∧
      (∃ dt, params.getLast? = some dt ∧ ∀ f, (dIdVsc t f).map
        (fun y => y * Complex.exp (-2 * Complex.I * Real.pi * f * dt)) = Didv.fitY f params) ∧
      (∀ f, dIdP t f = .error .zeroDivision) ∧ ∀ f s, sItot t f ≠ .ok s := by
  obtain ⟨-, ⟨dt, hdt, hfit⟩, -⟩ := Didv.result_reproduces_fit hf
  match params, h3 with
  | [A, tau2, dt'], _ =>
  have hssp : r.ssp = [rsh, A - rsh, A * tau2, dt'] ∧
      ∃ y, Didv.complexadmittance 0 (Didv.sspArgs r.ssp) = .ok y := by
    unfold Didv.fitResult Didv.convertTo at hf
    simp only at hf
    split at hf
    · cases hf
    · rename_i y hy
      cases hf
      exact ⟨rfl, y, hy⟩
  obtain ⟨hs, y, hy⟩ := hssp
  have hA : A ≠ 0 := by
    intro hA
    rw [hs] at hy
    have e : Didv.poleExtractor (Didv.sspArgs [rsh, A - rsh, A * tau2, dt']) = .ok 1 := by
      simp [Didv.poleExtractor, Didv.sspArgs]
    have hcf : Didv.convertFrom [(Didv.sspArgs [rsh, A - rsh, A * tau2, dt']).rsh.getD 0,
        (Didv.sspArgs [rsh, A - rsh, A * tau2, dt']).rp.getD 0,
        (Didv.sspArgs [rsh, A - rsh, A * tau2, dt']).L.getD 0, 0] = .error .zeroDivision :=
      if_pos (show rsh + (A - rsh) = 0 by rw [hA]; ring)
    unfold Didv.complexadmittance Didv.compleximpedance at hy
    simp only [e, hcf] at hy
    cases hy
  have hsup : suppression true a.tbath a.tc 5 = .ok (((a.tbath / a.tc) ^ (6 : ℝ) + 1) / 2) := by
    unfold suppression
    rw [if_neg htc.ne', if_pos rfl, pw_ok (by positivity) (fun _ => by norm_num)]
    norm_num
  have hP : ∀ t : TES, t.loopgain = 0 → ∀ f, dIdP t f = .error .zeroDivision := by
    intro t ht f
    unfold dIdP
    rw [if_pos (Or.inr (Or.inl ht))]
  refine ⟨⟨rsh + (A - rsh), 0, rsh, 0, 0, A * tau2, 0, a.qetbias,
    a.qetbias * rsh / (0 + (rsh + (A - rsh))), a.tc, a.tload, 0, a.tbath, 5, a.squiddc, a.squidpole,
    a.squidn, ((a.tbath / a.tc) ^ (6 : ℝ) + 1) / 2⟩, ?_, rfl, ⟨dt, hdt, fun f => ?_⟩,
    hP _ rfl, fun f s h => ?_⟩
  · unfold loadfromdidv loadWith
    rw [if_pos (by decide)]
    simp only [hr, sspOf, hs, create]
    rw [if_neg (by rw [zero_add, add_sub_cancel]; exact hA), hsup]
  · have e := (onePole_agrees ⟨rsh + (A - rsh), 0, rsh, 0, 0, A * tau2, 0, a.qetbias,
      a.qetbias * rsh / (0 + (rsh + (A - rsh))), a.tc, a.tload, 0, a.tbath, 5, a.squiddc, a.squidpole,
      a.squidn, ((a.tbath / a.tc) ^ (6 : ℝ) + 1) / 2⟩ f).1 (by simpa using hA)
    rw [← hfit f, hs, e]
    congr 2
    simp [Didv.sspArgs]
  · exact ((total_defined _ f).1.1 ⟨s, h⟩).1.2.1 rfl

/-- Fit results with three and with five parameters exist, and objects holding them. -/
example (o : Didv.Obj) : (∃ r, Didv.fitResult [1, 2, 3] [] [] 0 1 1 1 = .ok r) ∧
    (∃ r, Didv.fitResult [3, 1, 1, 1, 0] [] [] 0 1 1 1 = .ok r) ∧
    ∀ r, Didv.fitresult { o with res1 := some r } 1 = .found r ∧
      Didv.fitresult { o with res2 := some r } 2 = .found r := by
  refine ⟨?_, ?_, fun r => ⟨rfl, rfl⟩⟩
  · have h : Didv.convertTo [1, 2, 3] 1 1 1 = .ok [1, 1 - 1, 1 * 2, 3] := rfl
    have hp : Didv.poleExtractor { rsh := some 1, rp := some (1 - 1), L := some (1 * 2) } = .ok 1 := by
      simp [Didv.poleExtractor]
    have hc : Didv.convertFrom [1, 1 - 1, 1 * 2, 0] = .ok [1 + (1 - 1), 1 * 2 / (1 + (1 - 1)), 0] := by
      simp only [Didv.convertFrom]
      rw [if_neg (by norm_num)]
    simp only [Didv.fitResult, h, Didv.sspArgs, Didv.complexadmittance, Didv.compleximpedance, hp,
      Option.getD_some, hc, Didv.recipZ]
    rw [if_neg (by norm_num [Didv.onePoleZ, Didv.jw])]
    exact ⟨_, rfl⟩
  · have h : Didv.convertTo [3, 1, 1, 1, 0] 1 1 1 = .ok [1, 1, 1, 0, 1 / 3, 3, 2 / 3, 0] := by
      simp only [Didv.convertTo]
      rw [if_neg (by norm_num)]
      norm_num
    have hp : Didv.poleExtractor (Didv.sspArgs [1, 1, 1, 0, 1 / 3, 3, 2 / 3, 0]) = .ok 2 := rfl
    have hc : Didv.convertFrom [(Didv.sspArgs [1, 1, 1, 0, 1 / 3, 3, 2 / 3, 0]).rsh.getD 0,
        (Didv.sspArgs [1, 1, 1, 0, 1 / 3, 3, 2 / 3, 0]).rp.getD 0,
        (Didv.sspArgs [1, 1, 1, 0, 1 / 3, 3, 2 / 3, 0]).r0.getD 0,
        (Didv.sspArgs [1, 1, 1, 0, 1 / 3, 3, 2 / 3, 0]).beta.getD 0,
        (Didv.sspArgs [1, 1, 1, 0, 1 / 3, 3, 2 / 3, 0]).l.getD 0,
        (Didv.sspArgs [1, 1, 1, 0, 1 / 3, 3, 2 / 3, 0]).L.getD 0,
        (Didv.sspArgs [1, 1, 1, 0, 1 / 3, 3, 2 / 3, 0]).tau0.getD 0, 0] = .ok [3, 1, 1, 1, 0] := by
      change Didv.convertFrom [1, 1, 1, 0, 1 / 3, 3, 2 / 3, 0] = _
      simp only [Didv.convertFrom]
      rw [if_neg (by norm_num)]
      norm_num
    simp only [Didv.fitResult, h, Didv.complexadmittance, Didv.compleximpedance, hp, hc, Didv.recipZ]
    rw [if_neg (by norm_num [Didv.twoPoleZ, Didv.jw])]
    exact ⟨_, rfl⟩

/-! ### C56: suppression factor -/

/-- Ballistic limit: between one half and one, and increasing with the bath temperature. -/
theorem ballistic_bounds {tbath tc n : ℝ} (h0 : 0 ≤ tbath) (h1 : tbath ≤ tc) (hc : 0 < tc)
    (hn : -1 < n) :
    ∃ F, suppression true tbath tc n = .ok F ∧ 1 / 2 ≤ F ∧ F ≤ 1 ∧
      ∀ tb' F', tbath < tb' → suppression true tb' tc n = .ok F' → F < F' := by
  have hx : 0 ≤ tbath / tc := div_nonneg h0 hc.le
  have hx1 : tbath / tc ≤ 1 := (div_le_one hc).2 h1
  have hs : suppression true tbath tc n = .ok (((tbath / tc) ^ (n + 1) + 1) / 2) := by
    unfold suppression
    rw [if_neg hc.ne', if_pos rfl, pw_ok hx (fun _ => by linarith)]
  refine ⟨_, hs, ?_, ?_, ?_⟩
  · have := Real.rpow_nonneg hx (n + 1)
    linarith
  · have := Real.rpow_le_one hx hx1 (by linarith : 0 ≤ n + 1)
    linarith
  · intro tb' F' ht hF
    unfold suppression at hF
    rw [if_neg hc.ne', if_pos rfl] at hF
    cases hp : pw (tb' / tc) (n + 1) with
    | error e => rw [hp] at hF; cases hF
    | ok p =>
      rw [hp] at hF
      cases hF
      obtain ⟨_, _, rfl⟩ := pw_inv hp
      have := Real.rpow_lt_rpow hx (div_lt_div_of_pos_right ht hc) (by linarith : 0 < n + 1)
      linarith

/-- Partial form of the diffusive claim of C56: below the transition temperature the factor lies between
`n/(2n+1)` and one. -/
theorem diffusive_bounds_partial {tbath tc n : ℝ} (h0 : 0 ≤ tbath) (h1 : tbath < tc) (hn : 0 < n) :
    ∃ F, suppression false tbath tc n = .ok F ∧ n / (2 * n + 1) ≤ F ∧ 0 < F ∧ F ≤ 1 := by
  have hc : 0 < tc := lt_of_le_of_lt h0 h1
  have hx : 0 ≤ tbath / tc := div_nonneg h0 hc.le
  have hx1 : tbath / tc < 1 := (div_lt_one hc).2 h1
  have h2n : 0 < 2 * n + 1 := by linarith
  have hq1 : (tbath / tc) ^ n < 1 := Real.rpow_lt_one hx hx1 hn
  have hs : suppression false tbath tc n =
      .ok (n / (2 * n + 1) * ((tbath / tc) ^ (2 * n + 1) - 1) / ((tbath / tc) ^ n - 1)) := by
    unfold suppression
    rw [if_neg hc.ne', if_neg (by decide), if_neg h2n.ne', pw_ok hx (fun _ => h2n.le),
      pw_ok hx (fun _ => hn.le)]
    simp only
    rw [if_neg (by linarith)]
  generalize hxx : tbath / tc = x at *
  set q := x ^ n with hq
  have hq0 : 0 ≤ q := Real.rpow_nonneg hx n
  have hpq : x ^ (2 * n + 1) = q ^ ((2 * n + 1) / n) := by
    rw [hq, ← Real.rpow_mul hx, mul_div_cancel₀ _ hn.ne']
  have hs1 : 1 ≤ (2 * n + 1) / n := by
    rw [le_div_iff₀ hn]
    linarith
  have hp1 : q ^ ((2 * n + 1) / n) ≤ q := by
    calc q ^ ((2 * n + 1) / n) ≤ q ^ (1 : ℝ) := Real.rpow_le_rpow_of_exponent_ge' hq0 hq1.le
          zero_le_one hs1
      _ = q := Real.rpow_one q
  have hb := one_add_mul_self_le_rpow_one_add (show (-1 : ℝ) ≤ q - 1 by linarith) hs1
  rw [add_sub_cancel] at hb
  refine ⟨_, hs, ?_⟩
  rw [hpq]
  set p := q ^ ((2 * n + 1) / n)
  have hpos : 0 < 1 - q := by linarith
  have e : n / (2 * n + 1) * (p - 1) / (q - 1) = n / (2 * n + 1) * ((1 - p) / (1 - q)) := by
    rw [mul_div_assoc, ← neg_sub 1 p, ← neg_sub 1 q, neg_div_neg_eq]
  have hr : 1 ≤ (1 - p) / (1 - q) := by
    rw [le_div_iff₀ hpos]
    linarith
  have hn' : 0 < n / (2 * n + 1) := div_pos hn h2n
  have hlo : n / (2 * n + 1) ≤ n / (2 * n + 1) * ((1 - p) / (1 - q)) := by
    nlinarith
  rw [e]
  refine ⟨hlo, lt_of_lt_of_le hn' hlo, ?_⟩
  have hr2 : (1 - p) / (1 - q) ≤ (2 * n + 1) / n := by
    rw [div_le_iff₀ hpos]
    linarith
  calc n / (2 * n + 1) * ((1 - p) / (1 - q)) ≤ n / (2 * n + 1) * ((2 * n + 1) / n) :=
        mul_le_mul_of_nonneg_left hr2 hn'.le
    _ = 1 := by field_simp

/-- Contrary to C56 the diffusive factor is not defined for a bath at the transition temperature (where it
tends to one): the constructor raises. -/
theorem diffusive_equal_violated (a : TESArgs) (hl : a.lgcb = false) (hc : 0 < a.tc)
    (he : a.tbath = a.tc) : ∃ e, create a = .error e := by
  have hx : a.tbath / a.tc = 1 := by rw [he]; exact div_self hc.ne'
  have hs : suppression a.lgcb a.tbath a.tc a.n = .error .zeroDivision := by
    unfold suppression
    rw [if_neg hc.ne', hl, if_neg (by decide), hx,
      pw_ok zero_le_one (fun h => absurd h one_ne_zero), pw_ok zero_le_one (fun h => absurd h one_ne_zero)]
    simp only [Real.one_rpow, sub_self, if_pos]
    split_ifs <;> rfl
  unfold create
  rw [hs]
  split_ifs
  · exact ⟨_, rfl⟩
  · exact ⟨_, rfl⟩

example : (0 : ℝ) ≤ 1 ∧ (1 : ℝ) < 2 ∧ (0 : ℝ) < 5 ∧
    ∃ a : TESArgs, a.lgcb = false ∧ 0 < a.tc ∧ a.tbath = a.tc :=
  ⟨by norm_num, by norm_num, by norm_num, ⟨1, 1, 1, 0, 2, 1, 1, 1, 1, 1, 1, 1, 5, false, 1, 1, 1⟩, rfl,
    one_pos, rfl⟩

/-! ### C75: energy resolution -/

/-- The estimate exists for increasing frequencies (at least two) and a positive noise. -/
theorem energyRes_defined (p q : ℝ × ℝ) (l : List (ℝ × ℝ)) (tau eff : ℝ)
    (hl : Increasing (p :: q :: l)) (hp : ∀ x ∈ p :: q :: l, 0 < x.2) (he : eff ≠ 0) :
    ∃ r, energyRes (p :: q :: l) tau eff = .ok r ∧ 0 < r := by
  have hT : 0 < trapz ((p :: q :: l).map (resPoint tau eff)) := by
    rw [show resPoint tau eff = fun p : ℝ × ℝ => (2 * Real.pi * p.1,
      2 * eff ^ 2 / ((1 + (2 * Real.pi * p.1 * tau) ^ 2) * (Real.pi * p.2))) from
      funext (resPoint_eq tau eff)]
    refine trapz_pos _ _ (by have := Real.pi_pos; positivity) p q l hl fun x hx => ?_
    have h1 := hp x hx
    have h2 := Real.pi_pos
    have h3 : 0 < eff ^ 2 := by positivity
    positivity
  refine ⟨_, energyRes_of (fun x hx => (hp x hx).ne') hT, ?_⟩
  have := qe_pos
  positivity

/-- Noise `c` times larger gives a resolution `sqrt c` times larger; an efficiency `c` times larger one `c`
times smaller. -/
theorem energyRes_scaling {pts : List (ℝ × ℝ)} {tau eff r c : ℝ} (h : energyRes pts tau eff = .ok r)
    (hc : 0 < c) :
    energyRes (pts.map fun p => (p.1, c * p.2)) tau eff = .ok (Real.sqrt c * r) ∧
    energyRes pts tau (c * eff) = .ok (r / c) := by
  obtain ⟨h0, h1, rfl⟩ := energyRes_ok h
  have e1 : trapz ((pts.map fun p => (p.1, c * p.2)).map (resPoint tau eff)) =
      c⁻¹ * trapz (pts.map (resPoint tau eff)) := by
    rw [← trapz_smul, List.map_map, List.map_map]
    congr 1
    refine List.map_congr_left fun p hp => ?_
    simp only [Function.comp_apply, resPoint_eq]
    congr 1
    have := h0 p hp
    have hpi := Real.pi_pos.ne'
    have h3 : 1 + (2 * Real.pi * p.1 * tau) ^ 2 ≠ 0 := by positivity
    field_simp
  have e2 : trapz (pts.map (resPoint tau (c * eff))) = c ^ 2 * trapz (pts.map (resPoint tau eff)) := by
    rw [← trapz_smul, List.map_map]
    congr 1
    refine List.map_congr_left fun p hp => ?_
    simp only [Function.comp_apply, resPoint_eq]
    congr 1
    ring
  constructor
  · rw [energyRes_of _ (by rw [e1]; positivity), e1]
    · congr 1
      rw [one_div, mul_inv, inv_inv, Real.sqrt_mul hc.le, ← one_div]
      ring
    · intro p hp
      obtain ⟨q, hq, rfl⟩ := List.mem_map.1 hp
      exact mul_ne_zero hc.ne' (h0 q hq)
  · rw [energyRes_of h0 (by rw [e2]; positivity), e2]
    congr 1
    rw [one_div, mul_inv, ← inv_pow, Real.sqrt_mul (by positivity), Real.sqrt_sq (by positivity), ← one_div]
    field_simp

/-- More noise, or a slower collection, never gives a better resolution. -/
theorem energyRes_monotone {l : List (ℝ × ℝ)} (hl : Increasing l) {S S' : ℝ → ℝ} {tau tau' eff r r' : ℝ}
    (hS : ∀ p ∈ l, 0 < S p.1 ∧ S p.1 ≤ S' p.1) (ht : |tau| ≤ |tau'|)
    (h : energyRes (l.map fun p => (p.1, S p.1)) tau eff = .ok r)
    (h' : energyRes (l.map fun p => (p.1, S' p.1)) tau' eff = .ok r') : r ≤ r' := by
  obtain ⟨_, h1, rfl⟩ := energyRes_ok h
  obtain ⟨_, h1', rfl⟩ := energyRes_ok h'
  have hpi := Real.pi_pos
  rw [List.map_map] at h1 h1' ⊢
  rw [List.map_map]
  have hle : trapz (l.map (resPoint tau' eff ∘ fun p => (p.1, S' p.1))) ≤
      trapz (l.map (resPoint tau eff ∘ fun p => (p.1, S p.1))) := by
    have ef : ∀ (τ : ℝ) (R : ℝ → ℝ), (resPoint τ eff ∘ fun p : ℝ × ℝ => (p.1, R p.1)) =
        fun p => (2 * Real.pi * p.1,
          2 * eff ^ 2 / ((1 + (2 * Real.pi * p.1 * τ) ^ 2) * (Real.pi * R p.1))) := by
      intro τ R
      funext p
      simp only [Function.comp_apply, resPoint_eq]
    rw [ef, ef]
    refine trapz_mono _ _ _ (by positivity) l hl fun p hp => ?_
    obtain ⟨hS0, hS1⟩ := hS p hp
    have hsq : tau ^ 2 ≤ tau' ^ 2 := sq_le_sq.2 ht
    refine div_le_div_of_nonneg_left (by positivity) (by positivity) ?_
    refine mul_le_mul ?_ (mul_le_mul_of_nonneg_left hS1 hpi.le) (by positivity) (by positivity)
    rw [mul_pow, mul_pow]
    have := mul_le_mul_of_nonneg_left hsq (sq_nonneg (2 * Real.pi * p.1))
    linarith
  have := qe_pos
  refine div_le_div_of_nonneg_right (Real.sqrt_le_sqrt ?_) this.le
  exact one_div_le_one_div_of_le h1' hle

example : Increasing [(1, 1), (2, 1), (4, 3)] ∧ (∀ x ∈ [((1 : ℝ), (1 : ℝ)), (2, 1), (4, 3)], 0 < x.2) ∧
    ∃ r, energyRes [(1, 1), (2, 1), (4, 3)] 1 1 = .ok r := by
  have h1 : Increasing [(1, 1), (2, 1), (4, 3)] := by unfold Increasing; norm_num
  have h2 : ∀ x ∈ [((1 : ℝ), (1 : ℝ)), (2, 1), (4, 3)], 0 < x.2 := by norm_num
  obtain ⟨r, hr, _⟩ := energyRes_defined _ _ _ 1 1 h1 h2 one_ne_zero
  exact ⟨h1, h2, r, hr⟩

/-! ### C76: one- and two-sided densities -/

/-- Contrary to C76 the estimate from the two-sided form of a spectral density is half of the estimate from
its one-sided form. -/
theorem twoSided_violated {s0 : ℝ} {l : List (ℝ × ℝ)} {tau eff r : ℝ}
    (h : energyRes ((0, s0) :: l) tau eff = .ok r) :
    energyRes (twoSided s0 l) tau eff = .ok (r / 2) ∧ r / 2 ≠ r := by
  obtain ⟨h0, h1, rfl⟩ := energyRes_ok h
  have hq := qe_pos
  set T := trapz (((0, s0) :: l).map (resPoint tau eff)) with hT
  have half : ∀ p : ℝ × ℝ, p.2 ≠ 0 → resPoint tau eff (p.1, p.2 / 2) =
      ((resPoint tau eff p).1, 2 * (resPoint tau eff p).2) := by
    intro p hp
    simp only [resPoint_eq]
    congr 1
    have hpi := Real.pi_pos.ne'
    have h3 : 1 + (2 * Real.pi * p.1 * tau) ^ 2 ≠ 0 := by positivity
    field_simp
  have mirror : ∀ p : ℝ × ℝ, p.2 ≠ 0 → resPoint tau eff (-p.1, p.2 / 2) =
      (-(resPoint tau eff p).1, 2 * (resPoint tau eff p).2) := by
    intro p hp
    have := half p hp
    simp only [resPoint_eq, Prod.mk.injEq] at this ⊢
    refine ⟨by ring, ?_⟩
    rw [← this.2]
    congr 2
    ring
  have e : trapz ((twoSided s0 l).map (resPoint tau eff)) = 4 * T := by
    have hl : ∀ p ∈ l, p.2 ≠ 0 := fun p hp => h0 p (List.mem_cons_of_mem _ hp)
    have e1 : (twoSided s0 l).map (resPoint tau eff) =
        (l.reverse.map fun p => (-(resPoint tau eff p).1, 2 * (resPoint tau eff p).2)) ++
          ((resPoint tau eff (0, s0)).1, 2 * (resPoint tau eff (0, s0)).2) ::
          l.map fun p => ((resPoint tau eff p).1, 2 * (resPoint tau eff p).2) := by
      unfold twoSided
      rw [List.map_append, List.map_cons, List.map_map, List.map_map]
      congr 1
      · exact List.map_congr_left fun p hp => mirror p (hl p (List.mem_reverse.1 hp))
      · congr 1
        · exact half (0, s0) (h0 _ List.mem_cons_self)
        · exact List.map_congr_left fun p hp => half p (hl p hp)
    have e2 : ((resPoint tau eff (0, s0)).1, 2 * (resPoint tau eff (0, s0)).2) ::
        (l.map fun p => ((resPoint tau eff p).1, 2 * (resPoint tau eff p).2)) =
        (((0, s0) :: l).map (resPoint tau eff)).map fun p => (p.1, 2 * p.2) := by
      simp [Function.comp_def]
    have e3 : (l.reverse.map fun p => (-(resPoint tau eff p).1, 2 * (resPoint tau eff p).2)) ++
        [((resPoint tau eff (0, s0)).1, 2 * (resPoint tau eff (0, s0)).2)] =
        (((((0, s0) :: l).map (resPoint tau eff)).map fun p => (p.1, 2 * p.2)).reverse).map
          fun p => (-p.1, p.2) := by
      have hz : (resPoint tau eff (0, s0)).1 = 0 := by simp [resPoint]
      simp [Function.comp_def, hz]
    rw [e1, trapz_append, e3, e2, trapz_mirror, trapz_smul, ← hT]
    ring
  constructor
  · rw [energyRes_of _ (by rw [e]; positivity), e]
    · congr 1
      rw [one_div, mul_inv, Real.sqrt_mul (by positivity), show ((4 : ℝ)⁻¹) = (1 / 2) ^ 2 by norm_num,
        Real.sqrt_sq (by norm_num), ← one_div]
      ring
    · intro p hp
      unfold twoSided at hp
      rcases List.mem_append.1 hp with hp | hp
      · obtain ⟨q, hq, rfl⟩ := List.mem_map.1 hp
        exact div_ne_zero (h0 q (List.mem_cons_of_mem _ (List.mem_reverse.1 hq))) two_ne_zero
      · rcases List.mem_cons.1 hp with rfl | hp
        · exact div_ne_zero (h0 _ List.mem_cons_self) two_ne_zero
        · obtain ⟨q, hq, rfl⟩ := List.mem_map.1 hp
          exact div_ne_zero (h0 q (List.mem_cons_of_mem _ hq)) two_ne_zero
  · have : 0 < Real.sqrt (1 / T) / qe := by positivity
    intro hc
    linarith

example : ∃ r, energyRes [(0, 2), (1, 2)] 1 1 = .ok r := by
  obtain ⟨r, hr, _⟩ := energyRes_defined (0, 2) (1, 2) [] 1 1 (by unfold Increasing; norm_num)
    (by norm_num) one_ne_zero
  exact ⟨r, hr⟩

end Verif.Sim
