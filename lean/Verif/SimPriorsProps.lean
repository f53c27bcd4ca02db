import Verif.SimPriorsLemmas
import Verif.SimProps

/-! Property theorems about simulated noise: devices loaded from a fit with priors (C55) and spectra at
negative frequencies (C122). -/

namespace Verif.Sim
open Verif

/-! ### C55: loadfromdidv of a fit with priors -/

/-- From a two-pole fit with priors the noise type "transition" gives a device whose scaled response is the
one the fit compared with the data. -/
theorem load_priors_transition_partial (o : Didv.PObj) (a : LoadArgs) (rnormal : Option ℝ)
    {rsh rp r0 beta l L tau0 dt : ℝ} {r : Didv.PResult} (hr : Didv.fitresultP o 2 = some r)
    (hp : r.params = [rsh, rp, r0, beta, l, L, tau0, dt]) (hl : l ≠ 1)
    (hA : rsh + rp + r0 * (1 + beta) ≠ 0) (hc : r0 + (rsh + rp) ≠ 0) (htc : 0 < a.tc)
    (htb : 0 ≤ a.tbath) :
    ∃ t, loadfrompriors o a rnormal ⟨"transition", true⟩ = .ok t ∧ t.rload = rsh + rp ∧ t.r0 = r0 ∧
      t.i0 = a.qetbias * rsh / (r0 + (rsh + rp)) ∧ t.G = a.G ∧ t.tc = a.tc ∧ t.tload = a.tload ∧
      t.fTfn = ((a.tbath / a.tc) ^ (6 : ℝ) + 1) / 2 ∧
      ∀ f, (dIdV t f).map (fun y => (rsh : ℂ) * y *
        Complex.exp (-2 * Complex.I * Real.pi * f * dt)) = Didv.scaledY f r.params := by
  have hsup : suppression true a.tbath a.tc 5 = .ok (((a.tbath / a.tc) ^ (6 : ℝ) + 1) / 2) := by
    unfold suppression
    rw [if_neg htc.ne', if_pos rfl, pw_ok (by positivity) (fun _ => by norm_num)]
    norm_num
  refine ⟨⟨rsh + rp, r0, rsh, beta, l, L, tau0, a.qetbias, a.qetbias * rsh / (r0 + (rsh + rp)), a.tc,
    a.tload, a.G, a.tbath, 5, a.squiddc, a.squidpole, a.squidn,
    ((a.tbath / a.tc) ^ (6 : ℝ) + 1) / 2⟩, ?_, rfl, rfl, rfl, rfl, rfl, rfl, rfl, fun f => ?_⟩
  · unfold loadfrompriors loadWith
    rw [if_neg (by decide), if_neg (by decide), if_pos (by decide)]
    simp only [hr, paramsOf, hp, create]
    rw [if_neg hc, hsup]
  · have e : didvArgs ⟨rsh + rp, r0, rsh, beta, l, L, tau0, a.qetbias,
        a.qetbias * rsh / (r0 + (rsh + rp)), a.tc, a.tload, a.G, a.tbath, 5, a.squiddc, a.squidpole,
        a.squidn, ((a.tbath / a.tc) ^ (6 : ℝ) + 1) / 2⟩ = Didv.sspArgs r.params := by
      rw [hp]
      simp [didvArgs, Didv.sspArgs]
    rw [dIdV_agrees _ f hl hA, e]
    unfold Didv.scaledY
    cases hy : Didv.complexadmittance f (Didv.sspArgs r.params) with
    | ok y => simp [hp, Except.map]
    | error e' =>
      rw [← e, ← dIdV_agrees _ f hl hA] at hy
      rw [dIdV_error hl hy]
      rfl

/-- From a one-pole fit with priors the noise type "superconducting" gives a device whose scaled response
in the superconducting state is the one the fit compared with the data. -/
theorem load_priors_superconducting_partial (o : Didv.PObj) (a : LoadArgs) (rnormal : Option ℝ)
    {rsh rp L dt : ℝ} {r : Didv.PResult} (hr : Didv.fitresultP o 1 = some r)
    (hp : r.params = [rsh, rp, L, dt]) (hA : rsh + rp ≠ 0) (htc : 0 < a.tc) (htb : 0 ≤ a.tbath) :
    ∃ t, loadfrompriors o a rnormal ⟨"superconducting", true⟩ = .ok t ∧ t.rload = rsh + rp ∧
      t.tload = a.tload ∧
      ∀ f, (dIdVsc t f).map (fun y => (rsh : ℂ) * y *
        Complex.exp (-2 * Complex.I * Real.pi * f * dt)) = Didv.scaledY f r.params := by
  have hsup : suppression true a.tbath a.tc 5 = .ok (((a.tbath / a.tc) ^ (6 : ℝ) + 1) / 2) := by
    unfold suppression
    rw [if_neg htc.ne', if_pos rfl, pw_ok (by positivity) (fun _ => by norm_num)]
    norm_num
  refine ⟨⟨rsh + rp, 0, rsh, 0, 0, L, 0, a.qetbias, a.qetbias * rsh / (0 + (rsh + rp)), a.tc,
    a.tload, 0, a.tbath, 5, a.squiddc, a.squidpole, a.squidn,
    ((a.tbath / a.tc) ^ (6 : ℝ) + 1) / 2⟩, ?_, rfl, rfl, fun f => ?_⟩
  · unfold loadfrompriors loadWith
    rw [if_pos (by decide)]
    simp only [hr, paramsOf, hp, create]
    rw [if_neg (by rwa [zero_add]), hsup]
  · have e := (onePole_agrees ⟨rsh + rp, 0, rsh, 0, 0, L, 0, a.qetbias,
      a.qetbias * rsh / (0 + (rsh + rp)), a.tc, a.tload, 0, a.tbath, 5, a.squiddc, a.squidpole,
      a.squidn, ((a.tbath / a.tc) ^ (6 : ℝ) + 1) / 2⟩ f).1 hA
    have e2 : ({ rsh := some rsh, rp := some (rsh + rp - rsh), L := some L } : Didv.Args) =
        Didv.sspArgs r.params := by
      rw [hp]
      simp [Didv.sspArgs]
    simp only [e2] at e
    rw [e]
    unfold Didv.scaledY
    cases hy : Didv.complexadmittance f (Didv.sspArgs r.params) with
    | ok y => simp [hp, Except.map]
    | error e' =>
      rw [← e] at hy
      rw [dIdVsc_error hy]
      rfl

/-- Without a fit with one pole, or with two poles, `loadfromdidv` raises KeyError. -/
theorem load_priors_missing (o : Didv.PObj) (a : LoadArgs) (rnormal : Option ℝ) :
    (Didv.fitresultP o 1 = none →
      loadfrompriors o a rnormal ⟨"superconducting", true⟩ = .error .keyError) ∧
    (Didv.fitresultP o 2 = none →
      loadfrompriors o a rnormal ⟨"transition", true⟩ = .error .keyError) := by
  constructor
  · intro h
    unfold loadfrompriors loadWith
    rw [if_pos (by decide)]
    simp only [h, paramsOf]
  · intro h
    unfold loadfrompriors loadWith
    rw [if_neg (by decide), if_neg (by decide), if_pos (by decide)]
    simp only [h, paramsOf]

/-- Objects with such results exist, and objects without. -/
example (b : Didv.Obj) (ft : List ℝ) (pr : List ℝ) (pc : Didv.Cov) :
    Didv.fitresultP ⟨b, some ⟨[1, 1, 1, 0], [], [], ft, 0, 1, pr, pc⟩,
      some ⟨[1, 1, 1, 0, 2, 1, 1, 0], [], [], ft, 0, 1, pr, pc⟩, none⟩ 2 =
      some ⟨[1, 1, 1, 0, 2, 1, 1, 0], [], [], ft, 0, 1, pr, pc⟩ ∧ (2 : ℝ) ≠ 1 ∧
    (1 : ℝ) + 1 + 1 * (1 + 0) ≠ 0 ∧ (1 : ℝ) + (1 + 1) ≠ 0 ∧
    Didv.fitresultP ⟨b, none, none, none⟩ 1 = none ∧ Didv.fitresultP ⟨b, none, none, none⟩ 2 = none :=
  ⟨rfl, by norm_num, by norm_num, by norm_num, rfl, rfl⟩

/-! ### C122: negative frequencies -/

/-- The noise of the circuit and of the device is the same at a frequency and at its negative: two-sided
spectra are even. -/
theorem spectra_even_partial (t : TES) (f : ℝ) :
    sIload t (-f) = sIload t f ∧ sPload t (-f) = sPload t f ∧ sItes t (-f) = sItes t f ∧
    sPtes t (-f) = sPtes t f ∧ sItfn t (-f) = sItfn t f ∧ sIloadNormal t (-f) = sIloadNormal t f ∧
    sItesNormal t (-f) = sItesNormal t f ∧ sIloadSc t (-f) = sIloadSc t f := by
  have h1 : sIload t (-f) = sIload t f := by
    unfold sIload
    rw [dIdV_neg]
    cases dIdV t f with
    | error e => rfl
    | ok y => simp [Except.map, abs2]
  have h2 : sItes t (-f) = sItes t f := by
    unfold sItes
    rw [dIdV_neg, dIdP_neg]
    cases dIdV t f with
    | error e => cases dIdP t f <;> rfl
    | ok y =>
      cases dIdP t f with
      | error e => rfl
      | ok p => simp only [Except.map, abs2_conj_sub]
  refine ⟨h1, ?_, h2, ?_, ?_, ?_, ?_, ?_⟩
  · unfold sPload
    rw [h1, toPower_neg]
  · unfold sPtes
    rw [h2, toPower_neg]
  · unfold sItfn
    rw [dIdP_neg]
    cases dIdP t f with
    | error e => rfl
    | ok y => simp [Except.map, abs2]
  · unfold sIloadNormal
    rw [dIdVnormal_neg]
    cases dIdVnormal t f with
    | error e => rfl
    | ok y => simp [Except.map, abs2]
  · unfold sItesNormal
    rw [dIdVnormal_neg]
    cases dIdVnormal t f with
    | error e => rfl
    | ok y => simp [Except.map, abs2]
  · unfold sIloadSc
    rw [dIdVsc_neg]
    cases dIdVsc t f with
    | error e => rfl
    | ok y => simp [Except.map, abs2]

/-- Without a `1/f` knee, or when the exponent of the knee is even, the amplifier noise and all totals are
even too. -/
theorem totals_even_partial (t : TES) (f : ℝ) (h : t.squidpole = 0 ∨ ∃ k : ℤ, t.squidn = (2 * k : ℤ)) :
    sIsquid t (-f) = sIsquid t f ∧ sPsquid t (-f) = sPsquid t f ∧ sItot t (-f) = sItot t f ∧
    sPtot t (-f) = sPtot t f ∧ sItotNormal t (-f) = sItotNormal t f ∧ sItotSc t (-f) = sItotSc t f := by
  obtain ⟨h1, -, h3, -, h5, h6, h7, h8⟩ := spectra_even_partial t f
  have hs : sIsquid t (-f) = sIsquid t f := by
    unfold sIsquid
    by_cases hf : f = 0
    · rw [hf, neg_zero]
    · rw [if_neg hf, if_neg (neg_ne_zero.2 hf), div_neg]
      rcases h with h | ⟨k, hk⟩
      · rw [h, zero_div, neg_zero]
      · rw [hk, pw_neg_even]
  have hT : sItot t (-f) = sItot t f := by
    unfold sItot
    rw [h1, h3, h5, hs]
  refine ⟨hs, ?_, hT, ?_, ?_, ?_⟩
  · unfold sPsquid
    rw [hs, toPower_neg]
  · unfold sPtot
    rw [hT, toPower_neg]
  · unfold sItotNormal
    rw [h6, h7, hs]
  · unfold sItotSc
    rw [h8, hs]

example : (⟨1, 1, 1, 0, 2, 1, 1, 1, 1, 1, 1, 1, 1, 5, 1, 1, 2, 1⟩ : TES).squidn = (2 * 1 : ℤ) := by
  norm_num

/-- Contrary to C122 the amplifier noise with the default exponent one is not even: the knee is subtracted
at negative frequencies, where the noise vanishes at minus the knee frequency. -/
theorem squid_even_violated (t : TES) (hn : t.squidn = 1) (hp : 0 < t.squidpole) :
    sIsquid t t.squidpole = .ok ((2 * t.squiddc) ^ 2) ∧ sIsquid t (-t.squidpole) = .ok 0 := by
  unfold sIsquid
  rw [if_neg hp.ne', if_neg (neg_ne_zero.2 hp.ne'), div_neg, div_self hp.ne', hn,
    pw_ok' (.inr ⟨1, by norm_num⟩) (fun h => absurd h one_ne_zero),
    pw_ok' (.inr ⟨1, by norm_num⟩) (fun h => absurd h (by norm_num))]
  constructor
  · simp only [Real.rpow_one]
    congr 1
    ring
  · simp only [Real.rpow_one]
    congr 1
    ring

example : exTES.squidn = 1 ∧ 0 < exTES.squidpole ∧ (2 * exTES.squiddc) ^ 2 ≠ 0 := by
  norm_num [exTES]

end Verif.Sim
