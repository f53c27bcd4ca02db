import Verif.SimPriors
import Verif.SimLemmas

/-! Helper lemmas: errors of the responses, and responses at negative frequencies. -/

namespace Verif.Sim
open Verif

theorem dIdV_error {t : TES} {f : ℝ} {e : Err} (hl : t.loopgain ≠ 1) (h : dIdV t f = .error e) :
    e = .nan := by
  unfold dIdV at h
  rw [if_neg (sub_ne_zero.2 hl.symm)] at h
  dsimp only at h
  split_ifs at h
  cases h
  rfl

theorem dIdVsc_error {t : TES} {f : ℝ} {e : Err} (h : dIdVsc t f = .error e) : e = .nan := by
  unfold dIdVsc at h
  split_ifs at h
  cases h
  rfl

theorem jw_neg (f : ℝ) : jw (-f) = (starRingEnd ℂ) (jw f) := by
  simp [jw, map_ofNat]

theorem dIdV_neg (t : TES) (f : ℝ) : dIdV t (-f) = (dIdV t f).map (starRingEnd ℂ) := by
  unfold dIdV
  by_cases h1 : 1 - t.loopgain = 0
  · rw [if_pos h1, if_pos h1]
    rfl
  · rw [if_neg h1, if_neg h1]
    dsimp only
    have e : (t.rload + t.r0 * (1 + t.beta) + jw (-f) * t.inductance +
        t.r0 * t.loopgain / (1 - t.loopgain) * (2 + t.beta) /
          (1 + jw (-f) * t.tau0 / (1 - t.loopgain)) : ℂ) =
        (starRingEnd ℂ) (t.rload + t.r0 * (1 + t.beta) + jw f * t.inductance +
          t.r0 * t.loopgain / (1 - t.loopgain) * (2 + t.beta) /
            (1 + jw f * t.tau0 / (1 - t.loopgain))) := by
      rw [jw_neg]
      simp [map_ofNat]
    rw [e]
    generalize (t.rload + t.r0 * (1 + t.beta) + jw f * t.inductance +
          t.r0 * t.loopgain / (1 - t.loopgain) * (2 + t.beta) /
            (1 + jw f * t.tau0 / (1 - t.loopgain)) : ℂ) = z
    by_cases hz : z = 0
    · rw [if_pos hz, if_pos (by rw [hz, map_zero])]
      rfl
    · rw [if_neg hz, if_neg (by simpa using hz)]
      simp [Except.map]

theorem dIdP_neg (t : TES) (f : ℝ) : dIdP t (-f) = (dIdP t f).map (starRingEnd ℂ) := by
  unfold dIdP
  by_cases h1 : t.i0 = 0 ∨ t.loopgain = 0 ∨ 1 - 1 / t.loopgain = 0
  · rw [if_pos h1, if_pos h1]
    rfl
  · rw [if_neg h1, if_neg h1, dIdV_neg]
    cases dIdV t f with
    | error e => rfl
    | ok y =>
      simp only [Except.map]
      rw [jw_neg]
      simp

theorem dIdVnormal_neg (t : TES) (f : ℝ) :
    dIdVnormal t (-f) = (dIdVnormal t f).map (starRingEnd ℂ) := by
  unfold dIdVnormal
  have e : (t.rload + t.r0 + jw (-f) * t.inductance : ℂ) =
      (starRingEnd ℂ) (t.rload + t.r0 + jw f * t.inductance) := by
    rw [jw_neg]
    simp
  rw [e]
  generalize (t.rload + t.r0 + jw f * t.inductance : ℂ) = z
  by_cases hz : z = 0
  · rw [if_pos hz, if_pos (by rw [hz, map_zero])]
    rfl
  · rw [if_neg hz, if_neg (by simpa using hz)]
    simp [Except.map]

theorem dIdVsc_neg (t : TES) (f : ℝ) : dIdVsc t (-f) = (dIdVsc t f).map (starRingEnd ℂ) := by
  unfold dIdVsc
  have e : (t.rload + jw (-f) * t.inductance : ℂ) =
      (starRingEnd ℂ) (t.rload + jw f * t.inductance) := by
    rw [jw_neg]
    simp
  rw [e]
  generalize (t.rload + jw f * t.inductance : ℂ) = z
  by_cases hz : z = 0
  · rw [if_pos hz, if_pos (by rw [hz, map_zero])]
    rfl
  · rw [if_neg hz, if_neg (by simpa using hz)]
    simp [Except.map]

theorem abs2_conj_sub (c : ℝ) (y p : ℂ) :
    abs2 ((starRingEnd ℂ) y - c * (starRingEnd ℂ) p) = abs2 (y - c * p) := by
  have e : (starRingEnd ℂ) y - c * (starRingEnd ℂ) p = (starRingEnd ℂ) (y - c * p) := by simp
  unfold abs2
  rw [e, RCLike.norm_conj]

theorem toPower_neg (t : TES) (f : ℝ) (s : Except Err ℝ) : toPower t (-f) s = toPower t f s := by
  unfold toPower
  rw [dIdP_neg]
  cases s with
  | error e => rfl
  | ok s =>
    cases dIdP t f with
    | error e => rfl
    | ok y => simp [Except.map, abs2]

theorem pw_neg_even (x : ℝ) (k : ℤ) : pw (-x) ((2 * k : ℤ) : ℝ) = pw x ((2 * k : ℤ) : ℝ) := by
  by_cases h : x = 0 ∧ ((2 * k : ℤ) : ℝ) < 0
  · rw [h.1, neg_zero]
  · have h0 : x = 0 → 0 ≤ ((2 * k : ℤ) : ℝ) := fun hx => not_lt.1 fun hk => h ⟨hx, hk⟩
    rw [pw_ok' (.inr ⟨_, rfl⟩) h0, pw_ok' (.inr ⟨_, rfl⟩) fun hx => h0 (neg_eq_zero.1 hx),
      Real.rpow_intCast, Real.rpow_intCast, (even_two_mul k).neg_zpow]

end Verif.Sim
