import Verif.CutCovOutLemmas
import Verif.CutCovProps
import Mathlib.Tactic.FinCases

/-!
Property C163: how many events `itercov` needs to be able to cut one.
-/

namespace Verif.Cut
open Verif

variable {d : ℕ}

/-- The chi-squares of the first pass add up to the number of variables times one less than the number of events. -/
theorem itercov_chi2_total {ev : List (Fin d → ℝ)} (h2 : 2 ≤ ev.length) (hd : (vcov ev).det ≠ 0) :
    (ev.map fun x => ∑ i, (x i - vmean ev i) * ((vcov ev)⁻¹.mulVec fun j => x j - vmean ev j) i).sum = (ev.length - 1) * d := by
  have hN : (ev.length : ℝ) - 1 ≠ 0 := by
    have : (2 : ℝ) ≤ ev.length := by exact_mod_cast h2
    linarith
  have e : ∀ x : Fin d → ℝ, ∑ i, (x i - vmean ev i) * ((vcov ev)⁻¹.mulVec fun j => x j - vmean ev j) i =
      ∑ i, ∑ j, (vcov ev)⁻¹ i j * ((x j - vmean ev j) * (x i - vmean ev i)) := by
    intro x
    refine Finset.sum_congr rfl fun i _ => ?_
    simp only [Matrix.mulVec, dotProduct]
    rw [Finset.mul_sum]
    exact Finset.sum_congr rfl fun j _ => by ring
  simp_rw [e]
  rw [list_sum_swap]
  have h1 : ∀ i, (ev.map fun x => ∑ j, (vcov ev)⁻¹ i j * ((x j - vmean ev j) * (x i - vmean ev i))).sum =
      (ev.length - 1) * ((vcov ev)⁻¹ * vcov ev) i i := by
    intro i
    rw [list_sum_swap, Matrix.mul_apply, Finset.mul_sum]
    refine Finset.sum_congr rfl fun j _ => ?_
    rw [list_sum_mul]
    simp only [vcov]
    field_simp
  simp_rw [h1]
  rw [Matrix.nonsing_inv_mul _ (isUnit_iff_ne_zero.2 hd)]
  simp
  ring

/-- Of few enough events `itercov` cuts none: it raises LinAlgError if their covariance matrix is singular, and otherwise
returns the mean and the covariance of all of them.  With two variables and the default settings these are up to nine events. -/
theorem itercov_never_cuts {ppf : ℕ → ℝ} {f : ℕ} {args : CovArgs} {rows : List (List ℝ)} {nsigma : ℝ} {threshold : Option ℝ}
    {mi : ℤ} {fe : ℝ} (ha : covData args = .ok (d, rows)) (h2 : 2 ≤ rows.length) (hf : (mi + 1).toNat + 1 ≤ f)
    (ht : 0 < threshold.getD (max 3 (ppf d)))
    (h3 : ((rows.length : ℝ) - 1) ^ 2 < rows.length * (d + nsigma * Real.sqrt (2 * d)))
    (h4 : ((rows.length : ℝ) - 1) ^ 2 < rows.length * threshold.getD (max 3 (ppf d)) ^ 2) :
    let ev : List (Fin d → ℝ) := rows.map fun r i => r.getD i 0
    ((vcov ev).det = 0 → itercov ppf f args nsigma threshold mi fe = some (.error .linAlgError)) ∧
    ((vcov ev).det ≠ 0 → ∃ p, itercov ppf f args nsigma threshold mi fe =
      some (.ok ⟨d, ⟨some (vmean ev), some (vcov ev), List.replicate rows.length true⟩, p⟩)) := by
  intro ev
  have hlen : ev.length = rows.length := by simp [ev]
  have hne : ev ≠ [] := by
    intro h0
    rw [h0] at hlen
    simp at hlen
    omega
  have e1 : itercovEv ppf f ev nsigma threshold mi fe = covLoop ev (d + nsigma * Real.sqrt (2 * d))
      (threshold.getD (max 3 (ppf d))) mi (fun i => fe * Real.sqrt (vcov ev i i)) (fe * ∑ i, Real.sqrt (vcov ev i i) ^ 2)
      f (vmean ev) (vcov ev) 0 0 := by
    unfold itercovEv
    rw [if_neg hne, if_neg (by omega)]
  have e2 : itercov ppf f args nsigma threshold mi fe =
      (itercovEv ppf f ev nsigma threshold mi fe).map fun r => r.map fun s => ⟨d, s⟩ := by
    unfold itercov
    rw [ha]
  constructor
  · intro hd
    obtain ⟨f, rfl⟩ : ∃ g, f = g + 1 := ⟨f - 1, by omega⟩
    rw [e2, e1, covLoop, if_pos hd]
    rfl
  · intro hd
    have hw : args.WellFormed := by
      by_contra hw
      rw [(covData_spec args).2 hw] at ha
      simp at ha
    have hk := cov_few (mc := d + nsigma * Real.sqrt (2 * d)) (thr := threshold.getD (max 3 (ppf d))) (by omega) hd ht
      (by rwa [hlen]) (by rwa [hlen])
    have hev : 2 ≤ args.events := by
      obtain ⟨d', rows', hd', hr'⟩ := (covData_spec args).1 hw
      rw [ha] at hd'
      simp only [Except.ok.injEq, Prod.mk.injEq] at hd'
      rw [← hr', ← hd'.2]
      exact h2
    rw [e2, e1]
    generalize hq : covLoop ev (d + nsigma * Real.sqrt (2 * d)) (threshold.getD (max 3 (ppf d))) mi
      (fun i => fe * Real.sqrt (vcov ev i i)) (fe * ∑ i, Real.sqrt (vcov ev i i) ^ 2) f (vmean ev) (vcov ev) 0 0 = q
    rcases q with _ | q | ⟨s, p⟩
    · exfalso
      have := itercov_terminates ppf f args nsigma threshold mi fe hw hev hf
      rw [e2, e1, hq] at this
      simp at this
    · exact absurd hq (cov_kept_ok hd hk)
    · rw [cov_kept_all hk hq, hlen]
      exact ⟨p, rfl⟩

/-- Four events of two variables, one of them absurd: with the default settings all are kept. -/
example (ppf : ℕ → ℝ) : ∃ m c p, itercov ppf 17 (.arrays [(2, [[0, 0], [1, 0], [0, 1], [1000, 1000]])]) (11 / 4) none 15
    (1 / 1000) = some (.ok ⟨2, ⟨some m, some c, [true, true, true, true]⟩, p⟩) := by
  have hm : (3 : ℝ) ≤ max 3 (ppf 2) := le_max_left _ _
  have hsq : Real.sqrt (2 * (2 : ℕ)) = 2 := by
    rw [show (2 * (2 : ℕ) : ℝ) = 2 ^ 2 by norm_num, Real.sqrt_sq (by norm_num)]
  have := (itercov_never_cuts (ppf := ppf) (f := 17) (args := .arrays [(2, [[0, 0], [1, 0], [0, 1], [1000, 1000]])]) (d := 2)
    (rows := [[0, 0], [1, 0], [0, 1], [1000, 1000]]) (nsigma := 11 / 4) (threshold := none) (mi := 15) (fe := 1 / 1000)
    (by simp [covData]) (by simp) (by decide) (by simp only [Option.getD_none]; linarith)
    (by rw [hsq]; norm_num) (by simp only [Option.getD_none, List.length_cons, List.length_nil]; push_cast; nlinarith)).2
    (by
      simp only [vcov, vmean, avg, Matrix.det_fin_two]
      norm_num)
  obtain ⟨p, h⟩ := this
  exact ⟨_, _, p, h⟩

end Verif.Cut
