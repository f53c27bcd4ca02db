import Verif.DidvShiftProps
import Verif.DidvObjProps

/-! Lemmas for property C133 at the level of `dofit`. -/

namespace Verif.Didv
open Verif

/-- A stored result comes from `fitdidv` with the branch which the guess has chosen. -/
theorem runFit_fitdidv {x : Ext} {o : Obj} {p : Proc} {poles : ℕ} {c : Option ℝ} {r : Result}
    (h : runFit x o p poles c = .ok r) :
    ∃ A0 B0 C0 t1 t2 t3 dt sub1 cov, startGuess o p poles = .ok ((A0, B0, C0, t1, t2, t3, dt), sub1) ∧
      fitdidv x.ls (fitPts p o.fs c) poles A0 B0 C0 t1 t2 t3 dt (some sub1) = .ok (r.params, cov, r.cost) := by
  unfold runFit at h
  cases hg : startGuess o p poles with
  | error e => rw [hg] at h; cases e <;> cases h
  | ok g =>
    obtain ⟨⟨A0, B0, C0, t1, t2, t3, dt⟩, sub1⟩ := g
    rw [hg] at h
    simp only at h
    cases hf : fitdidv x.ls (fitPts p o.fs c) poles A0 B0 C0 t1 t2 t3 dt (some sub1) with
    | error e => rw [hf] at h; cases h
    | ok q =>
      obtain ⟨params, cov, cost⟩ := q
      rw [hf] at h
      simp only at h
      cases ht : findPoleFallTimes x.fsolve2 x.fsolve3 params with
      | error e => rw [ht] at h; cases h
      | ok ft =>
        rw [ht] at h
        simp only [fitResult] at h
        cases hc : convertTo params o.rsh o.r0 o.rp with
        | error e => rw [hc] at h; cases h
        | ok ssp =>
          rw [hc] at h
          simp only at h
          cases hy : complexadmittance 0 (sspArgs ssp) with
          | error e => rw [hy] at h; cases h
          | ok y =>
            rw [hy] at h
            cases h
            exact ⟨A0, B0, C0, t1, t2, t3, dt, sub1, cov, rfl, hf⟩

/-- The branch which the guess chooses. -/
theorem startGuess_branch {o : Obj} {p : Proc} {poles : ℕ} {g : ℝ × ℝ × ℝ × ℝ × ℝ × ℝ × ℝ} {sub1 : Bool}
    (h : startGuess o p poles = .ok (g, sub1)) :
    (poles = 1 → sub1 = false) ∧ (poles ≠ 1 → sub1 = guessSub1 p.trace p.flat) := by
  unfold startGuess at h
  split_ifs at h with h1 h2
  · cases hs : squareGuess p.trace o.sgamp o.rsh with
    | error e => rw [hs] at h; cases h
    | ok q => rw [hs] at h; cases h; exact ⟨fun _ => rfl, fun hn => absurd h1 hn⟩
  · cases hs : guessParams p.trace p.flat o.sgamp o.rsh (1 / 10 ^ 7) with
    | error e => rw [hs] at h; cases h
    | ok q => rw [hs] at h; cases h; exact ⟨fun hn => absurd hn h1, fun _ => rfl⟩
  · cases hr : o.res2 with
    | none =>
      rw [hr] at h
      simp only at h
      cases hs : guessParams p.trace p.flat o.sgamp o.rsh (1 / 10 ^ 7) with
      | error e => rw [hs] at h; cases h
      | ok q => rw [hs] at h; cases h; exact ⟨fun hn => absurd hn h1, fun _ => rfl⟩
    | some r =>
      rw [hr] at h
      simp only at h
      split at h
      · cases h; exact ⟨fun hn => absurd hn h1, fun _ => rfl⟩
      · cases h

/-- The points of a fit are the bins below the cut-off. -/
theorem mem_fitPts {p : Proc} {fs : ℝ} {c : Option ℝ} {q : Pt} : q ∈ fitPts p fs c ↔
    ∃ k < p.nbins, (∀ v ∈ c, |freqAt p.nbins fs k| < v) ∧ q = ⟨freqAt p.nbins fs k, p.didvmean k, p.didvstd k⟩ := by
  unfold fitPts
  simp only [List.mem_map, List.mem_filter, List.mem_range, decide_eq_true_eq]
  constructor
  · rintro ⟨k, ⟨h1, h2⟩, rfl⟩; exact ⟨k, h1, h2, rfl⟩
  · rintro ⟨k, h1, h2, rfl⟩; exact ⟨k, ⟨h1, h2⟩, rfl⟩

/-- What a successful `dofit` on processed data has run. -/
theorem dofit_run {x : Ext} {o : Obj} {p : Proc} {k : ℤ} {c : Option ℝ} (hp : o.proc = some p)
    (h : (dofit x o k c).1 = .ok ()) : ∃ n : ℕ, ∃ r, k = n ∧ (n = 1 ∨ n = 2 ∨ n = 3) ∧ runFit x o p n c = .ok r ∧
      fitresult (dofit x o k c).2 k = .found r := by
  have hrd : ready o = o := by unfold ready; rw [hp]
  rcases dofit_cases x o k c with ⟨e, h'⟩ | ⟨p', r, hq, rfl, hf, h'⟩ | ⟨p', r, hq, rfl, hf, h'⟩ |
    ⟨p', r, hq, rfl, hf, h'⟩
  · rw [h'] at h; cases h
  · rw [hrd] at hq hf; rw [hp] at hq; cases hq
    exact ⟨1, r, rfl, by simp, hf, by rw [h']; rfl⟩
  · rw [hrd] at hq hf; rw [hp] at hq; cases hq
    exact ⟨2, r, rfl, by simp, hf, by rw [h']; rfl⟩
  · rw [hrd] at hq hf; rw [hp] at hq; cases hq
    exact ⟨3, r, rfl, by simp, hf, by rw [h']; rfl⟩

theorem lmean_const {l : List ℝ} {a : ℝ} (hl : l ≠ []) (h : ∀ v ∈ l, v = a) : lmean l = a := by
  rw [List.eq_replicate_of_mem h]
  have : (l.length : ℝ) ≠ 0 := by exact_mod_cast (List.length_pos_iff.2 hl).ne'
  simp only [lmean, List.sum_replicate, List.length_replicate, nsmul_eq_mul]
  field_simp

theorem lstd_const {l : List ℝ} {a : ℝ} (hl : l ≠ []) (h : ∀ v ∈ l, v = a) : lstd l = 0 := by
  unfold lstd
  rw [lmean_const (a := 0) (by simpa using hl), Real.sqrt_zero]
  intro v hv
  obtain ⟨w, hw, rfl⟩ := List.mem_map.1 hv
  rw [lmean_const hl h, h w hw]
  ring

/-- Equal numbers have no spread. -/
theorem stdcomplex_const {l : List ℂ} {a : ℂ} (hl : l ≠ []) (h : ∀ v ∈ l, v = a) : stdcomplex l = 0 := by
  unfold stdcomplex
  rw [lstd_const (a := a.re) (by simpa using hl), lstd_const (a := a.im) (by simpa using hl)]
  · rfl
  · intro v hv; obtain ⟨w, hw, rfl⟩ := List.mem_map.1 hv; rw [h w hw]
  · intro v hv; obtain ⟨w, hw, rfl⟩ := List.mem_map.1 hv; rw [h w hw]

end Verif.Didv
