import Verif.DidvObjSpec
import Verif.DidvWaveLemmas
import Verif.DidvProps
import Mathlib.Algebra.Order.Floor.Semifield
import Mathlib.Data.Nat.Cast.Order.Field

/-! Lemmas for the DIDV classes. -/

namespace Verif.Didv
open Verif Dft OF

theorem nPeriods_eq {n p : ℕ} {sg : ℝ} (hp : 0 < p) (hs : 0 < sg) :
    nPeriods n (p * sg) sg = n / p := by
  have hpr : (p : ℝ) ≠ 0 := by exact_mod_cast hp.ne'
  have e : (n : ℝ) * (1 / (p * sg)) / (1 / sg) = n / p := by
    field_simp
  rw [nPeriods, e, Int.floor_toNat, Nat.floor_div_eq_div]

theorem trunc_nat_add {a : ℕ} {x : ℝ} (hx : 0 ≤ x) : trunc (a + x) = a + (⌊x⌋₊ : ℤ) := by
  unfold trunc
  rw [if_neg (not_lt.2 (by positivity)), add_comm, Int.floor_add_natCast, add_comm]
  congr 1
  exact (Int.natCast_floor_eq_floor hx).symm

theorem trunc_natCast (a : ℕ) : trunc (a : ℝ) = a := by
  unfold trunc
  rw [if_neg (not_lt.2 (by positivity)), Int.floor_natCast]

theorem nbins_eq {n p : ℕ} {sg : ℝ} (hp : 0 < p) (hs : 0 < sg) :
    nBins n (p * sg) sg = p * (n / p) := by
  rw [nBins, nPeriods_eq hp hs]
  have e : ((n / p : ℕ) : ℝ) * (p * sg) / sg = ((p * (n / p) : ℕ) : ℝ) := by
    push_cast
    field_simp
  rw [e, trunc_natCast, Int.toNat_natCast]

theorem mem_flatInds {nper p : ℕ} {sg dt0 : ℝ} (hs : 0 < sg) (i : ℤ) :
    i ∈ flatInds nper (p * nper) (p * sg) sg dt0 ↔ IsFlat p nper (trunc (dt0 * (p * sg))) i := by
  have hr : (p : ℝ) * sg / sg = p := by field_simp
  have t1 : ∀ j : ℕ, trunc (((j : ℝ) + 1 / 4) * (p * sg / sg)) = ((j * p + p / 4 : ℕ) : ℤ) := by
    intro j
    have e : ((j : ℝ) + 1 / 4) * (p * sg / sg) = ((j * p : ℕ) : ℝ) + (p : ℝ) / (4 : ℕ) := by
      rw [hr]
      push_cast
      ring
    rw [e, trunc_nat_add (by positivity), Nat.floor_div_eq_div]
    push_cast
    ring
  have t2 : ∀ j : ℕ, trunc (((j : ℝ) + 48 / 100) * (p * sg / sg)) =
      ((j * p + 48 * p / 100 : ℕ) : ℤ) := by
    intro j
    have e : ((j : ℝ) + 48 / 100) * (p * sg / sg) =
        ((j * p : ℕ) : ℝ) + ((48 * p : ℕ) : ℝ) / (100 : ℕ) := by
      rw [hr]
      push_cast
      ring
    rw [e, trunc_nat_add (by positivity), Nat.floor_div_eq_div]
    push_cast
    ring
  unfold flatInds IsFlat
  simp only [t1, t2, List.mem_filter, List.mem_flatMap, List.mem_range, List.mem_map,
    decide_eq_true_eq]
  constructor
  · rintro ⟨⟨j, hj, m, hm, rfl⟩, h1, h2⟩
    refine ⟨h1, by push_cast at h2; exact h2, j, hj, by omega, by omega⟩
  · rintro ⟨h1, h2, j, hj, h3, h4⟩
    exact ⟨⟨j, hj, (i - ((j * p + p / 4 : ℕ) + trunc (dt0 * (p * sg)))).toNat, by omega, by omega⟩, h1,
      by push_cast; exact h2⟩

theorem flatInds_valid {nper nb : ℕ} {fs sg dt0 : ℝ} {i : ℤ} (h : i ∈ flatInds nper nb fs sg dt0) :
    0 < i ∧ i < nb := by
  unfold flatInds at h
  simpa using (List.mem_filter.1 h).2

/-- The three ways `processtraces` may end. -/
theorem process_cases (o : Obj) :
    (o.raw = [] ∧ processtraces o = (.error .indexError, o)) ∨
    (o.raw ≠ [] ∧ nBins o.nraw o.fs o.sgfreq < 2 ∧ processtraces o = (.error .indexError, shiftDt0 o)) ∨
    (o.raw ≠ [] ∧ 2 ≤ nBins o.nraw o.fs o.sgfreq ∧ keptTraces o (nBins o.nraw o.fs o.sgfreq) = [] ∧
      processtraces o = (.error .nan, shiftDt0 o)) ∨
    (o.raw ≠ [] ∧ 2 ≤ nBins o.nraw o.fs o.sgfreq ∧ keptTraces o (nBins o.nraw o.fs o.sgfreq) ≠ [] ∧
      processtraces o = (.ok (), { shiftDt0 o with
        proc := some (procOf (shiftDt0 o) (nBins o.nraw o.fs o.sgfreq)
          (keptTraces o (nBins o.nraw o.fs o.sgfreq))) })) := by
  unfold processtraces
  by_cases h1 : o.raw = []
  · exact Or.inl ⟨h1, if_pos h1⟩
  · rw [if_neg h1]
    by_cases h2 : nBins o.nraw o.fs o.sgfreq < 2
    · exact Or.inr (Or.inl ⟨h1, h2, if_pos h2⟩)
    · rw [if_neg h2]
      by_cases h3 : keptTraces o (nBins o.nraw o.fs o.sgfreq) = []
      · exact Or.inr (Or.inr (Or.inl ⟨h1, not_lt.1 h2, h3, if_pos h3⟩))
      · exact Or.inr (Or.inr (Or.inr ⟨h1, not_lt.1 h2, h3, if_neg h3⟩))

/-- The offset after a call of `processtraces`. -/
theorem process_dt0 (o : Obj) (h : o.raw ≠ []) :
    (processtraces o).2.dt0 = if o.add180 then o.dt0 + 1 / (2 * o.sgfreq) else o.dt0 := by
  rcases process_cases o with ⟨h1, _⟩ | ⟨_, _, e⟩ | ⟨_, _, _, e⟩ | ⟨_, _, _, e⟩
  · exact absurd h1 h
  all_goals rw [e]; rfl

/-- The attributes which `processtraces` does not touch. -/
theorem process_keeps (o : Obj) : (processtraces o).2.raw = o.raw ∧ (processtraces o).2.nraw = o.nraw ∧
    (processtraces o).2.fs = o.fs ∧ (processtraces o).2.sgfreq = o.sgfreq ∧
    (processtraces o).2.sgamp = o.sgamp ∧ (processtraces o).2.rsh = o.rsh ∧
    (processtraces o).2.add180 = o.add180 ∧ (processtraces o).2.res1 = o.res1 ∧
    (processtraces o).2.res2 = o.res2 ∧ (processtraces o).2.res3 = o.res3 := by
  rcases process_cases o with ⟨_, e⟩ | ⟨_, _, e⟩ | ⟨_, _, _, e⟩ | ⟨_, _, _, e⟩ <;> rw [e] <;>
    exact ⟨rfl, rfl, rfl, rfl, rfl, rfl, rfl, rfl, rfl, rfl⟩

/-- A failing call leaves the processed data as they are. -/
theorem process_error {o : Obj} {e : Err} (h : (processtraces o).1 = .error e) :
    (processtraces o).2.proc = o.proc := by
  rcases process_cases o with ⟨_, e⟩ | ⟨_, _, e⟩ | ⟨_, _, _, e⟩ | ⟨_, _, _, e⟩ <;> rw [e] at h ⊢
  · rfl
  · rfl
  · cases h

/-- The object on which `dofit` works. -/
noncomputable def ready (o : Obj) : Obj :=
  match o.proc with
  | none => (processtraces o).2
  | some _ => o

theorem ready_keeps (o : Obj) : (ready o).res1 = o.res1 ∧ (ready o).res2 = o.res2 ∧
    (ready o).res3 = o.res3 ∧ (ready o).sgamp = o.sgamp ∧ (ready o).rsh = o.rsh := by
  unfold ready
  cases o.proc with
  | none =>
    obtain ⟨_, _, _, _, h1, h2, _, h3, h4, h5⟩ := process_keeps o
    exact ⟨h3, h4, h5, h1, h2⟩
  | some p => exact ⟨rfl, rfl, rfl, rfl, rfl⟩

/-- The ways `dofit` may end. -/
theorem dofit_cases (x : Ext) (o : Obj) (k : ℤ) (c : Option ℝ) :
    (∃ e, dofit x o k c = (.error e, ready o)) ∨
    (∃ p r, (ready o).proc = some p ∧ k = 1 ∧ runFit x (ready o) p 1 c = .ok r ∧
      dofit x o k c = (.ok (), { ready o with res1 := some r })) ∨
    (∃ p r, (ready o).proc = some p ∧ k = 2 ∧ runFit x (ready o) p 2 c = .ok r ∧
      dofit x o k c = (.ok (), { ready o with res2 := some r })) ∨
    (∃ p r, (ready o).proc = some p ∧ k = 3 ∧ runFit x (ready o) p 3 c = .ok r ∧
      dofit x o k c = (.ok (), { ready o with res3 := some r })) := by
  have key : ∀ o1 : Obj, ∀ p, o1.proc = some p →
      (let d : Except Err Unit × Obj :=
        if k = 1 then
          match runFit x o1 p 1 c with
          | .error e => (.error e, o1)
          | .ok r => (.ok (), { o1 with res1 := some r })
        else if k = 2 then
          match runFit x o1 p 2 c with
          | .error e => (.error e, o1)
          | .ok r => (.ok (), { o1 with res2 := some r })
        else if k = 3 then
          match runFit x o1 p 3 c with
          | .error e => (.error e, o1)
          | .ok r => (.ok (), { o1 with res3 := some r })
        else (.error .valueError, o1)
      (∃ e, d = (.error e, o1)) ∨
      (∃ p r, o1.proc = some p ∧ k = 1 ∧ runFit x o1 p 1 c = .ok r ∧
        d = (.ok (), { o1 with res1 := some r })) ∨
      (∃ p r, o1.proc = some p ∧ k = 2 ∧ runFit x o1 p 2 c = .ok r ∧
        d = (.ok (), { o1 with res2 := some r })) ∨
      (∃ p r, o1.proc = some p ∧ k = 3 ∧ runFit x o1 p 3 c = .ok r ∧
        d = (.ok (), { o1 with res3 := some r }))) := by
    intro o1 p hp
    simp only
    by_cases h1 : k = 1
    · rw [if_pos h1]
      cases hr : runFit x o1 p 1 c with
      | error e => exact Or.inl ⟨e, rfl⟩
      | ok r => exact Or.inr (Or.inl ⟨p, r, hp, h1, hr, rfl⟩)
    · rw [if_neg h1]
      by_cases h2 : k = 2
      · rw [if_pos h2]
        cases hr : runFit x o1 p 2 c with
        | error e => exact Or.inl ⟨e, rfl⟩
        | ok r => exact Or.inr (Or.inr (Or.inl ⟨p, r, hp, h2, hr, rfl⟩))
      · rw [if_neg h2]
        by_cases h3 : k = 3
        · rw [if_pos h3]
          cases hr : runFit x o1 p 3 c with
          | error e => exact Or.inl ⟨e, rfl⟩
          | ok r => exact Or.inr (Or.inr (Or.inr ⟨p, r, hp, h3, hr, rfl⟩))
        · rw [if_neg h3]
          exact Or.inl ⟨_, rfl⟩
  unfold dofit
  cases hp : o.proc with
  | some p =>
    have hr : ready o = o := by simp only [ready, hp]
    rw [hr]
    simp only [hp]
    have := key o p hp
    simp only [hp] at this
    exact this
  | none =>
    have hr : ready o = (processtraces o).2 := by simp only [ready, hp]
    rw [hr]
    simp only
    rcases hq : processtraces o with ⟨r, o1⟩
    cases r with
    | error e => exact Or.inl ⟨e, rfl⟩
    | ok u =>
      simp only
      cases hp1 : o1.proc with
      | none => exact Or.inl ⟨_, rfl⟩
      | some p =>
        simp only
        have := key o1 p hp1
        simp only [hp1] at this
        exact this

/-- A successful call of `processtraces` leaves processed data. -/
theorem process_ok {o : Obj} (h : (processtraces o).1 = .ok ()) :
    (processtraces o).2.proc = some (procOf (shiftDt0 o) (nBins o.nraw o.fs o.sgfreq)
      (keptTraces o (nBins o.nraw o.fs o.sgfreq))) ∧
    keptTraces o (nBins o.nraw o.fs o.sgfreq) ≠ [] ∧ 2 ≤ nBins o.nraw o.fs o.sgfreq := by
  rcases process_cases o with ⟨_, e⟩ | ⟨_, _, e⟩ | ⟨_, _, _, e⟩ | ⟨_, h2, h3, e⟩ <;> rw [e] at h ⊢
  · cases h
  · cases h
  · cases h
  · exact ⟨rfl, h3, h2⟩

/-- Results of `dofit`, in terms of the number of poles. -/
theorem dofit_results (x : Ext) (o : Obj) (k j : ℤ) (c : Option ℝ) :
    (j ≠ k ∨ (dofit x o k c).1 ≠ .ok () → fitresult (dofit x o k c).2 j = fitresult o j) ∧
    ((dofit x o k c).1 = .ok () → (k = 1 ∨ k = 2 ∨ k = 3) ∧
      ∃ r, fitresult (dofit x o k c).2 k = .found r) := by
  obtain ⟨e1, e2, e3, _, _⟩ := ready_keeps o
  have hr : fitresult (ready o) j = fitresult o j := by
    unfold fitresult
    rw [e1, e2, e3]
  rcases dofit_cases x o k c with ⟨e, h⟩ | ⟨p, r, hp, hk, hf, h⟩ | ⟨p, r, hp, hk, hf, h⟩ |
    ⟨p, r, hp, hk, hf, h⟩
  · rw [h]
    exact ⟨fun _ => hr, fun h => by cases h⟩
  all_goals
    rw [h]
    subst hk
    refine ⟨fun hj => ?_, fun _ => ⟨by decide, r, by simp [fitresult]⟩⟩
    have hj : j ≠ _ := hj.resolve_right (fun h => h rfl)
    rw [← hr]
    unfold fitresult
    simp only
    split_ifs <;> first | rfl | exact absurd ‹_› hj

/-- A stored two-pole result lies within the bounds of the fit, and the flat indices are indices of the
trace. -/
structure Inv (o : Obj) : Prop where
  res2 : ∀ r, o.res2 = some r → ∃ A B tau1 tau2 dt, r.params = [A, B, tau1, tau2, dt] ∧ 0 ≤ A ∧ 0 ≤ tau2
  flat : ∀ p, o.proc = some p → ∀ i ∈ p.flatinds, 0 < i ∧ i < p.nbins

theorem inv_process {o : Obj} (h : Inv o) : Inv (processtraces o).2 := by
  obtain ⟨_, _, _, _, _, _, _, _, e2, _⟩ := process_keeps o
  refine ⟨fun r hr => h.res2 r (by rw [← e2]; exact hr), fun p hp => ?_⟩
  cases hq : (processtraces o).1 with
  | error e => exact h.flat p (by rw [← process_error hq]; exact hp)
  | ok u =>
    rw [(process_ok hq).1] at hp
    cases hp
    intro i hi
    exact flatInds_valid hi

theorem inv_ready {o : Obj} (h : Inv o) : Inv (ready o) := by
  unfold ready
  cases o.proc with
  | none => exact inv_process h
  | some p => exact h

theorem fitResult_params {params ft : List ℝ} {cov : List (List ℝ)} {cost rsh rp r0 : ℝ} {r : Result}
    (h : fitResult params cov ft cost rsh rp r0 = .ok r) :
    r.params = params ∧ convertTo params rsh r0 rp = .ok r.ssp ∧
      ∃ y, complexadmittance 0 (sspArgs r.ssp) = .ok y ∧ r.didv0 = y.re := by
  unfold fitResult at h
  cases hc : convertTo params rsh r0 rp with
  | error e => rw [hc] at h; cases h
  | ok s =>
    rw [hc] at h
    simp only at h
    cases hy : complexadmittance 0 (sspArgs s) with
    | error e => rw [hy] at h; cases h
    | ok y =>
      rw [hy] at h
      cases h
      exact ⟨rfl, rfl, y, hy, rfl⟩

theorem leastSquares_ok {ls : LS} {res : List ℝ → Except Err (List ℝ)} {p0 xs : List ℝ}
    {b : List (Option ℝ × Option ℝ)} {r : LsOut} (h : leastSquares ls res p0 b xs = .ok r) :
    List.Forall₂ inB p0 b ∧ (∀ s ∈ xs, 0 < s) ∧ (∃ v, res p0 = .ok v) ∧ r = ls res p0 b := by
  unfold leastSquares at h
  by_cases h1 : List.Forall₂ inB p0 b
  · rw [if_neg (not_not.2 h1)] at h
    by_cases h2 : ∃ s ∈ xs, s ≤ 0
    · rw [if_pos h2] at h; cases h
    · rw [if_neg h2] at h
      push Not at h2
      cases h3 : res p0 with
      | error e => rw [h3] at h; cases h
      | ok v =>
        rw [h3] at h
        cases h
        exact ⟨h1, h2, ⟨v, rfl⟩, rfl⟩
  · rw [if_pos h1] at h; cases h

/-- The starting point and bounds of a fit. -/
def chosen (poles : ℕ) (A0 B0 C0 tau10 tau20 tau30 dt : ℝ) (sub1 : Bool) :
    List ℝ × List (Option ℝ × Option ℝ) :=
  let s := starts poles A0 B0 C0 tau10 tau20 tau30 dt
  if sub1 then (s.2.2.1, s.2.2.2) else (s.1, s.2.1)

theorem fitdidv_ok {ls : LS} {pts : List Pt} {poles : ℕ} {A0 B0 C0 t1 t2 t3 dt : ℝ} {sub1 : Bool}
    {params : List ℝ} {cov : List (List ℝ)} {cost : ℝ}
    (h : fitdidv ls pts poles A0 B0 C0 t1 t2 t3 dt (some sub1) = .ok (params, cov, cost)) :
    leastSquares ls (residual pts) (chosen poles A0 B0 C0 t1 t2 t3 dt sub1).1
      (chosen poles A0 B0 C0 t1 t2 t3 dt sub1).2
      ((starts poles A0 B0 C0 t1 t2 t3 dt).1.map abs) = .ok ⟨params, cost, .ok cov⟩ := by
  unfold fitdidv at h
  cases sub1 with
  | true =>
    simp only at h
    change leastSquares ls (residual pts) (starts poles A0 B0 C0 t1 t2 t3 dt).2.2.1
      (starts poles A0 B0 C0 t1 t2 t3 dt).2.2.2 _ = _
    cases hl : leastSquares ls (residual pts) (starts poles A0 B0 C0 t1 t2 t3 dt).2.2.1
      (starts poles A0 B0 C0 t1 t2 t3 dt).2.2.2 ((starts poles A0 B0 C0 t1 t2 t3 dt).1.map abs) with
    | error e => rw [hl] at h; cases h
    | ok r =>
      rw [hl] at h
      obtain ⟨rx, rc, rv⟩ := r
      cases rv with
      | error e => cases h
      | ok c => cases h; rfl
  | false =>
    simp only at h
    change leastSquares ls (residual pts) (starts poles A0 B0 C0 t1 t2 t3 dt).1
      (starts poles A0 B0 C0 t1 t2 t3 dt).2.1 _ = _
    cases hl : leastSquares ls (residual pts) (starts poles A0 B0 C0 t1 t2 t3 dt).1
      (starts poles A0 B0 C0 t1 t2 t3 dt).2.1 ((starts poles A0 B0 C0 t1 t2 t3 dt).1.map abs) with
    | error e => rw [hl] at h; cases h
    | ok r =>
      rw [hl] at h
      obtain ⟨rx, rc, rv⟩ := r
      cases rv with
      | error e => cases h
      | ok c => cases h; rfl

/-- The steps of a successful fit. -/
theorem runFit_ok {x : Ext} {o : Obj} {p : Proc} {poles : ℕ} {c : Option ℝ} {r : Result}
    (h : runFit x o p poles c = .ok r) :
    ∃ A0 B0 C0 t1 t2 t3 dt sub1 params cov cost ft,
      startGuess o p poles = .ok ((A0, B0, C0, t1, t2, t3, dt), sub1) ∧
      leastSquares x.ls (residual (fitPts p o.fs c)) (chosen poles A0 B0 C0 t1 t2 t3 dt sub1).1
        (chosen poles A0 B0 C0 t1 t2 t3 dt sub1).2
        ((starts poles A0 B0 C0 t1 t2 t3 dt).1.map abs) = .ok ⟨params, cost, .ok cov⟩ ∧
      findPoleFallTimes x.fsolve2 x.fsolve3 params = .ok ft ∧
      fitResult params cov ft cost o.rsh o.rp o.r0 = .ok r := by
  unfold runFit at h
  cases hg : startGuess o p poles with
  | error e => rw [hg] at h; cases e <;> cases h
  | ok g =>
    obtain ⟨⟨A0, B0, C0, t1, t2, t3, dt⟩, sub1⟩ := g
    rw [hg] at h
    simp only at h
    cases hf : fitdidv x.ls (fitPts p o.fs c) poles A0 B0 C0 t1 t2 t3 dt (some sub1) with
    | error e => rw [hf] at h; cases h
    | ok q =>
      obtain ⟨params, cov, cost⟩ := q
      rw [hf] at h
      simp only at h
      cases ht : findPoleFallTimes x.fsolve2 x.fsolve3 params with
      | error e => rw [ht] at h; cases h
      | ok ft =>
        rw [ht] at h
        exact ⟨A0, B0, C0, t1, t2, t3, dt, sub1, params, cov, cost, ft, rfl, fitdidv_ok hf, ht, h⟩

theorem inv_dofit {x : Ext} (hx : Feasible x.ls) {o : Obj} (h : Inv o) (k : ℤ) (c : Option ℝ) :
    Inv (dofit x o k c).2 := by
  have hr := inv_ready h
  rcases dofit_cases x o k c with ⟨e, hd⟩ | ⟨p, r, hp, hk, hf, hd⟩ | ⟨p, r, hp, hk, hf, hd⟩ |
    ⟨p, r, hp, hk, hf, hd⟩
  · rw [hd]; exact hr
  · rw [hd]; exact ⟨hr.res2, hr.flat⟩
  · rw [hd]
    refine ⟨fun r' hr' => ?_, hr.flat⟩
    cases hr'
    obtain ⟨A0, B0, C0, t1, t2, t3, dt, sub1, params, cov, cost, ft, hg, hl, _, hres⟩ := runFit_ok hf
    obtain ⟨hb, _, _, hx'⟩ := leastSquares_ok hl
    have hxb := hx (residual (fitPts p (ready o).fs c)) _ _ hb
    rw [← hx'] at hxb
    obtain ⟨hp1, _⟩ := fitResult_params hres
    have hpar : ∃ A B tau1 tau2 dt, params = [A, B, tau1, tau2, dt] ∧ 0 ≤ A ∧ 0 ≤ tau2 := by
      cases sub1 with
      | true =>
        change List.Forall₂ inB params [(some 0, none), (some 0, none), (some 0, none), (some 0, none),
          (none, none)] at hxb
        rcases hxb with _ | ⟨ha, _ | ⟨hb, _ | ⟨hc, _ | ⟨hd, _ | ⟨he, hnil⟩⟩⟩⟩⟩
        cases hnil
        exact ⟨_, _, _, _, _, rfl, ha.1 0 rfl, hd.1 0 rfl⟩
      | false =>
        change List.Forall₂ inB params [(some 0, none), (none, some 0), (none, some 0), (some 0, none),
          (none, none)] at hxb
        rcases hxb with _ | ⟨ha, _ | ⟨hb, _ | ⟨hc, _ | ⟨hd, _ | ⟨he, hnil⟩⟩⟩⟩⟩
        cases hnil
        exact ⟨_, _, _, _, _, rfl, ha.1 0 rfl, hd.1 0 rfl⟩
    obtain ⟨A, B, tau1, tau2, dt, e, h0, h1⟩ := hpar
    exact ⟨A, B, tau1, tau2, dt, by rw [hp1, e], h0, h1⟩
  · rw [hd]; exact ⟨hr.res2, hr.flat⟩

theorem inv_fresh {o : Obj} (h : Fresh o) : Inv o :=
  ⟨fun r hr => (by rw [h.2.2.1] at hr; cases hr), fun p hp => (by rw [h.1] at hp; cases hp)⟩

theorem inv_run {x : Ext} (hx : Feasible x.ls) (h : List Call) : ∀ {o : Obj}, Inv o → Inv (run x o h) := by
  induction h with
  | nil => exact fun h => h
  | cons c cs ih =>
    intro o ho
    cases c with
    | process => exact ih (inv_process ho)
    | fit k f => exact ih (inv_dofit hx ho k f)

theorem le_lmax {l : List ℝ} {a : ℝ} (h : a ∈ l) : a ≤ lmax l := by
  unfold lmax
  generalize l.headD 0 = d
  induction l with
  | nil => cases h
  | cons b l ih =>
    rw [List.foldr_cons]
    rcases List.mem_cons.1 h with rfl | h
    · exact le_max_left _ _
    · exact (ih h).trans (le_max_right _ _)

theorem lmin_le {l : List ℝ} {a : ℝ} (h : a ∈ l) : lmin l ≤ a := by
  unfold lmin
  generalize l.headD 0 = d
  induction l with
  | nil => cases h
  | cons b l ih =>
    rw [List.foldr_cons]
    rcases List.mem_cons.1 h with rfl | h
    · exact min_le_left _ _
    · exact (min_le_right _ _).trans (ih h)

theorem lmin_le_lmax (l : List ℝ) : lmin l ≤ lmax l := by
  cases l with
  | nil => simp [lmin, lmax]
  | cons a l => exact (lmin_le (List.mem_cons_self)).trans (le_lmax (List.mem_cons_self))

theorem lmean_le {l : List ℝ} {M : ℝ} (hne : l ≠ []) (h : ∀ a ∈ l, a ≤ M) : lmean l ≤ M := by
  unfold lmean
  have hl : 0 < (l.length : ℝ) := by exact_mod_cast List.length_pos_iff.2 hne
  rw [div_le_iff₀ hl, mul_comm]
  have := List.sum_le_card_nsmul l M h
  simpa using this

/-- Signs of the guess. -/
theorem guessParams_signs {trace flat : List ℝ} {sgamp rsh L0 A B t1 t2 : ℝ}
    (h : guessParams trace flat sgamp rsh L0 = .ok (A, B, t1, t2)) (hp : 0 < sgamp * rsh) (hL : 0 < L0)
    (hf : ∀ a ∈ flat, a ∈ trace) : 0 < A ∧ B ≤ 0 ∧ t1 < 0 ∧ 0 < t2 := by
  unfold guessParams at h
  by_cases h0 : flat = [] ∨ sgamp * rsh = 0
  · rw [if_pos h0] at h; cases h
  · rw [if_neg h0] at h
    simp only at h
    by_cases h1 : 2 * |lmean flat - lmean trace| / (sgamp * rsh) = 0 ∨
      (lmax trace - lmean flat) / (sgamp * rsh) = 0
    · rw [if_pos h1] at h; cases h
    · rw [if_neg h1] at h
      push Not at h0 h1
      have hm : lmean flat ≤ lmax trace := lmean_le h0.1 fun a ha => le_lmax (hf a ha)
      have hd : 0 < (lmax trace - lmean flat) / (sgamp * rsh) :=
        lt_of_le_of_ne (div_nonneg (by linarith) hp.le) (Ne.symm h1.2)
      have hd0 : 0 ≤ 2 * |lmean flat - lmean trace| / (sgamp * rsh) := by positivity
      have hA : 0 < 1 / ((lmax trace - lmean flat) / (sgamp * rsh)) := one_div_pos.2 hd
      by_cases hs : guessSub1 trace flat = true
      · rw [if_pos hs] at h
        cases h
        refine ⟨hA, ?_, by norm_num, div_pos hL hA⟩
        split_ifs with hB
        · linarith
        · exact not_lt.1 hB
      · rw [if_neg hs] at h
        cases h
        refine ⟨hA, ?_, by norm_num, div_pos hL hA⟩
        have : 0 ≤ 1 / (2 * |lmean flat - lmean trace| / (sgamp * rsh)) := by positivity
        have e : -1 / (2 * |lmean flat - lmean trace| / (sgamp * rsh)) =
          -(1 / (2 * |lmean flat - lmean trace| / (sgamp * rsh))) := by ring
        rw [e]
        linarith

theorem flat_mem_trace {p : Proc} (h : ∀ i ∈ p.flatinds, 0 < i ∧ i < p.nbins) :
    ∀ a ∈ p.flat, a ∈ p.trace := by
  intro a ha
  obtain ⟨i, hi, rfl⟩ := List.mem_map.1 ha
  obtain ⟨h1, h2⟩ := h i hi
  exact List.mem_map.2 ⟨i.toNat, List.mem_range.2 (by omega), rfl⟩

theorem fftR_lsum {n : ℕ} [NeZero n] (ts : List (ℕ → ℝ)) (k : ZMod n) :
    fftR (fun j : ZMod n => (ts.map fun t => t j.val).sum) k =
      (ts.map fun t => fftR (fun j : ZMod n => t j.val) k).sum := by
  induction ts with
  | nil =>
    rw [fftR_apply]
    simp
  | cons t ts ih =>
    simp only [List.map_cons, List.sum_cons]
    rw [← ih]
    exact fftR_add (fun j : ZMod n => t j.val) (fun j : ZMod n => (ts.map fun t => t j.val).sum) k

/-- The DFT of an average. -/
theorem fftR_lmean {n : ℕ} [NeZero n] (ts : List (ℕ → ℝ)) (k : ZMod n) :
    fftR (fun j : ZMod n => lmean (ts.map fun t => t j.val)) k =
      cmean (ts.map fun t => fftR (fun j : ZMod n => t j.val) k) := by
  unfold lmean cmean
  simp only [List.length_map]
  rw [← fftR_lsum, div_eq_inv_mul]
  have e : (fun j : ZMod n => (ts.map fun t => t j.val).sum / (ts.length : ℝ)) =
      fun j : ZMod n => (ts.length : ℝ)⁻¹ * (ts.map fun t => t j.val).sum := by
    funext j
    rw [div_eq_inv_mul]
  rw [e]
  have := fftR_smul (ts.length : ℝ)⁻¹ (fun j : ZMod n => (ts.map fun t => t j.val).sum) k
  rw [this]
  push_cast
  rfl

theorem cmean_div (l : List ℂ) (c : ℂ) : cmean (l.map fun z => z / c) = cmean l / c := by
  unfold cmean
  have : (l.map fun z => z / c).sum = l.sum / c := by
    induction l with
    | nil => simp
    | cons a l ih => simp only [List.map_cons, List.sum_cons, ih, add_div]
  rw [this, List.length_map, div_right_comm]

/-- An unflagged value of the deconvolution at a bin with drive. -/
theorem deconvolve_unflagged {n : ℕ} [NeZero n] {dx rsh sgamp sgfreq duty : ℝ} {tr : ZMod n → ℝ}
    {k : ZMod n} {y : ℂ} (hk : k.val ≠ n / 2)
    (hf : (deconvolve dx tr rsh sgamp sgfreq duty k).2 = false)
    (hy : (deconvolve dx tr rsh sgamp sgfreq duty k).1 = .ok y) :
    y = fftR tr k / sqWave dx sgamp rsh sgfreq duty k := by
  unfold deconvolve at hf hy
  simp only [if_neg hk] at hf hy
  by_cases h0 : fftR tr k = 0
  · rw [if_pos h0] at hy; cases hy
  · rw [if_neg h0] at hf hy
    by_cases h1 : ‖sqWave dx sgamp rsh sgfreq duty k / fftR tr k‖ < 1 / 10 ^ 16
    · rw [if_pos h1] at hf; cases hf
    · rw [if_neg h1] at hy
      cases hy
      rw [one_div_div]

theorem stdcomplex_single (v : ℂ) : stdcomplex [v] = 0 := by
  simp [stdcomplex, lstd, lmean]
  rfl

theorem residual_errs {pts : List Pt} {params r : List ℝ} (h : residual pts params = .ok r) :
    ∀ p ∈ pts, p.err.re ≠ 0 ∧ p.err.im ≠ 0 := by
  induction pts generalizing r with
  | nil => intro p hp; cases hp
  | cons q ps ih =>
    simp only [residual] at h
    cases hc : fitY q.f params with
    | error e =>
      rw [hc] at h
      cases h
    | ok c =>
      cases hr : residual ps params with
      | error e =>
        rw [hc, hr] at h
        cases h
      | ok r' =>
        rw [hc, hr] at h
        simp only at h
        by_cases h0 : q.err.re = 0 ∨ q.err.im = 0
        · rw [if_pos h0] at h; cases h
        · push Not at h0
          intro p hp
          rcases List.mem_cons.1 hp with rfl | hp
          · exact h0
          · exact ih hr p hp

/-- The scale of the time shift is the last scale. -/
theorem scale_dt (poles : ℕ) (A0 B0 C0 t1 t2 t3 dt : ℝ) :
    |dt| ∈ (starts poles A0 B0 C0 t1 t2 t3 dt).1.map abs := by
  unfold starts
  simp only
  split_ifs <;> simp

/-- The time shift from which a fit starts when there is no two-pole result. -/
theorem startGuess_dt {o : Obj} {p : Proc} {poles : ℕ} {A0 B0 C0 t1 t2 t3 dt : ℝ} {sub1 : Bool}
    (h : startGuess o p poles = .ok ((A0, B0, C0, t1, t2, t3, dt), sub1)) (h2 : o.res2 = none) :
    dt = o.dt0 := by
  unfold startGuess at h
  split_ifs at h with h1 h3
  · cases hs : squareGuess p.trace o.sgamp o.rsh with
    | error e => rw [hs] at h; cases h
    | ok g => rw [hs] at h; cases h; rfl
  · cases hs : guessParams p.trace p.flat o.sgamp o.rsh (1 / 10 ^ 7) with
    | error e => rw [hs] at h; cases h
    | ok g => rw [hs] at h; cases h; rfl
  · rw [h2] at h
    cases hs : guessParams p.trace p.flat o.sgamp o.rsh (1 / 10 ^ 7) with
    | error e => rw [hs] at h; cases h
    | ok g => rw [hs] at h; cases h; rfl

/-- The starting guesses are within the bounds. -/
theorem startGuess_feasible {o : Obj} (hi : Inv o) {p : Proc} (hp : o.proc = some p)
    (hpos : 0 < o.sgamp * o.rsh) {poles : ℕ} {A0 B0 C0 t1 t2 t3 dt : ℝ} {sub1 : Bool}
    (h : startGuess o p poles = .ok ((A0, B0, C0, t1, t2, t3, dt), sub1)) :
    List.Forall₂ inB (chosen poles A0 B0 C0 t1 t2 t3 dt sub1).1
      (chosen poles A0 B0 C0 t1 t2 t3 dt sub1).2 := by
  have hmem := flat_mem_trace (hi.flat p hp)
  have bpos : ∀ x : ℝ, 0 ≤ x → inB x (some 0, none) := fun x hx =>
    ⟨fun l hl => (by cases hl; exact hx), fun u hu => (by cases hu)⟩
  have bneg : ∀ x : ℝ, x ≤ 0 → inB x (none, some 0) := fun x hx =>
    ⟨fun u hu => (by cases hu), fun l hl => (by cases hl; exact hx)⟩
  have bfree : ∀ x : ℝ, inB x (none, none) := fun x =>
    ⟨fun u hu => (by cases hu), fun u hu => (by cases hu)⟩
  have key3 : ∀ (A B t1 t2 dt : ℝ) (s : Bool), 0 ≤ A → 0 ≤ t2 → ¬ poles = 1 → ¬ poles = 2 →
      List.Forall₂ inB (chosen poles A (-|B|) (-5 / 100) (-|t1|) t2 (1 / 10 ^ 3) dt s).1
        (chosen poles A (-|B|) (-5 / 100) (-|t1|) t2 (1 / 10 ^ 3) dt s).2 := by
    intro A B t1 t2 dt s hA ht h1 h2
    unfold chosen starts
    simp only [if_neg h1, if_neg h2]
    have a1 := abs_nonneg B
    have a2 := abs_nonneg t1
    cases s with
    | true =>
      exact .cons (bpos _ hA) (.cons (bpos _ (by linarith)) (.cons (bpos _ (by norm_num))
        (.cons (bpos _ (by linarith)) (.cons (bpos _ ht) (.cons (bpos _ (by norm_num))
        (.cons (bfree _) .nil))))))
    | false =>
      exact .cons (bpos _ hA) (.cons (bneg _ (by linarith)) (.cons (bneg _ (by norm_num))
        (.cons (bneg _ (by linarith)) (.cons (bpos _ ht) (.cons (bpos _ (by norm_num))
        (.cons (bfree _) .nil))))))
  unfold startGuess at h
  by_cases h1 : poles = 1
  · rw [if_pos h1] at h
    cases hs : squareGuess p.trace o.sgamp o.rsh with
    | error e => rw [hs] at h; cases h
    | ok g =>
      rw [hs] at h
      unfold squareGuess at hs
      by_cases h0 : lmax p.trace - lmin p.trace = 0
      · rw [if_pos h0] at hs; cases hs
      · rw [if_neg h0] at hs
        cases hs
        cases h
        have hd : 0 < lmax p.trace - lmin p.trace :=
          lt_of_le_of_ne (sub_nonneg.2 (lmin_le_lmax _)) (Ne.symm h0)
        unfold chosen starts
        simp only [if_pos h1]
        exact .cons (bpos _ (div_pos hpos hd).le) (.cons (bpos _ (by norm_num)) (.cons (bfree _) .nil))
  · rw [if_neg h1] at h
    by_cases h2 : poles = 2
    · rw [if_pos h2] at h
      cases hs : guessParams p.trace p.flat o.sgamp o.rsh (1 / 10 ^ 7) with
      | error e => rw [hs] at h; cases h
      | ok g =>
        obtain ⟨gA, gB, g1, g2⟩ := g
        rw [hs] at h
        obtain ⟨s1, s2, s3, s4⟩ := guessParams_signs hs hpos (by norm_num) hmem
        simp only at h
        injection h with h
        obtain ⟨⟨rfl, rfl, rfl, rfl, rfl, rfl, rfl⟩, rfl⟩ := (by simpa using h :
          (gA = A0 ∧ gB = B0 ∧ _ = C0 ∧ g1 = t1 ∧ g2 = t2 ∧ _ = t3 ∧ _ = dt) ∧ _ = sub1)
        unfold chosen starts
        simp only [if_neg h1, if_pos h2]
        cases guessSub1 p.trace p.flat with
        | true =>
          exact .cons (bpos _ s1.le) (.cons (bpos _ (by linarith)) (.cons (bpos _ (by linarith))
            (.cons (bpos _ s4.le) (.cons (bfree _) .nil))))
        | false =>
          exact .cons (bpos _ s1.le) (.cons (bneg _ s2) (.cons (bneg _ s3.le)
            (.cons (bpos _ s4.le) (.cons (bfree _) .nil))))
    · rw [if_neg h2] at h
      cases hr : o.res2 with
      | none =>
        rw [hr] at h
        simp only at h
        cases hs : guessParams p.trace p.flat o.sgamp o.rsh (1 / 10 ^ 7) with
        | error e => rw [hs] at h; cases h
        | ok g =>
          obtain ⟨gA, gB, g1, g2⟩ := g
          rw [hs] at h
          obtain ⟨s1, s2, s3, s4⟩ := guessParams_signs hs hpos (by norm_num) hmem
          simp only at h
          cases h
          exact key3 _ _ _ _ _ _ s1.le s4.le h1 h2
      | some r =>
        obtain ⟨A, B, tau1, tau2, dt', e, e1, e2⟩ := hi.res2 r hr
        rw [hr] at h
        simp only [e] at h
        cases h
        exact key3 _ _ _ _ _ _ e1 e2 h1 h2

/-- The admittance from the small signal parameters of a fit, by number of poles. -/
theorem ssp_admittance {params ft : List ℝ} {cov : List (List ℝ)} {cost rsh rp r0 : ℝ} {r : Result}
    (h : fitResult params cov ft cost rsh rp r0 = .ok r) :
    (∃ A tau2 dt, params = [A, tau2, dt] ∧ A ≠ 0 ∧
      ∀ f, complexadmittance f (sspArgs r.ssp) = onePoleY f A tau2) ∨
    (∃ A B tau1 tau2 dt, params = [A, B, tau1, tau2, dt] ∧
      ∀ f, complexadmittance f (sspArgs r.ssp) = twoPoleY f A B tau1 tau2) ∨
    (∃ A B C tau1 tau2 tau3 dt, params = [A, B, C, tau1, tau2, tau3, dt] ∧
      ∀ f, complexadmittance f (sspArgs r.ssp) = threePoleY f A B C tau1 tau2 tau3) := by
  obtain ⟨-, hc, y, hy, -⟩ := fitResult_params h
  clear h
  have hne : ∀ A B : ℝ, r0 ≠ 0 → A + B + r0 - (rsh + rp) ≠ 0 →
      ¬ (1 - B / (A + B + r0 - (rsh + rp)) = 0 ∨
        rsh + rp + r0 * (1 + ((A - (rsh + rp)) / r0 - 1)) = 0) →
      A ≠ 0 ∧ A + r0 - (rsh + rp) ≠ 0 := by
    intro A B hr hD hn
    push Not at hn
    constructor
    · intro hA
      refine hn.2 ?_
      have : rsh + rp + r0 * (1 + ((A - (rsh + rp)) / r0 - 1)) = A := by
        field_simp
        ring
      rw [this, hA]
    · intro hN
      refine hn.1 ?_
      rw [sub_eq_zero, eq_comm, div_eq_one_iff_eq hD]
      linarith
  generalize r.ssp = s at *
  unfold convertTo at hc
  split at hc
  · rename_i A tau2 dt
    left
    cases hc
    have hp : poleExtractor (sspArgs [rsh, A - rsh, A * tau2, dt]) = .ok 1 := by
      simp [poleExtractor, sspArgs]
    have hA : A ≠ 0 := by
      intro hA
      unfold complexadmittance compleximpedance at hy
      simp only [hp] at hy
      have hcf : convertFrom [rsh, A - rsh, A * tau2, 0] = .error .zeroDivision :=
        if_pos (by rw [hA]; ring)
      simp only [sspArgs, Option.getD_some, hcf] at hy
      cases hy
    refine ⟨A, tau2, dt, rfl, hA, fun f => ?_⟩
    have e1 : rsh + (A - rsh) = A := by ring
    unfold complexadmittance compleximpedance
    simp only [hp]
    have hcf : convertFrom [rsh, A - rsh, A * tau2, 0] = .ok [A, tau2, 0] := by
      simp only [convertFrom, e1]
      rw [if_neg hA, mul_div_cancel_left₀ _ hA]
    simp only [sspArgs, Option.getD_some, hcf]
    rfl
  · rename_i A B tau1 tau2 dt
    right; left
    simp only at hc
    by_cases h0 : r0 = 0 ∨ A + B + r0 - (rsh + rp) = 0
    · rw [if_pos h0] at hc; cases hc
    · rw [if_neg h0] at hc
      push Not at h0
      cases hc
      refine ⟨A, B, tau1, tau2, dt, rfl, ?_⟩
      have hp : ∀ a b c d e f g h, poleExtractor (sspArgs [a, b, c, d, e, f, g, h]) = .ok 2 := by
        intros
        simp [poleExtractor, sspArgs]
      have hn : ¬ (1 - B / (A + B + r0 - (rsh + rp)) = 0 ∨
          rsh + rp + r0 * (1 + ((A - (rsh + rp)) / r0 - 1)) = 0) := by
        intro hn
        unfold complexadmittance compleximpedance at hy
        simp only [hp] at hy
        have hcf : convertFrom [rsh, rp, r0, (A - (rsh + rp)) / r0 - 1, B / (A + B + r0 - (rsh + rp)), A * tau2, tau1 * (A + r0 - (rsh + rp)) /
          (A + B + r0 - (rsh + rp)), 0] =
          .error .zeroDivision := if_pos hn
        simp only [sspArgs, Option.getD_some, hcf] at hy
        cases hy
      obtain ⟨hA, hN⟩ := hne A B h0.1 h0.2 hn
      obtain ⟨_, ⟨q, hq, _, hq2⟩, _⟩ := fit_roundtrip (C := 0) (tau1 := tau1) (tau2 := tau2) (tau3 := 0)
        (dt := 0) hA h0.1 h0.2 hN
      simp only [convertTo] at hq
      rw [if_neg (not_or.2 h0)] at hq
      cases hq
      intro f
      unfold complexadmittance compleximpedance
      simp only [hp]
      simp only [sspArgs, Option.getD_some, hq2]
      rfl
  · rename_i A B C tau1 tau2 tau3 dt
    right; right
    simp only at hc
    by_cases h0 : r0 = 0 ∨ A + B + r0 - (rsh + rp) = 0
    · rw [if_pos h0] at hc; cases hc
    · rw [if_neg h0] at hc
      push Not at h0
      cases hc
      refine ⟨A, B, C, tau1, tau2, tau3, dt, rfl, ?_⟩
      have hp : ∀ a b c d e f g h i j, poleExtractor (sspArgs [a, b, c, d, e, f, g, h, i, j]) = .ok 3 := by
        intros
        simp [poleExtractor, sspArgs]
      have hn : ¬ (1 - B / (A + B + r0 - (rsh + rp)) = 0 ∨
          rsh + rp + r0 * (1 + ((A - (rsh + rp)) / r0 - 1)) = 0) := by
        intro hn
        unfold complexadmittance compleximpedance at hy
        simp only [hp] at hy
        have hcf : convertFrom [rsh, rp, r0, (A - (rsh + rp)) / r0 - 1, B / (A + B + r0 - (rsh + rp)), A * tau2, tau1 * (A + r0 - (rsh + rp)) /
          (A + B + r0 - (rsh + rp)), C * (A + r0 - (rsh + rp)) / (A + B + r0 - (rsh + rp)), tau3, 0] =
          .error .zeroDivision := if_pos hn
        simp only [sspArgs, Option.getD_some, hcf] at hy
        cases hy
      obtain ⟨hA, hN⟩ := hne A B h0.1 h0.2 hn
      obtain ⟨_, _, ⟨q, hq, _, hq2⟩⟩ := fit_roundtrip (C := C) (tau1 := tau1) (tau2 := tau2)
        (tau3 := tau3) (dt := 0) hA h0.1 h0.2 hN
      simp only [convertTo] at hq
      rw [if_neg (not_or.2 h0)] at hq
      cases hq
      intro f
      unfold complexadmittance compleximpedance
      simp only [hp]
      simp only [sspArgs, Option.getD_some, hq2]
      rfl
  · cases hc

/-! ### A concrete object -/

/-- A spike at the first sample. -/
noncomputable def spike (a : ℝ) (i : ℕ) : ℝ := if i = 0 then a else 0

/-- Three samples per period, traces of seven samples. -/
noncomputable def exObj (raw : List (ℕ → ℝ)) (add180 : Bool) (dt0 : ℝ) : Obj :=
  ⟨raw, 7, 1, 1 / 3, 1, 1, 1, 1, 1, 1 / 2, add180, dt0, none, none, none, none⟩

theorem exObj_per (raw : List (ℕ → ℝ)) (b : Bool) (d : ℝ) : SamplesPerPeriod (exObj raw b d) 3 := by
  refine ⟨by norm_num, ?_, ?_⟩ <;> norm_num [exObj]

theorem exObj_nbins : nBins 7 1 (1 / 3) = 6 := by
  have := nbins_eq (p := 3) (n := 7) (sg := 1 / 3) (by norm_num) (by norm_num)
  rw [show ((3 : ℕ) : ℝ) * (1 / 3) = 1 by norm_num] at this
  exact this

theorem fft_spike (a : ℝ) (k : ZMod 6) : fftR (fun j : ZMod 6 => spike a j.val / 1) k = a := by
  rw [fftR_apply, Finset.sum_eq_single 0]
  · simp [spike]
  · intro j _ hj
    have : j.val ≠ 0 := fun h => hj ((ZMod.val_eq_zero j).1 h)
    simp [spike, this]
  · intro h
    exact absurd (Finset.mem_univ _) h

theorem spike_deconv {a : ℝ} (ha : a ≠ 0) (k : ℕ) :
    ∃ y, (deconvAt 6 (1 / 1) (fun i => spike a i / 1) 1 1 (1 / 3) (1 / 2) k).1 = .ok y := by
  change ∃ y, (deconvolve (n := 6) (1 / 1) (fun j => spike a j.val / 1) 1 1 (1 / 3) (1 / 2)
    (k : ZMod 6)).1 = .ok y
  unfold deconvolve
  simp only
  rw [fft_spike, if_neg (Complex.ofReal_ne_zero.2 ha)]
  generalize (if (k : ZMod 6).val = 6 / 2 then (0 : ℂ) else
    sqWave (1 / 1) 1 1 (1 / 3) (1 / 2) (k : ZMod 6)) / (a : ℂ) = z
  by_cases h : ‖z‖ < 1 / 10 ^ 16
  · rw [if_pos h]; exact ⟨_, rfl⟩
  · rw [if_neg h]; exact ⟨_, rfl⟩

theorem drive_ex : sqWave (1 / 1) 1 1 (1 / 3) (1 / 2) (2 : ZMod 6) = Complex.I / Real.pi * 6 := by
  have h : fftfreq (1 / (1 / 1)) (2 : ZMod 6) / (1 / 3) = 1 := by
    unfold fftfreq
    rw [show freqIdx (2 : ZMod 6) = 2 by decide]
    norm_num
  have hn : nearOne |fftfreq (1 / (1 / 1)) (2 : ZMod 6) / (1 / 3)| := by
    rw [h, abs_one]
    unfold nearOne
    norm_num
  unfold sqWave
  simp only
  rw [if_pos trivial, if_pos hn, h]
  norm_num

theorem spike_unflagged {a : ℝ} (ha : a ≠ 0) (hb : |a| ≤ 2) :
    (deconvolve (n := 6) (1 / 1) (fun j => spike a j.val / 1) 1 1 (1 / 3) (1 / 2) 2).2 = false := by
  unfold deconvolve
  simp only
  rw [fft_spike, if_neg (Complex.ofReal_ne_zero.2 ha), if_neg (show ¬ (2 : ZMod 6).val = 6 / 2 by decide),
    drive_ex, if_neg]
  rw [not_lt, norm_div, norm_mul, norm_div, Complex.norm_I, Complex.norm_real, Complex.norm_real,
    Real.norm_eq_abs, Real.norm_eq_abs, abs_of_pos Real.pi_pos]
  rw [le_div_iff₀ (abs_pos.2 ha), show ‖(6 : ℂ)‖ = 6 by simp,
    show 1 / Real.pi * 6 = 6 / Real.pi by ring, le_div_iff₀ Real.pi_pos]
  have h4 := Real.pi_le_four
  have hp := Real.pi_pos
  have : |a| * Real.pi ≤ 2 * 4 := by
    apply mul_le_mul hb h4 hp.le (by norm_num)
  nlinarith

theorem exObj_kept (l : List ℝ) (h0 : ∀ a ∈ l, a ≠ 0) (b : Bool) (d : ℝ) :
    keptTraces (exObj (l.map spike) b d) 6 = l.map fun a i => spike a i / 1 := by
  unfold keptTraces
  rw [List.filter_eq_self.2]
  · simp [exObj]
  · intro t ht
    obtain ⟨t0, h1, rfl⟩ := List.mem_map.1 ht
    obtain ⟨a, ha, rfl⟩ := List.mem_map.1 h1
    simp only [decide_eq_true_eq]
    exact fun k _ => spike_deconv (h0 a ha) k

theorem exObj_ok (l : List ℝ) (hl : l ≠ []) (h0 : ∀ a ∈ l, a ≠ 0) (b : Bool) (d : ℝ) :
    (processtraces (exObj (l.map spike) b d)).1 = .ok () := by
  have hn : nBins (exObj (l.map spike) b d).nraw (exObj (l.map spike) b d).fs
      (exObj (l.map spike) b d).sgfreq = 6 := exObj_nbins
  rcases process_cases (exObj (l.map spike) b d) with ⟨h, _⟩ | ⟨_, h, _⟩ | ⟨_, _, h, _⟩ | ⟨_, _, _, e⟩
  · exact absurd (List.map_eq_nil_iff.1 h) hl
  · rw [hn] at h
    omega
  · rw [hn, exObj_kept l h0] at h
    exact absurd (List.map_eq_nil_iff.1 h) hl
  · rw [e]

theorem exObj_proc (l : List ℝ) (hl : l ≠ []) (h0 : ∀ a ∈ l, a ≠ 0) (b : Bool) (d : ℝ) :
    (processtraces (exObj (l.map spike) b d)).2.proc =
      some (procOf (shiftDt0 (exObj (l.map spike) b d)) 6 (l.map fun a i => spike a i / 1)) := by
  have := (process_ok (exObj_ok l hl h0 b d)).1
  rw [show nBins (exObj (l.map spike) b d).nraw (exObj (l.map spike) b d).fs
      (exObj (l.map spike) b d).sgfreq = 6 from exObj_nbins, exObj_kept l h0] at this
  exact this

theorem exObj_trace (o : Obj) : (procOf o 6 ([1, 2].map fun a i => spike a i / 1)).trace =
    [3 / 2, 0, 0, 0, 0, 0] := by
  have e : List.range 6 = [0, 1, 2, 3, 4, 5] := rfl
  unfold Proc.trace procOf lmean
  simp only [e]
  norm_num [spike]

theorem exObj_flat : (procOf (shiftDt0 (exObj ([1, 2].map spike) false (1 / 10))) 6
    ([1, 2].map fun a i => spike a i / 1)).flat = [0] := by
  have hper : nPeriods 7 1 (1 / 3) = 2 := by
    have := nPeriods_eq (p := 3) (n := 7) (sg := 1 / 3) (by norm_num) (by norm_num)
    rw [show ((3 : ℕ) : ℝ) * (1 / 3) = 1 by norm_num] at this
    exact this
  have h : ∀ i, i ∈ flatInds (nPeriods 7 1 (1 / 3)) 6 1 (1 / 3) (1 / 10) ↔ i = 3 := by
    intro i
    rw [hper]
    have := mem_flatInds (p := 3) (nper := 2) (sg := 1 / 3) (dt0 := 1 / 10) (by norm_num) i
    rw [show ((3 : ℕ) : ℝ) * (1 / 3) = 1 by norm_num] at this
    have ht : trunc ((1 : ℝ) / 10 * 1) = 0 := by
      unfold trunc
      norm_num
    rw [ht] at this
    rw [this]
    unfold IsFlat
    constructor
    · rintro ⟨h1, h2, j, hj, h3, h4⟩
      interval_cases j <;> simp at h3 h4 <;> omega
    · rintro rfl
      exact ⟨by norm_num, by norm_num, 1, by norm_num, by norm_num, by norm_num⟩
  have e : (procOf (shiftDt0 (exObj ([1, 2].map spike) false (1 / 10))) 6
      ([1, 2].map fun a i => spike a i / 1)).flatinds =
      flatInds (nPeriods 7 1 (1 / 3)) 6 1 (1 / 3) (1 / 10) := rfl
  have hnil : flatInds (nPeriods 7 1 (1 / 3)) 6 1 (1 / 3) (1 / 10) = [3] := by
    rw [hper]
    have l1 : trunc ((((0 : ℕ) : ℝ) + 1 / 4) * (1 / (1 / 3))) = 0 := by norm_num [trunc]
    have l2 : trunc ((((0 : ℕ) : ℝ) + 48 / 100) * (1 / (1 / 3))) = 1 := by norm_num [trunc, Int.floor_eq_iff]
    have l3 : trunc ((((1 : ℕ) : ℝ) + 1 / 4) * (1 / (1 / 3))) = 3 := by norm_num [trunc, Int.floor_eq_iff]
    have l4 : trunc ((((1 : ℕ) : ℝ) + 48 / 100) * (1 / (1 / 3))) = 4 := by norm_num [trunc, Int.floor_eq_iff]
    have l5 : trunc ((1 : ℝ) / 10 * 1) = 0 := by norm_num [trunc]
    unfold flatInds
    rw [show List.range 2 = [0, 1] from rfl]
    simp only [List.flatMap_cons, List.flatMap_nil, l1, l2, l3, l4, l5]
    decide
  unfold Proc.flat
  rw [e, hnil]
  simp [procOf, lmean, spike]

theorem exObj_inv : Inv (processtraces (exObj ([1, 2].map spike) false (1 / 10))).2 :=
  inv_process (inv_fresh ⟨rfl, rfl, rfl, rfl⟩)

end Verif.Didv
