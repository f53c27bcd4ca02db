import Verif.DidvObjLemmas

/-! Properties C47 to C50 and C70 to C74 (the DIDV classes). -/

namespace Verif.Didv
open Verif Dft OF

/-! ### C47: processtraces -/

/-- The constructor accepts exactly the sample rates which are a multiple of the generator frequency, unless
it is asked to resample. -/
theorem create_spec (rs : List (ℕ → ℝ) → ℕ → ℝ → ℝ → (List (ℕ → ℝ) × ℕ × ℝ)) (raw : List (ℕ → ℝ))
    (nraw : ℕ) {fs sgfreq : ℝ} (sgamp rsh gain r0 rp duty : ℝ) (add180 : Bool) (dt0 : ℝ)
    (hs : 0 < sgfreq) (hf : 0 < fs) :
    (∃ o, create rs raw nraw fs sgfreq sgamp rsh gain r0 rp duty add180 dt0 false = .ok o) ↔
      ∃ p : ℕ, 0 < p ∧ fs = p * sgfreq := by
  have key : fs - sgfreq * ⌊fs / sgfreq⌋ = 0 ↔ ∃ p : ℕ, 0 < p ∧ fs = p * sgfreq := by
    constructor
    · intro h
      have hp : 0 < ⌊fs / sgfreq⌋ := by
        by_contra hc
        have h1 : (⌊fs / sgfreq⌋ : ℝ) ≤ 0 := by exact_mod_cast not_lt.1 hc
        nlinarith
      refine ⟨⌊fs / sgfreq⌋.toNat, by omega, ?_⟩
      have e : ((⌊fs / sgfreq⌋.toNat : ℕ) : ℝ) = (⌊fs / sgfreq⌋ : ℝ) := by
        exact_mod_cast Int.toNat_of_nonneg hp.le
      rw [e]
      linarith
    · rintro ⟨p, _, rfl⟩
      have e : (p : ℝ) * sgfreq / sgfreq = p := by field_simp
      rw [e, Int.floor_natCast]
      push_cast
      ring
  rw [← key]
  unfold create
  simp only
  by_cases h : fs - sgfreq * ⌊fs / sgfreq⌋ = 0
  · have hb : ¬ (sgfreq = 0 ∨ fs - sgfreq * ⌊fs / sgfreq⌋ ≠ 0) := by
      push Not
      exact ⟨hs.ne', h⟩
    rw [if_neg (fun c => hb c.1), if_neg hb]
    exact ⟨fun _ => h, fun _ => ⟨_, rfl⟩⟩
  · rw [if_pos ⟨Or.inr h, by simp⟩]
    constructor
    · rintro ⟨o, ho⟩
      cases ho
    · exact fun c => absurd c h

example : ∃ p : ℕ, 0 < p ∧ (1 : ℝ) = p * (1 / 3) := ⟨3, by norm_num, by norm_num⟩
example : ¬ ∃ p : ℕ, 0 < p ∧ (5 : ℝ) = p * 2 := by
  rintro ⟨p, _, h⟩
  have : 5 = p * 2 := by exact_mod_cast h
  omega

/-- A successful call keeps the largest whole number of periods, and the flat indices are the samples of
the kept trace in the flat parts of its periods. -/
theorem processtraces_periods {o : Obj} {p : ℕ} (hp : SamplesPerPeriod o p)
    (h : (processtraces o).1 = .ok ()) :
    ∃ q, (processtraces o).2.proc = some q ∧ q.nbins = p * (o.nraw / p) ∧ q.nbins ≤ o.nraw ∧
      o.nraw < q.nbins + p ∧ (∀ i ∈ q.flatinds, 0 < i ∧ i < q.nbins) ∧
      ∀ i, i ∈ q.flatinds ↔
        IsFlat p (o.nraw / p) (trunc ((processtraces o).2.dt0 * o.fs)) i := by
  obtain ⟨hp0, hs, hfs⟩ := hp
  obtain ⟨e, _, _⟩ := process_ok h
  have hn : nBins o.nraw o.fs o.sgfreq = p * (o.nraw / p) := by rw [hfs]; exact nbins_eq hp0 hs
  have hnp : nPeriods o.nraw o.fs o.sgfreq = o.nraw / p := by rw [hfs]; exact nPeriods_eq hp0 hs
  have hdt : (processtraces o).2.dt0 = (shiftDt0 o).dt0 := by
    rcases process_cases o with ⟨_, e⟩ | ⟨_, _, e⟩ | ⟨_, _, _, e⟩ | ⟨_, _, _, e⟩ <;> rw [e] at h ⊢
    cases h
  refine ⟨_, e, hn, ?_, ?_, fun i hi => flatInds_valid hi, fun i => ?_⟩
  · change nBins o.nraw o.fs o.sgfreq ≤ o.nraw
    rw [hn]
    exact Nat.mul_div_le _ _
  · change o.nraw < nBins o.nraw o.fs o.sgfreq + p
    rw [hn]
    exact Nat.lt_mul_div_succ _ hp0
  · change i ∈ flatInds (nPeriods o.nraw o.fs o.sgfreq) (nBins o.nraw o.fs o.sgfreq) o.fs o.sgfreq
      (shiftDt0 o).dt0 ↔ _
    rw [hn, hnp, hdt, hfs]
    exact mem_flatInds hs i

example (b : Bool) (d : ℝ) : SamplesPerPeriod (exObj ([1, 2].map spike) b d) 3 ∧
    (processtraces (exObj ([1, 2].map spike) b d)).1 = .ok () :=
  ⟨exObj_per _ _ _, exObj_ok _ (by simp) (by simp) _ _⟩

/-- No traces, or less than a period (or a single sample), raise IndexError. -/
theorem processtraces_short {o : Obj} {p : ℕ} (hp : SamplesPerPeriod o p)
    (h : o.raw = [] ∨ o.nraw < p ∨ o.nraw < 2) : (processtraces o).1 = .error .indexError := by
  obtain ⟨hp0, hs, hfs⟩ := hp
  have hn : nBins o.nraw o.fs o.sgfreq = p * (o.nraw / p) := by rw [hfs]; exact nbins_eq hp0 hs
  rcases process_cases o with ⟨_, e⟩ | ⟨_, _, e⟩ | ⟨h1, h2, _, e⟩ | ⟨h1, h2, _, e⟩ <;> rw [e]
  all_goals
    exfalso
    rw [hn] at h2
    have := Nat.mul_div_le o.nraw p
    rcases h with h | h | h
    · exact h1 h
    · rw [Nat.div_eq_of_lt h] at h2
      omega
    · omega

example (b : Bool) (d : ℝ) : SamplesPerPeriod (exObj [] b d) 3 ∧ (exObj [] b d).raw = [] :=
  ⟨exObj_per _ _ _, rfl⟩

/-- Partial form of the last claim of C47: without `add180phase` the offset never changes. -/
theorem offset_unchanged_partial {o : Obj} (h : o.add180 = false) :
    (processtraces o).2.dt0 = o.dt0 := by
  by_cases hr : o.raw = []
  · rcases process_cases o with ⟨_, e⟩ | ⟨h1, _⟩ | ⟨h1, _⟩ | ⟨h1, _⟩
    · rw [e]
    all_goals exact absurd hr h1
  · rw [process_dt0 o hr, h]
    rfl

/-- Contrary to C47, with `add180phase` every call shifts the offset by another half period. -/
theorem offset_accumulates_violated {o : Obj} (h : o.add180 = true) (hr : o.raw ≠ [])
    (hs : 0 < o.sgfreq) :
    (processtraces (processtraces o).2).2.dt0 = (processtraces o).2.dt0 + 1 / (2 * o.sgfreq) ∧
    (processtraces (processtraces o).2).2.dt0 ≠ (processtraces o).2.dt0 := by
  obtain ⟨k1, _, _, k4, _, _, k7, _⟩ := process_keeps o
  have e := process_dt0 (processtraces o).2 (by rw [k1]; exact hr)
  rw [k7, h, k4, if_pos rfl] at e
  refine ⟨e, ?_⟩
  rw [e]
  have : 0 < 1 / (2 * o.sgfreq) := by positivity
  linarith

example : (exObj ([1, 2].map spike) true 0).add180 = true ∧ (exObj ([1, 2].map spike) true 0).raw ≠ [] ∧
    0 < (exObj ([1, 2].map spike) true 0).sgfreq :=
  ⟨rfl, by simp [exObj], by norm_num [exObj]⟩

/-! ### C73: the averaged admittance -/

/-- At a bin with drive where no trace is flagged the averaged admittance is the transform of the averaged
trace divided by the drive. -/
theorem didvmean_of_mean {o : Obj} {q : Proc} (h : (processtraces o).1 = .ok ())
    (hq : (processtraces o).2.proc = some q) {m : ℕ} (hm : q.nbins = m + 1) (k : ZMod (m + 1))
    (hk : k.val ≠ (m + 1) / 2)
    (hf : ∀ t ∈ o.raw, (deconvolve (1 / o.fs) (fun j : ZMod (m + 1) => t j.val / o.gain) o.rsh o.sgamp
      o.sgfreq o.duty k).2 = false) :
    q.didvmean k.val = fftR (fun j : ZMod (m + 1) => q.tmean j.val) k /
      sqWave (1 / o.fs) o.sgamp o.rsh o.sgfreq o.duty k := by
  obtain ⟨e, _, _⟩ := process_ok h
  rw [hq] at e
  cases e
  change nBins o.nraw o.fs o.sgfreq = m + 1 at hm
  change cmean ((keptTraces o (nBins o.nraw o.fs o.sgfreq)).map fun t =>
    deconvVal (nBins o.nraw o.fs o.sgfreq) (1 / o.fs) t o.rsh o.sgamp o.sgfreq o.duty k.val) =
    fftR (fun j : ZMod (m + 1) => lmean ((keptTraces o (nBins o.nraw o.fs o.sgfreq)).map
      fun t => t j.val)) k / _
  rw [hm, fftR_lmean, ← cmean_div, List.map_map]
  congr 1
  refine List.map_congr_left fun t ht => ?_
  unfold keptTraces at ht
  obtain ⟨h1, h2⟩ := List.mem_filter.1 ht
  obtain ⟨t0, ht0, rfl⟩ := List.mem_map.1 h1
  have h3 : ∀ k < m + 1, ∃ y, (deconvAt (m + 1) (1 / o.fs) (fun i => t0 i / o.gain) o.rsh o.sgamp
      o.sgfreq o.duty k).1 = .ok y := by simpa using h2
  obtain ⟨y, hy⟩ := h3 k.val (ZMod.val_lt k)
  unfold deconvVal
  rw [hy]
  have hkk : ((k.val : ℕ) : ZMod (m + 1)) = k := ZMod.natCast_zmod_val k
  unfold deconvAt at hy
  simp only [hkk] at hy
  exact deconvolve_unflagged hk (hf t0 ht0) hy

/-- If the averaged trace is the response of a TES plus `noise`, the averaged admittance is the admittance
of the TES plus the transform of the noise over the drive. -/
theorem didvmean_recovers {o : Obj} {q : Proc} (h : (processtraces o).1 = .ok ())
    (hq : (processtraces o).2.proc = some q) {m : ℕ} (hm : q.nbins = m + 1) (k : ZMod (m + 1))
    (hk : k.val ≠ (m + 1) / 2)
    (hf : ∀ t ∈ o.raw, (deconvolve (1 / o.fs) (fun j : ZMod (m + 1) => t j.val / o.gain) o.rsh o.sgamp
      o.sgfreq o.duty k).2 = false)
    (hd : sqWave (1 / o.fs) o.sgamp o.rsh o.sgfreq o.duty k ≠ 0)
    {a : Args} (ha : a.rsh = some o.rsh) {tr noise : ZMod (m + 1) → ℝ}
    (ht : squarewaveresponse (1 / o.fs) o.sgamp o.sgfreq o.duty a = .ok tr)
    (hn : ∀ j : ZMod (m + 1), q.tmean j.val = tr j + noise j) :
    ∃ y, complexadmittance (fftfreq o.fs k) a = .ok y ∧
      q.didvmean k.val = y + fftR noise k / sqWave (1 / o.fs) o.sgamp o.rsh o.sgfreq o.duty k := by
  obtain ⟨y, hy, hfy⟩ := squarewave_fft ht k (by omega)
  rw [one_div_one_div] at hy
  refine ⟨y, hy, ?_⟩
  rw [didvmean_of_mean h hq hm k hk hf]
  have e : (fun j : ZMod (m + 1) => q.tmean j.val) = fun j => tr j + noise j := funext hn
  rw [e, fftR_add, hfy, ha, Option.getD_some, add_div, mul_div_cancel_left₀ _ hd]

example : ∃ q, (processtraces (exObj ([1, 2].map spike) false (1 / 10))).2.proc = some q ∧
    q.nbins = 5 + 1 ∧ (2 : ZMod (5 + 1)).val ≠ (5 + 1) / 2 ∧
    (∀ t ∈ (exObj ([1, 2].map spike) false (1 / 10)).raw, (deconvolve (1 / 1)
      (fun j : ZMod (5 + 1) => t j.val / 1) 1 1 (1 / 3) (1 / 2) 2).2 = false) ∧
    sqWave (1 / 1) 1 1 (1 / 3) (1 / 2) (2 : ZMod (5 + 1)) ≠ 0 ∧
    ∃ tr : ZMod (5 + 1) → ℝ, squarewaveresponse (1 / 1) 1 (1 / 3) (1 / 2) oddArgs = .ok tr := by
  refine ⟨_, exObj_proc [1, 2] (by simp) (by simp) _ _, rfl, by decide, ?_, ?_, ?_⟩
  · intro t ht
    change t ∈ [1, 2].map spike at ht
    simp only [List.map_cons, List.map_nil, List.mem_cons, List.not_mem_nil, or_false] at ht
    rcases ht with rfl | rfl
    · exact spike_unflagged (by norm_num) (by norm_num)
    · exact spike_unflagged (by norm_num) (by norm_num)
  · change sqWave (1 / 1) 1 1 (1 / 3) (1 / 2) (2 : ZMod 6) ≠ 0
    rw [drive_ex]
    have hpi : (Real.pi : ℂ) ≠ 0 := Complex.ofReal_ne_zero.2 Real.pi_ne_zero
    simp [hpi]
  · rw [div_one]
    exact oddArgs_response _ _

/-! ### C48: starting guesses -/

/-- In every state which the object can reach, the starting point of every fit with one, two or three poles
satisfies the bounds which are passed with it. -/
theorem guess_in_bounds {x : Ext} (hx : Feasible x.ls) {o : Obj} (ho : Fresh o) (hist : List Call)
    {p : Proc} (hp : (run x o hist).proc = some p) (hpos : 0 < (run x o hist).sgamp * (run x o hist).rsh)
    {poles : ℕ} {A0 B0 C0 t1 t2 t3 dt : ℝ} {sub1 : Bool}
    (h : startGuess (run x o hist) p poles = .ok ((A0, B0, C0, t1, t2, t3, dt), sub1)) :
    List.Forall₂ inB (chosen poles A0 B0 C0 t1 t2 t3 dt sub1).1
      (chosen poles A0 B0 C0 t1 t2 t3 dt sub1).2 :=
  startGuess_feasible (inv_run hx hist (inv_fresh ho)) hp hpos h

/-- The guess exists whenever the trace is not constant, there are flat points, and their mean is neither
the mean nor the maximum of the trace. -/
theorem guess_exists (o : Obj) (p : Proc) (hpos : 0 < o.sgamp * o.rsh) (h2 : o.res2 = none) :
    ((∃ g, startGuess o p 1 = .ok g) ↔ lmin p.trace ≠ lmax p.trace) ∧
    ∀ poles, poles = 2 ∨ poles = 3 → ((∃ g, startGuess o p poles = .ok g) ↔
      p.flat ≠ [] ∧ lmean p.flat ≠ lmean p.trace ∧ lmean p.flat ≠ lmax p.trace) := by
  constructor
  · unfold startGuess squareGuess
    rw [if_pos rfl]
    by_cases h : lmax p.trace - lmin p.trace = 0
    · rw [if_pos h]
      constructor
      · rintro ⟨g, hg⟩; cases hg
      · exact fun c => absurd (sub_eq_zero.1 h).symm c
    · rw [if_neg h]
      exact ⟨fun _ c => h (sub_eq_zero.2 c.symm), fun _ => ⟨_, rfl⟩⟩
  · intro poles hpoles
    have key : (∃ g, startGuess o p poles = .ok g) ↔
        ∃ g, guessParams p.trace p.flat o.sgamp o.rsh (1 / 10 ^ 7) = .ok g := by
      unfold startGuess
      rcases hpoles with rfl | rfl
      · rw [if_neg (by norm_num), if_pos rfl]
        cases guessParams p.trace p.flat o.sgamp o.rsh (1 / 10 ^ 7) with
        | error e => simp
        | ok g => exact ⟨fun _ => ⟨g, rfl⟩, fun _ => ⟨_, rfl⟩⟩
      · rw [if_neg (by norm_num), if_neg (by norm_num), h2]
        cases guessParams p.trace p.flat o.sgamp o.rsh (1 / 10 ^ 7) with
        | error e => simp
        | ok g => exact ⟨fun _ => ⟨g, rfl⟩, fun _ => ⟨_, rfl⟩⟩
    rw [key]
    unfold guessParams
    by_cases h0 : p.flat = []
    · rw [if_pos (Or.inl h0)]
      constructor
      · rintro ⟨g, hg⟩; cases hg
      · exact fun c => absurd h0 c.1
    · rw [if_neg (not_or.2 ⟨h0, hpos.ne'⟩)]
      simp only
      have e1 : 2 * |lmean p.flat - lmean p.trace| / (o.sgamp * o.rsh) = 0 ↔
          lmean p.flat = lmean p.trace := by
        rw [div_eq_zero_iff, or_iff_left hpos.ne', mul_eq_zero, or_iff_right two_ne_zero, abs_eq_zero,
          sub_eq_zero]
      have e2 : (lmax p.trace - lmean p.flat) / (o.sgamp * o.rsh) = 0 ↔
          lmean p.flat = lmax p.trace := by
        rw [div_eq_zero_iff, or_iff_left hpos.ne', sub_eq_zero, eq_comm]
      by_cases h1 : 2 * |lmean p.flat - lmean p.trace| / (o.sgamp * o.rsh) = 0 ∨
          (lmax p.trace - lmean p.flat) / (o.sgamp * o.rsh) = 0
      · rw [if_pos h1]
        constructor
        · rintro ⟨g, hg⟩; cases hg
        · rintro ⟨_, c1, c2⟩
          rcases h1 with h1 | h1
          · exact absurd (e1.1 h1) c1
          · exact absurd (e2.1 h1) c2
      · rw [if_neg h1]
        push Not at h1
        refine ⟨fun _ => ⟨h0, fun c => h1.1 (e1.2 c), fun c => h1.2 (e2.2 c)⟩, fun _ => ?_⟩
        by_cases hs : guessSub1 p.trace p.flat = true
        · rw [if_pos hs]; exact ⟨_, rfl⟩
        · rw [if_neg hs]; exact ⟨_, rfl⟩

example (x : Ext) : ∃ p, (run x (exObj ([1, 2].map spike) false (1 / 10)) [Call.process]).proc = some p ∧
    Fresh (exObj ([1, 2].map spike) false (1 / 10)) ∧
    0 < (run x (exObj ([1, 2].map spike) false (1 / 10)) [Call.process]).sgamp *
      (run x (exObj ([1, 2].map spike) false (1 / 10)) [Call.process]).rsh ∧
    lmin p.trace ≠ lmax p.trace ∧ p.flat ≠ [] ∧ lmean p.flat ≠ lmean p.trace ∧
    lmean p.flat ≠ lmax p.trace := by
  refine ⟨_, exObj_proc [1, 2] (by simp) (by simp) _ _, ⟨rfl, rfl, rfl, rfl⟩, ?_, ?_⟩
  · obtain ⟨_, _, _, _, e1, e2, _⟩ := process_keeps (exObj ([1, 2].map spike) false (1 / 10))
    change 0 < (processtraces _).2.sgamp * (processtraces _).2.rsh
    rw [e1, e2]
    norm_num [exObj]
  · rw [exObj_trace, exObj_flat]
    norm_num [lmin, lmax, lmean]
/-- An optimiser which stays within the bounds: the one which stays where it is. -/
example : Feasible fun _ p0 _ => ⟨p0, 0, .ok []⟩ := fun _ _ _ h => h

/-! ### C49: dispatch and results -/

/-- A number of poles other than 1, 2, 3 is never accepted; once the traces are processed the error is
ValueError, and no stored result changes. -/
theorem dofit_invalid (x : Ext) (o : Obj) (k : ℤ) (c : Option ℝ) (hk : k ≠ 1 ∧ k ≠ 2 ∧ k ≠ 3) :
    (dofit x o k c).1 ≠ .ok () ∧ ((ready o).proc ≠ none → o.proc = none → (processtraces o).1 = .ok () →
      (dofit x o k c).1 = .error .valueError) ∧
    (o.proc ≠ none → (dofit x o k c).1 = .error .valueError) ∧
    ∀ j, fitresult (dofit x o k c).2 j = fitresult o j := by
  have h1 : (dofit x o k c).1 ≠ .ok () := by
    intro h
    rcases (dofit_results x o k k c).2 h with ⟨h | h | h, _⟩
    · exact hk.1 h
    · exact hk.2.1 h
    · exact hk.2.2 h
  refine ⟨h1, ?_, ?_, fun j => (dofit_results x o k j c).1 (Or.inr h1)⟩
  · intro hr hn hp
    unfold dofit
    simp only [ready, hn] at hr
    simp only [hn]
    rcases hq : processtraces o with ⟨r, o1⟩
    rw [hq] at hr hp
    simp only at hr hp
    subst hp
    simp only
    cases hp1 : o1.proc with
    | none => exact absurd hp1 hr
    | some p => simp only [if_neg hk.1, if_neg hk.2.1, if_neg hk.2.2]
  · intro hn
    unfold dofit
    cases hp1 : o.proc with
    | none => exact absurd hp1 hn
    | some p => simp only [hp1, if_neg hk.1, if_neg hk.2.1, if_neg hk.2.2]

example : ((0 : ℤ) ≠ 1 ∧ (0 : ℤ) ≠ 2 ∧ (0 : ℤ) ≠ 3) ∧
    (processtraces (exObj ([1, 2].map spike) false (1 / 10))).2.proc ≠ none :=
  ⟨by decide, by rw [exObj_proc [1, 2] (by simp) (by simp)]; simp⟩

/-- What `fitresult k` returns is decided by the latest `dofit k`, whatever other fits and processing came
after; without any it is what it was, and a failing fit changes nothing. -/
theorem fitresult_latest (x : Ext) (o : Obj) (pre post : List Call) (k : ℤ) (c : Option ℝ)
    (hpost : ∀ d ∈ post, Call.other k d) :
    fitresult (run x o (pre ++ Call.fit k c :: post)) k = fitresult (dofit x (run x o pre) k c).2 k ∧
    fitresult (run x o post) k = fitresult o k ∧
    ((dofit x o k c).1 = .ok () → ∃ r, fitresult (dofit x o k c).2 k = .found r) ∧
    ((dofit x o k c).1 ≠ .ok () → fitresult (dofit x o k c).2 k = fitresult o k) := by
  have key : ∀ (o : Obj), fitresult (run x o post) k = fitresult o k := by
    induction post with
    | nil => exact fun _ => rfl
    | cons d ds ih =>
      intro o
      change fitresult (run x (apply x o d) ds) k = _
      rw [ih fun e he => hpost e (List.mem_cons_of_mem _ he)]
      have hd := hpost d List.mem_cons_self
      cases d with
      | process =>
        obtain ⟨_, _, _, _, _, _, _, e1, e2, e3⟩ := process_keeps o
        change fitresult (processtraces o).2 k = _
        unfold fitresult
        rw [e1, e2, e3]
      | fit j f => exact (dofit_results x o j k f).1 (Or.inl (Ne.symm hd))
  refine ⟨?_, key o, fun h => ((dofit_results x o k k c).2 h).2,
    fun h => (dofit_results x o k k c).1 (Or.inr h)⟩
  have e : run x o (pre ++ Call.fit k c :: post) = run x (dofit x (run x o pre) k c).2 post := by
    unfold run
    rw [List.foldl_append, List.foldl_cons]
    rfl
  rw [e]
  exact key _

example : ∀ d ∈ [Call.process, Call.fit 1 none, Call.fit 3 (some 10)], Call.other 2 d := by
  simp [Call.other]

/-- A new object returns an empty dictionary for 1, 2 and 3 poles, and None for anything else. -/
theorem fitresult_fresh {o : Obj} (h : Fresh o) (k : ℤ) :
    fitresult o k = if k = 1 ∨ k = 2 ∨ k = 3 then .empty else .pyNone := by
  obtain ⟨_, h1, h2, h3⟩ := h
  unfold fitresult
  rw [h1, h2, h3]
  simp only
  split_ifs <;> first | rfl | omega

/-! ### C50: priors -/

/-- Partial form of C50: without `add180phase` the helper object has the time offset of the object. -/
theorem priors_offset_partial {o : Obj} {p : Proc} {priors : List ℝ} {g : Obj}
    (h : guessObj o p priors = .ok g) (ha : o.add180 = false) : g.dt0 = o.dt0 := by
  unfold guessObj at h
  split at h
  · unfold initFromData at h
    split at h
    · cases h
    · cases h
      simp only [ha]
      rfl
  · cases h

/-- Contrary to C50, with `add180phase` the helper object is off by half a period: the offset of the object
was shifted when its traces were processed, and is shifted again. -/
theorem priors_offset_violated {o : Obj} {p : Proc} {priors : List ℝ} {g : Obj}
    (h : guessObj o p priors = .ok g) (ha : o.add180 = true) (hs : 0 < o.sgfreq) :
    g.dt0 = o.dt0 + 1 / (2 * o.sgfreq) ∧ g.dt0 ≠ o.dt0 := by
  have e : g.dt0 = o.dt0 + 1 / (2 * o.sgfreq) := by
    unfold guessObj at h
    split at h
    · unfold initFromData at h
      split at h
      · cases h
      · cases h
        simp only [ha]
        rfl
    · cases h
  refine ⟨e, ?_⟩
  rw [e]
  have : 0 < 1 / (2 * o.sgfreq) := by positivity
  linarith

example (p : Proc) (b : Bool) : ∃ g, guessObj (exObj [] b 0) p [1, 2, 3] = .ok g := by
  obtain ⟨o, ho⟩ := (create_spec (fun r n f _ => (r, n, f)) [] 0 (fs := 1) (sgfreq := 1 / 3) 1 1 1 3 2
    (1 / 2) b 0 (by norm_num) (by norm_num)).2 ⟨3, by norm_num, by norm_num⟩
  have h : create (fun r n f _ => (r, n, f)) [] 0 (exObj [] b 0).fs (exObj [] b 0).sgfreq
    (exObj [] b 0).sgamp (exObj [] b 0).rsh 1 3 2 (1 / 2) (exObj [] b 0).add180 (exObj [] b 0).dt0 false =
      .ok o := ho
  have e3 : (if (3 : ℝ) ≠ 0 then (3 : ℝ) else 1 / 10) = 3 := if_pos (by norm_num)
  have e2 : (if (2 : ℝ) ≠ 0 then (2 : ℝ) else 1 / 100) = 2 := if_pos (by norm_num)
  simp only [guessObj, initFromData, e3, e2, h]
  exact ⟨_, rfl⟩

/-- The fit starts from the priors where they are given and from the guess where they are zero. -/
theorem mixGuess_spec {guess priors : List ℝ} (h : guess.length = priors.length) (i : ℕ)
    (hi : i < priors.length) :
    (mixGuess guess priors)[i]? =
      some (if priors[i] = 0 then guess[i]'(by omega) else priors[i]) := by
  unfold mixGuess
  rw [List.getElem?_zipWith, List.getElem?_eq_getElem (by omega), List.getElem?_eq_getElem hi]

example : mixGuess [1, 2, 3] [0, 5, 0] = [1, 5, 3] := by norm_num [mixGuess]

/-! ### C70: the time offset guess -/

/-- Contrary to C70 a time offset of zero makes every fit fail: the scale of the parameters passed to the
optimiser is the starting point, and zero scales are refused. -/
theorem zero_offset_violated (x : Ext) {o : Obj} (ho : Fresh o) (ha : o.add180 = false) (h0 : o.dt0 = 0)
    (k : ℤ) (c : Option ℝ) : (dofit x o k c).1 ≠ .ok () := by
  have hd : (ready o).dt0 = 0 := by
    unfold ready
    rw [ho.1]
    rw [offset_unchanged_partial ha, h0]
  have h2 : (ready o).res2 = none := by rw [(ready_keeps o).2.1]; exact ho.2.2.1
  have key : ∀ p poles r, runFit x (ready o) p poles c ≠ .ok r := by
    intro p poles r h
    obtain ⟨A0, B0, C0, t1, t2, t3, dt, sub1, params, cov, cost, ft, hg, hl, _⟩ := runFit_ok h
    obtain ⟨_, hs, _⟩ := leastSquares_ok hl
    have := hs _ (scale_dt poles A0 B0 C0 t1 t2 t3 dt)
    rw [startGuess_dt hg h2, hd, abs_zero] at this
    exact lt_irrefl _ this
  intro h
  rcases dofit_cases x o k c with ⟨e, hd⟩ | ⟨p, r, _, _, hf, _⟩ | ⟨p, r, _, _, hf, _⟩ |
    ⟨p, r, _, _, hf, _⟩
  · rw [hd] at h; cases h
  all_goals exact key _ _ _ hf

example : Fresh (exObj ([1, 2].map spike) false 0) ∧
    (processtraces (exObj ([1, 2].map spike) false 0)).1 = .ok () :=
  ⟨⟨rfl, rfl, rfl, rfl⟩, exObj_ok _ (by simp) (by simp) _ _⟩

/-- Partial form of C70: a starting point without zeros, whose residuals are defined, reaches the
optimiser. -/
theorem optimiser_runs_partial {ls : LS} {o : Obj} (hi : Inv o) {p : Proc} (hp : o.proc = some p)
    (hpos : 0 < o.sgamp * o.rsh) {poles : ℕ} {A0 B0 C0 t1 t2 t3 dt : ℝ} {sub1 : Bool}
    (h : startGuess o p poles = .ok ((A0, B0, C0, t1, t2, t3, dt), sub1))
    (hz : ∀ v ∈ (starts poles A0 B0 C0 t1 t2 t3 dt).1, v ≠ 0) {pts : List Pt} {r : List ℝ}
    (hr : residual pts (chosen poles A0 B0 C0 t1 t2 t3 dt sub1).1 = .ok r) :
    ∃ out, leastSquares ls (residual pts) (chosen poles A0 B0 C0 t1 t2 t3 dt sub1).1
      (chosen poles A0 B0 C0 t1 t2 t3 dt sub1).2
      ((starts poles A0 B0 C0 t1 t2 t3 dt).1.map abs) = .ok out := by
  unfold leastSquares
  rw [if_neg (not_not.2 (startGuess_feasible hi hp hpos h)), if_neg, hr]
  · exact ⟨_, rfl⟩
  · rintro ⟨s, hs, h0⟩
    obtain ⟨v, hv, rfl⟩ := List.mem_map.1 hs
    exact hz v hv (abs_nonpos_iff.1 h0)

example : ∃ p A0 tau2, (processtraces (exObj ([1, 2].map spike) false (1 / 10))).2.proc = some p ∧
    startGuess (processtraces (exObj ([1, 2].map spike) false (1 / 10))).2 p 1 =
      .ok ((A0, -6 / 10, -6 / 10, -1 / (2 * Real.pi * 500), tau2, 0, 1 / 10), false) ∧
    (∀ v ∈ (starts 1 A0 (-6 / 10) (-6 / 10) (-1 / (2 * Real.pi * 500)) tau2 0 (1 / 10)).1, v ≠ 0) ∧
    ∃ r, residual [⟨0, 1, 1 + Complex.I⟩] (chosen 1 A0 (-6 / 10) (-6 / 10) (-1 / (2 * Real.pi * 500)) tau2
      0 (1 / 10) false).1 = .ok r := by
  refine ⟨_, 2 / 3, 1 / 10 ^ 6, exObj_proc [1, 2] (by simp) (by simp) _ _, ?_, ?_, ?_⟩
  · obtain ⟨_, _, _, _, e1, e2, _⟩ := process_keeps (exObj ([1, 2].map spike) false (1 / 10))
    have hd : (processtraces (exObj ([1, 2].map spike) false (1 / 10))).2.dt0 = 1 / 10 :=
      offset_unchanged_partial rfl
    unfold startGuess squareGuess
    rw [if_pos rfl, exObj_trace, e1, e2, hd]
    norm_num [lmax, lmin, exObj]
  · simp only [starts, if_pos]
    norm_num
  · have e : (chosen 1 (2 / 3) (-6 / 10) (-6 / 10) (-1 / (2 * Real.pi * 500)) (1 / 10 ^ 6) 0 (1 / 10)
        false).1 = [2 / 3, 1 / 10 ^ 6, 1 / 10] := rfl
    rw [e]
    have hY : ∃ c, fitY 0 [2 / 3, 1 / 10 ^ 6, 1 / 10] = .ok c := by
      simp only [fitY, onePoleY, recipZ]
      rw [if_neg (by norm_num [onePoleZ, jw])]
      exact ⟨_, rfl⟩
    obtain ⟨c, hc⟩ := hY
    simp only [residual, hc]
    rw [if_neg (by simp)]
    exact ⟨_, rfl⟩

/-! ### C74: a single trace -/

/-- Contrary to C74 a fit to a single trace always fails: the standard deviation over one trace is zero, so
the residuals of every bin which is not flagged are not finite. -/
theorem single_trace_violated (x : Ext) {o : Obj} (ho : Fresh o) {t : ℕ → ℝ} (h1 : o.raw = [t])
    {b : ℕ} (hb : b < nBins o.nraw o.fs o.sgfreq) {c : Option ℝ}
    (hc : ∀ v ∈ c, |freqAt (nBins o.nraw o.fs o.sgfreq) o.fs b| < v)
    (hf : (deconvAt (nBins o.nraw o.fs o.sgfreq) (1 / o.fs) (fun i => t i / o.gain) o.rsh o.sgamp
      o.sgfreq o.duty b).2 = false) (k : ℤ) : (dofit x o k c).1 ≠ .ok () := by
  intro h
  have hp1 : (processtraces o).1 = .ok () := by
    by_contra hne
    unfold dofit at h
    simp only [ho.1] at h
    rcases hq : processtraces o with ⟨r, o1⟩
    rw [hq] at h hne
    cases r with
    | error e => cases h
    | ok u => exact hne rfl
  obtain ⟨hpr, hne, _⟩ := process_ok hp1
  have hrd : ready o = (processtraces o).2 := by unfold ready; rw [ho.1]
  have hk : keptTraces o (nBins o.nraw o.fs o.sgfreq) = [fun i => t i / o.gain] := by
    generalize nBins o.nraw o.fs o.sgfreq = nb at *
    unfold keptTraces at hne ⊢
    rw [h1] at hne ⊢
    simp only [List.map_cons, List.map_nil, List.filter_cons, List.filter_nil] at hne ⊢
    split_ifs at hne ⊢
    · rfl
    · exact absurd rfl hne
  rw [hk] at hpr
  set q := procOf (shiftDt0 o) (nBins o.nraw o.fs o.sgfreq) [fun i => t i / o.gain] with hqdef
  have hfs : (ready o).fs = o.fs := by
    rw [hrd]
    exact (process_keeps o).2.2.1
  have hstd : q.didvstd b = 0 := by
    have e1 : ∀ i, lmean ([fun i => t i / o.gain].map fun t => t i) = t i / o.gain := by
      intro i
      simp [lmean]
    change (if (deconvAt (nBins o.nraw o.fs o.sgfreq) (1 / o.fs)
      (fun i => lmean ([fun i => t i / o.gain].map fun t => t i)) o.rsh o.sgamp o.sgfreq o.duty b).2 = true
      then _ else stdcomplex [deconvVal (nBins o.nraw o.fs o.sgfreq) (1 / o.fs) (fun i => t i / o.gain)
        o.rsh o.sgamp o.sgfreq o.duty b] / _) = (0 : ℂ)
    simp only [e1]
    rw [hf, if_neg (by decide), stdcomplex_single, zero_div]
  have key : ∀ poles r, runFit x (ready o) q poles c ≠ .ok r := by
    intro poles r hr
    obtain ⟨A0, B0, C0, t1, t2, t3, dt, sub1, params, cov, cost, ft, hg, hl, _⟩ := runFit_ok hr
    obtain ⟨_, _, ⟨v, hv⟩, _⟩ := leastSquares_ok hl
    have hm : (⟨freqAt q.nbins o.fs b, q.didvmean b, q.didvstd b⟩ : Pt) ∈
        fitPts q (ready o).fs c := by
      unfold fitPts
      rw [hfs]
      refine List.mem_map.2 ⟨b, List.mem_filter.2 ⟨List.mem_range.2 hb, ?_⟩, rfl⟩
      exact decide_eq_true hc
    have := (residual_errs hv _ hm).1
    rw [hstd] at this
    exact this rfl
  rcases dofit_cases x o k c with ⟨e, hd⟩ | ⟨p, r, hp, _, hr, _⟩ | ⟨p, r, hp, _, hr, _⟩ |
    ⟨p, r, hp, _, hr, _⟩
  · rw [hd] at h; cases h
  all_goals
    rw [hrd, hpr] at hp
    cases hp
    exact key _ _ hr

example : Fresh (exObj ([1].map spike) false (1 / 10)) ∧
    (exObj ([1].map spike) false (1 / 10)).raw = [spike 1] ∧
    2 < nBins (exObj ([1].map spike) false (1 / 10)).nraw 1 (1 / 3) ∧
    (deconvAt (nBins 7 1 (1 / 3)) (1 / 1) (fun i => spike 1 i / 1) 1 1 (1 / 3) (1 / 2) 2).2 = false ∧
    (processtraces (exObj ([1].map spike) false (1 / 10))).1 = .ok () := by
  refine ⟨⟨rfl, rfl, rfl, rfl⟩, rfl, ?_, ?_, exObj_ok _ (by simp) (by simp) _ _⟩
  · change 2 < nBins 7 1 (1 / 3)
    rw [exObj_nbins]
    norm_num
  · rw [exObj_nbins]
    exact spike_unflagged one_ne_zero (by norm_num)

/-! ### C71: small signal parameters -/

/-- The small signal parameters of a result reproduce the fitted admittance at every frequency, and `didv0`
is its value at zero frequency. -/
theorem result_reproduces_fit {params ft : List ℝ} {cov : List (List ℝ)} {cost rsh rp r0 : ℝ} {r : Result}
    (h : fitResult params cov ft cost rsh rp r0 = .ok r) :
    r.params = params ∧
    (∃ dt, params.getLast? = some dt ∧ ∀ f, (complexadmittance f (sspArgs r.ssp)).map
      (fun y => y * Complex.exp (-2 * Complex.I * Real.pi * f * dt)) = fitY f params) ∧
    (∃ y, fitY 0 params = .ok y ∧ y = r.didv0) ∧
    (∀ A tau2 dt, params = [A, tau2, dt] → r.didv0 * A = 1) ∧
    (∀ A B tau1 tau2 dt, params = [A, B, tau1, tau2, dt] → r.didv0 * (A + B) = 1) ∧
    (∀ A B C tau1 tau2 tau3 dt, params = [A, B, C, tau1, tau2, tau3, dt] →
      r.didv0 * (A + B / (1 - C)) = 1) := by
  obtain ⟨hpar, _, y0, hy0, hd⟩ := fitResult_params h
  have hj : jw 0 = 0 := by simp [jw]
  have hrec : ∀ (z : ℝ) (y : ℂ), recipZ (z : ℂ) = .ok y → y = (1 / z : ℝ) ∧ z ≠ 0 := by
    intro z y hz
    unfold recipZ at hz
    by_cases h0 : (z : ℂ) = 0
    · rw [if_pos h0] at hz; cases hz
    · rw [if_neg h0] at hz
      cases hz
      exact ⟨by push_cast; rfl, fun h => h0 (by rw [h]; rfl)⟩
  have hmul : ∀ z : ℝ, z ≠ 0 → 1 / z * z = 1 := fun z hz => one_div_mul_cancel hz
  have hmap : ∀ dt : ℝ, Complex.exp (-2 * Complex.I * Real.pi * ((0 : ℝ) : ℂ) * dt) = 1 := by
    intro dt
    simp
  refine ⟨hpar, ?_⟩
  rcases ssp_admittance h with ⟨A, tau2, dt, rfl, hA, hY⟩ | ⟨A, B, tau1, tau2, dt, rfl, hY⟩ |
    ⟨A, B, C, tau1, tau2, tau3, dt, rfl, hY⟩
  · have e := hY 0
    rw [hy0] at e
    have e' : recipZ ((A : ℝ) : ℂ) = .ok y0 := by
      rw [e, onePoleY, onePoleZ, hj]
      congr 1
      ring
    obtain ⟨h1, h2⟩ := hrec A y0 e'
    refine ⟨⟨dt, rfl, fun f => by rw [hY f]; rfl⟩, ⟨y0, ?_, ?_⟩, ?_, ?_, ?_⟩
    · change (onePoleY 0 A tau2).map _ = _
      rw [← e]
      change Except.ok (y0 * Complex.exp _) = _
      rw [hmap, mul_one]
    · rw [hd, h1, Complex.ofReal_re]
    · rintro A' t' d' he
      cases he
      rw [hd, h1, Complex.ofReal_re, hmul _ h2]
    · rintro _ _ _ _ _ he; cases he
    · rintro _ _ _ _ _ _ _ he; cases he
  · have e := hY 0
    rw [hy0] at e
    have e' : recipZ ((A + B : ℝ) : ℂ) = .ok y0 := by
      rw [e, twoPoleY, twoPoleZ, hj]
      congr 1
      push_cast
      ring
    obtain ⟨h1, h2⟩ := hrec (A + B) y0 e'
    refine ⟨⟨dt, rfl, fun f => by rw [hY f]; rfl⟩, ⟨y0, ?_, ?_⟩, ?_, ?_, ?_⟩
    · change (twoPoleY 0 A B tau1 tau2).map _ = _
      rw [← e]
      change Except.ok (y0 * Complex.exp _) = _
      rw [hmap, mul_one]
    · rw [hd, h1, Complex.ofReal_re]
    · rintro _ _ _ he; cases he
    · rintro _ _ _ _ _ he
      cases he
      rw [hd, h1, Complex.ofReal_re, hmul _ h2]
    · rintro _ _ _ _ _ _ _ he; cases he
  · have e := hY 0
    rw [hy0] at e
    have hC : (1 : ℂ) - C ≠ 0 := by
      intro hC
      unfold threePoleY threePoleZ at e
      rw [hj, if_pos (by simpa using hC)] at e
      cases e
    have e' : recipZ ((A + B / (1 - C) : ℝ) : ℂ) = .ok y0 := by
      rw [e]
      unfold threePoleY threePoleZ
      rw [hj, if_neg (by simpa using hC)]
      simp only
      congr 1
      push_cast
      ring
    obtain ⟨h1, h2⟩ := hrec (A + B / (1 - C)) y0 e'
    refine ⟨⟨dt, rfl, fun f => by rw [hY f]; rfl⟩, ⟨y0, ?_, ?_⟩, ?_, ?_, ?_⟩
    · change (threePoleY 0 A B C tau1 tau2 tau3).map _ = _
      rw [← e]
      change Except.ok (y0 * Complex.exp _) = _
      rw [hmap, mul_one]
    · rw [hd, h1, Complex.ofReal_re]
    · rintro _ _ _ he; cases he
    · rintro _ _ _ _ _ he; cases he
    · rintro _ _ _ _ _ _ _ he
      cases he
      rw [hd, h1, Complex.ofReal_re, hmul _ h2]

example : ∃ r, fitResult [1, 2, 3] [] [] 0 1 1 1 = .ok r := by
  have h : convertTo [1, 2, 3] 1 1 1 = .ok [1, 1 - 1, 1 * 2, 3] := rfl
  have hp : poleExtractor { rsh := some 1, rp := some (1 - 1), L := some (1 * 2) } = .ok 1 := by
    simp [poleExtractor]
  have hc : convertFrom [1, 1 - 1, 1 * 2, 0] = .ok [1 + (1 - 1), 1 * 2 / (1 + (1 - 1)), 0] := by
    simp only [convertFrom]
    rw [if_neg (by norm_num)]
  simp only [fitResult, h, sspArgs, complexadmittance, compleximpedance, hp, Option.getD_some, hc, recipZ]
  rw [if_neg (by norm_num [onePoleZ, jw])]
  exact ⟨_, rfl⟩

/-! ### C72: the cost -/

/-- The sum of squares which the optimiser minimises is the chi-square of the real and imaginary parts. -/
theorem residual_chi2 {pts : List Pt} {params r : List ℝ} (h : residual pts params = .ok r) :
    ∃ Y : ℝ → ℂ, (∀ p ∈ pts, fitY p.f params = .ok (Y p.f)) ∧ r.length = 2 * pts.length ∧
      (r.map fun v => v ^ 2).sum = (pts.map fun p => p.chi2 (Y p.f)).sum := by
  obtain ⟨Y, hY⟩ : ∃ Y : ℝ → ℂ, ∀ f y, fitY f params = .ok y → Y f = y := by
    refine ⟨fun f => match fitY f params with
      | .ok y => y
      | .error _ => 0, fun f y hy => ?_⟩
    simp only [hy]
  refine ⟨Y, ?_⟩
  induction pts generalizing r with
  | nil =>
    cases h
    exact ⟨(fun p hp => by cases hp), rfl, rfl⟩
  | cons q ps ih =>
    simp only [residual] at h
    cases hc : fitY q.f params with
    | error e => rw [hc] at h; cases h
    | ok c =>
      cases hr : residual ps params with
      | error e => rw [hc, hr] at h; cases h
      | ok r' =>
        rw [hc, hr] at h
        simp only at h
        by_cases h0 : q.err.re = 0 ∨ q.err.im = 0
        · rw [if_pos h0] at h; cases h
        · rw [if_neg h0] at h
          cases h
          obtain ⟨i1, i2, i3⟩ := ih hr
          refine ⟨?_, by simp [i2]; omega, ?_⟩
          · intro p hp
            rcases List.mem_cons.1 hp with rfl | hp
            · rw [hc, hY _ _ hc]
            · exact i1 p hp
          · simp only [List.map_cons, List.sum_cons]
            rw [i3]
            simp only [hY _ _ hc, Pt.chi2, Complex.sub_re, Complex.sub_im]
            ring

example : residual [⟨0, 3, 1 + Complex.I⟩] [1 / 2, 1, 0] = .ok [1, 0] := by
  have h : fitY 0 [1 / 2, 1, 0] = .ok 2 := by
    simp only [fitY, onePoleY, recipZ]
    rw [if_neg (by norm_num [onePoleZ, jw])]
    norm_num [onePoleZ, jw, Except.map]
  simp only [residual, h]
  rw [if_neg (by simp)]
  norm_num

end Verif.Didv
