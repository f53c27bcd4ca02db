import Verif.OFSplitLemmas
import Verif.OFRecOkProps

/-! C135: searches with different windows and directions agree with each other. -/

namespace Verif.OF
open Verif Verif.Dft

variable {n : ℕ} [NeZero n]

/-- **C135.**  For every object and with or without interpolation: the fit over all delays is the fit inside or the fit
outside any window, whatever it returns or raises. -/
theorem searching_split (s : Searching) (st : State n) {k : ℤ} (hk : 0 < k) (o : Bool) (dir wc : ℤ) (interp : Bool) :
    s.run st none o dir wc interp = s.run st (some k) false dir wc interp ∨
    s.run st none o dir wc interp = s.run st (some k) true dir wc interp := by
  obtain ⟨amps, chi, g, h⟩ := run_search s st interp
  simp only [h]
  rcases search_split amps chi hk o dir wc with e | e
  · exact .inl (by rw [e])
  · exact .inr (by rw [e])

/-- **C135.**  The stationary pile-up fit as well. -/
theorem stationary_split (st : State n) {k : ℤ} (hk : 0 < k) (o : Bool) (wc : ℤ) :
    (pileupStationary st none o wc).1 = (pileupStationary st (some k) false wc).1 ∨
    (pileupStationary st none o wc).1 = (pileupStationary st (some k) true wc).1 := by
  set chi := roll (statChi st) ((n / 2 : ℕ) : ZMod n) with hchi
  have hs : ∀ nc o', argminChi2 n (asIdx chi) nc o' none wc = search (0 : ZMod n → ℝ) chi nc o' 0 wc := by
    intro nc o'
    simp [search, directionMask]
  simp only [pileupStationary, ← hchi, hs]
  cases h : search (0 : ZMod n → ℝ) chi none o 0 wc with
  | error e =>
    left
    rw [search_window_error 0 chi o false h]
  | ok r =>
    obtain ⟨r1, h1⟩ := search_window_ok 0 chi hk false h
    obtain ⟨r2, h2⟩ := search_window_ok 0 chi hk true h
    have hbins : ∀ nc o' r', search (0 : ZMod n → ℝ) chi nc o' 0 wc = .ok r' → ∀ i,
        i ∈ searchedBins n nc o' wc ↔ Admissible n nc o' none wc i := by
      intro nc o' r' hr' i
      rw [← hs] at hr'
      exact mem_searched n (asIdx chi) nc o' wc r' hr' i
    have b0 := hbins _ _ _ h
    have b1 := hbins _ _ _ h1
    have b2 := hbins _ _ _ h2
    have hne : ∀ nc o' j, search (0 : ZMod n → ℝ) chi nc o' 0 wc = .ok none → ¬ Admissible n nc o' none wc j :=
      fun nc o' j hr' hj => (search_first 0 chi hr').1 rfl j ⟨hj, by simp, by simp⟩
    have hsub : ∀ o' j, Admissible n (some k) o' none wc j → Admissible n none o none wc j :=
      fun o' j hj => ⟨hj.1, hj.2.1, by simp, by simp⟩
    set bad : ℤ → Prop := fun j => (j : ZMod n) - ((n / 2 : ℕ) : ZMod n) ≠ 0 ∧
      st.norm ^ 2 - tfTd st ((j : ZMod n) - ((n / 2 : ℕ) : ZMod n)) ^ 2 = 0 with hbad
    have heq : search (0 : ZMod n → ℝ) chi (some k) false 0 wc = search (0 : ZMod n → ℝ) chi none o 0 wc ∨
        search (0 : ZMod n → ℝ) chi (some k) true 0 wc = search (0 : ZMod n → ℝ) chi none o 0 wc := by
      rcases search_split 0 chi hk o 0 wc with e | e
      · exact .inl e.symm
      · exact .inr e.symm
    rw [h1, h2, h] at heq
    rw [h1, h2]
    simp only [Except.ok.injEq] at heq
    by_cases hb : ∃ j ∈ searchedBins n none o wc, bad j
    · obtain ⟨j, hj, hbj⟩ := hb
      have hadm := (b0 j).1 hj
      have hr0 : ∃ i, r = some i := by
        cases r with
        | none => exact absurd hadm (hne _ _ _ h)
        | some i => exact ⟨i, rfl⟩
      obtain ⟨i, rfl⟩ := hr0
      by_cases hin : Admissible n (some k) false none wc j
      · left
        cases r1 with
        | none => exact absurd hin (hne _ _ _ h1)
        | some i1 =>
          dsimp only
          rw [if_pos ⟨j, hj, hbj⟩, if_pos ⟨j, (b1 j).2 hin, hbj⟩]
      · right
        have hout := (window_partition n k wc j none hadm.1 hadm.2.1 (by simp)).2 hin
        cases r2 with
        | none => exact absurd hout (hne _ _ _ h2)
        | some i2 =>
          dsimp only
          rw [if_pos ⟨j, hj, hbj⟩, if_pos ⟨j, (b2 j).2 hout, hbj⟩]
    · have hb1 : ¬ ∃ j ∈ searchedBins n (some k) false wc, bad j := by
        rintro ⟨j, hj, hbj⟩
        exact hb ⟨j, (b0 j).2 (hsub _ j ((b1 j).1 hj)), hbj⟩
      have hb2 : ¬ ∃ j ∈ searchedBins n (some k) true wc, bad j := by
        rintro ⟨j, hj, hbj⟩
        exact hb ⟨j, (b0 j).2 (hsub _ j ((b2 j).1 hj)), hbj⟩
      rcases heq with rfl | rfl
      · left
        cases r1 with
        | none => rfl
        | some i =>
          dsimp only
          rw [if_neg hb, if_neg hb1]
      · right
        cases r2 with
        | none => rfl
        | some i =>
          dsimp only
          rw [if_neg hb, if_neg hb2]

/-- **C135.**  Without interpolation it is the one with the smaller chi-square. -/
theorem searching_min (s : Searching) (x T : ZMod n → ℝ) (psd : ZMod n → WithTop ℝ) (fs : ℝ) (ac : Bool) (hfs : 0 < fs)
    (hpsd : ∀ k, 0 < psd k) (hT : 0 < traceChi2 fs (weight psd ac) T) {k : ℤ} (hk : 0 < k) (o : Bool) (dir wc : ℤ)
    {a t c a1 t1 c1 a2 t2 c2 : ℝ}
    (h : s.run (init x T psd fs ac false) none o dir wc false = .ok (a, t, c))
    (h1 : s.run (init x T psd fs ac false) (some k) false dir wc false = .ok (a1, t1, c1))
    (h2 : s.run (init x T psd fs ac false) (some k) true dir wc false = .ok (a2, t2, c2)) : c = min c1 c2 := by
  have hsub : ∀ amps : ZMod n → ℝ, ∀ o' i, May amps (some k) o' dir wc i → May amps none o dir wc i := by
    rintro amps o' i ⟨⟨a, b, -, -⟩, c⟩
    exact ⟨⟨a, b, by simp, by simp⟩, c⟩
  have hor := searching_split s (init x T psd fs ac false) hk o dir wc false
  rw [h, h1, h2] at hor
  rcases run_quad s x T psd fs ac hfs hpsd hT with ⟨e, he⟩ | ⟨amps, chi, τ, c0, N, hN, hq, -, hrun⟩
  · rw [he] at h; cases h
  · rw [hrun] at h h1 h2
    have m1 := outcome_mono hN hq (hsub amps false) h h1
    have m2 := outcome_mono hN hq (hsub amps true) h h2
    rcases hor with e | e
    · simp only [Except.ok.injEq, Prod.mk.injEq] at e
      rw [e.2.2] at m2 ⊢
      exact (min_eq_left m2).symm
    · simp only [Except.ok.injEq, Prod.mk.injEq] at e
      rw [e.2.2] at m1 ⊢
      exact (min_eq_right m1).symm

/-- **C135.**  A wider window has the smaller chi-square inside and the larger one outside. -/
theorem searching_mono (s : Searching) (x T : ZMod n → ℝ) (psd : ZMod n → WithTop ℝ) (fs : ℝ) (ac : Bool) (hfs : 0 < fs)
    (hpsd : ∀ k, 0 < psd k) (hT : 0 < traceChi2 fs (weight psd ac) T) {k k' : ℤ} (hkk : k ≤ k') (o : Bool) (dir wc : ℤ)
    {a t c a' t' c' : ℝ}
    (h : s.run (init x T psd fs ac false) (some k) o dir wc false = .ok (a, t, c))
    (h' : s.run (init x T psd fs ac false) (some k') o dir wc false = .ok (a', t', c')) :
    if o then c ≤ c' else c' ≤ c := by
  rcases run_quad s x T psd fs ac hfs hpsd hT with ⟨e, he⟩ | ⟨amps, chi, τ, c0, N, hN, hq, -, hrun⟩
  · rw [he] at h; cases h
  · rw [hrun] at h h'
    cases o with
    | false =>
      refine outcome_mono hN hq ?_ h' h
      rintro i ⟨⟨a, b, w, -⟩, d⟩
      refine ⟨⟨a, b, ?_, by simp⟩, d⟩
      rintro m rfl'
      cases rfl'
      exact window_mono hkk (w k rfl)
    | true =>
      refine outcome_mono hN hq ?_ h h'
      rintro i ⟨⟨a, b, w, -⟩, d⟩
      refine ⟨⟨a, b, ?_, by simp⟩, d⟩
      rintro m rfl'
      cases rfl'
      exact fun hc => (w k' rfl) (window_mono hkk hc)

/-- **C135.**  A window that admits the delay found in a wider window (or without one) does not change the result. -/
theorem searching_same (s : Searching) (x T : ZMod n → ℝ) (psd : ZMod n → WithTop ℝ) (fs : ℝ) (ac : Bool) (hfs : 0 < fs)
    (hpsd : ∀ k, 0 < psd k) (hT : 0 < traceChi2 fs (weight psd ac) T) {k : ℤ} (hk : 0 < k) {nc : Option ℤ}
    (hnc : ∀ m, nc = some m → k ≤ m) (dir wc : ℤ) {a t c : ℝ} {d : ℤ}
    (h : s.run (init x T psd fs ac false) nc false dir wc false = .ok (a, t, c)) (ht : t = d / fs)
    (hd : InWindow n (min k n) wc (d + (n : ℤ) / 2)) :
    s.run (init x T psd fs ac false) (some k) false dir wc false = .ok (a, t, c) := by
  rcases run_quad s x T psd fs ac hfs hpsd hT with ⟨e, he⟩ | ⟨amps, chi, τ, c0, N, -, -, hτ, hrun⟩
  · rw [he] at h; cases h
  · rw [hrun] at h ⊢
    obtain ⟨r, hr, hval⟩ := outcome_ok h
    obtain ⟨r', hr'⟩ := search_window_ok amps chi hk false hr
    have : r' = r := by
      refine search_strict amps chi hr hr' ?_ ?_
      · rintro i ⟨⟨a, b, w, -⟩, e⟩
        refine ⟨⟨a, b, fun m hm => ?_, by simp⟩, e⟩
        exact window_mono (hnc m hm) (w k rfl)
      · rintro i rfl
        obtain ⟨⟨w1, w2, -, -⟩, e⟩ := ((search_first amps chi hr).2 i rfl).1
        rcases hval with ⟨h0, -⟩ | ⟨j, hj, -, htj, -⟩
        · cases h0
        · cases hj
          rw [hτ i w1 w2, ht, div_left_inj' hfs.ne'] at htj
          have hdi : d + (n : ℤ) / 2 = i := by
            have : (d : ℝ) = ((i - ((n / 2 : ℕ) : ℤ) : ℤ) : ℝ) := by rw [htj, Int.cast_sub, Int.cast_natCast]
            have := Int.cast_injective this
            omega
          rw [hdi] at hd
          refine ⟨⟨w1, w2, fun m hm => ?_, by simp⟩, e⟩
          cases hm
          exact hd
    rw [hr', this, ← hr]
    exact h

/-- **C135.**  The fit of unconstrained direction is the fit of the direction it finds; if it finds amplitude zero the
others do. -/
theorem searching_direction (s : Searching) (x T : ZMod n → ℝ) (psd : ZMod n → WithTop ℝ) (fs : ℝ) (ac : Bool)
    (hfs : 0 < fs) (hpsd : ∀ k, 0 < psd k) (hT : 0 < traceChi2 fs (weight psd ac) T) (nc : Option ℤ) (o : Bool) (wc : ℤ)
    {a t c a1 t1 c1 a2 t2 c2 : ℝ}
    (h : s.run (init x T psd fs ac false) nc o 0 wc false = .ok (a, t, c))
    (h1 : s.run (init x T psd fs ac false) nc o 1 wc false = .ok (a1, t1, c1))
    (h2 : s.run (init x T psd fs ac false) nc o (-1) wc false = .ok (a2, t2, c2)) :
    c = min c1 c2 ∧ (0 < a → (a, t, c) = (a1, t1, c1)) ∧ (a < 0 → (a, t, c) = (a2, t2, c2)) ∧
      (a = 0 → a1 = 0 ∧ a2 = 0 ∧ c1 = c ∧ c2 = c) := by
  rcases run_quad s x T psd fs ac hfs hpsd hT with ⟨e, he⟩ | ⟨amps, chi, τ, c0, N, hN, hq, -, hrun⟩
  · rw [he] at h; cases h
  · rw [hrun] at h h1 h2
    have hsub : ∀ d i, May amps nc o d wc i → May amps nc o 0 wc i := fun d i hi => ⟨hi.1, by simp, by simp⟩
    have m1 := outcome_mono hN hq (hsub 1) h h1
    have m2 := outcome_mono hN hq (hsub (-1)) h h2
    obtain ⟨e1, e2, e3⟩ := outcome_dir hN hq h h1 h2
    refine ⟨?_, e1, e2, e3⟩
    rcases lt_trichotomy a 0 with ha | ha | ha
    · have := e2 ha
      simp only [Prod.mk.injEq] at this
      rw [this.2.2] at m1 ⊢
      exact (min_eq_right m1).symm
    · obtain ⟨-, -, x1, x2⟩ := e3 ha
      rw [x1, x2, min_self]
    · have := e1 ha
      simp only [Prod.mk.injEq] at this
      rw [this.2.2] at m2 ⊢
      exact (min_eq_left m2).symm

/-- A pulse of height 5 at delay −3 in white noise, fitted inside and outside a window of 7 bins around −2 and without
one, and with each direction. -/
example : ∃ a1 t1 c1 a2 t2 c2,
    Searching.withdelay.run (init (n := 8) (fun j => 5 * roll delta ((-3 : ℤ) : ZMod 8) j) delta white 1 false false)
      (some 7) false 0 (-2) false = .ok (a1, t1, c1) ∧
    Searching.withdelay.run (init (n := 8) (fun j => 5 * roll delta ((-3 : ℤ) : ZMod 8) j) delta white 1 false false)
      (some 7) true 0 (-2) false = .ok (a2, t2, c2) ∧
    Searching.withdelay.run (init (n := 8) (fun j => 5 * roll delta ((-3 : ℤ) : ZMod 8) j) delta white 1 false false)
      none false 0 (-2) false = .ok (5, (-3 : ℤ) / 1, 0) ∧ min c1 c2 = 0 ∧ (a1, t1, c1) = (5, ((-3 : ℤ) : ℝ) / 1, 0) := by
  have hT : 0 < traceChi2 1 (weight white false) (delta : ZMod 8 → ℝ) := by rw [delta_norm]; norm_num
  have h0 : Searching.withdelay.run (init (n := 8) (fun j => 5 * roll delta ((-3 : ℤ) : ZMod 8) j) delta white 1 false
      false) none false 0 (-2) false = .ok (5, (-3 : ℤ) / 1, 0) := by
    refine withdelay_recovers delta white 1 false 5 (-3) one_pos (fun _ => by simp [white]) (by norm_num)
      (fun c _ h => ?_) _ _ _ _ (by tauto) (by norm_num) (by simp) ⟨by norm_num, by norm_num, by simp, by simp⟩
      (by norm_num) (by norm_num)
    funext j
    have := white_zero h j
    rw [pulses_delta, add_zero] at this
    exact this
  obtain ⟨a1, t1, c1, h1⟩ := withdelay_ok (init (n := 8) (fun j => 5 * roll delta ((-3 : ℤ) : ZMod 8) j) delta white 1
    false false) (nc := some 7) false (dir := 0) (wc := -2) (by tauto) (by norm_num) (by simp)
  obtain ⟨a2, t2, c2, h2⟩ := withdelay_ok (init (n := 8) (fun j => 5 * roll delta ((-3 : ℤ) : ZMod 8) j) delta white 1
    false false) (nc := some 7) true (dir := 0) (wc := -2) (by tauto) (by norm_num) (by simp)
  have hs := searching_same .withdelay _ _ white 1 false one_pos (fun _ => by simp [white]) hT (k := 7) (by norm_num)
    (by simp) 0 (-2) h0 rfl (by norm_num [InWindow])
  have hm := searching_min .withdelay _ _ white 1 false one_pos (fun _ => by simp [white]) hT (k := 7) (by norm_num)
    false 0 (-2) h0 h1 h2
  refine ⟨a1, t1, c1, a2, t2, c2, h1, h2, h0, hm.symm, ?_⟩
  have e : Except.ok (a1, t1, c1) = (.ok (5, ((-3 : ℤ) : ℝ) / 1, 0) : Except Err (ℝ × ℝ × ℝ)) := h1.symm.trans hs
  simpa using e

/-- The directions of the same pulse: the positive fit is the free one and the negative one is no better. -/
example : ∃ a2 t2 c2,
    Searching.withdelay.run (init (n := 8) (fun j => 5 * roll delta ((-3 : ℤ) : ZMod 8) j) delta white 1 false false)
      none false (-1) 0 false = .ok (a2, t2, c2) ∧ 0 ≤ c2 := by
  have hT : 0 < traceChi2 1 (weight white false) (delta : ZMod 8 → ℝ) := by rw [delta_norm]; norm_num
  have hr : ∀ dir : ℤ, dir = 0 ∨ dir = 1 → Searching.withdelay.run (init (n := 8) (fun j => 5 * roll delta
      ((-3 : ℤ) : ZMod 8) j) delta white 1 false false) none false dir 0 false = .ok (5, (-3 : ℤ) / 1, 0) := by
    intro dir hd
    refine withdelay_recovers delta white 1 false 5 (-3) one_pos (fun _ => by simp [white]) (by norm_num)
      (fun c _ h => ?_) _ _ _ _ (by tauto) (by norm_num) (by simp) ⟨by norm_num, by norm_num, by simp, by simp⟩
      (by norm_num) (by rcases hd with rfl | rfl <;> norm_num)
    funext j
    have := white_zero h j
    rw [pulses_delta, add_zero] at this
    exact this
  obtain ⟨a2, t2, c2, h2⟩ := withdelay_ok (init (n := 8) (fun j => 5 * roll delta ((-3 : ℤ) : ZMod 8) j) delta white 1
    false false) (nc := none) false (dir := -1) (wc := 0) (by tauto) (by norm_num) (by simp)
  have := (searching_direction .withdelay _ _ white 1 false one_pos (fun _ => by simp [white]) hT none false 0
    (hr 0 (.inl rfl)) (hr 1 (.inr rfl)) h2).1
  refine ⟨a2, t2, c2, h2, ?_⟩
  rw [min_def] at this
  split_ifs at this with hle
  · exact hle
  · exact this.le

end Verif.OF
