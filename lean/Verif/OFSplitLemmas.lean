import Verif.OFPairProps
import Verif.OFSplitSpec

/-! Helper lemmas for C135: how the results of searches with different options are related. -/

namespace Verif.OF
open Verif Verif.Dft

variable {n : ℕ}

/-- The bins one search may return: window and sign. -/
def May (amps : ZMod n → ℝ) (nc : Option ℤ) (o : Bool) (dir wc i : ℤ) : Prop :=
  Admissible n nc o none wc i ∧ (dir = 1 → 0 < amps (i : ZMod n)) ∧ (dir = -1 → amps (i : ZMod n) < 0)

/-- What a search returns, including the tie rule. -/
theorem search_first (amps chi : ZMod n → ℝ) {nc : Option ℤ} {o : Bool} {dir wc : ℤ} {r : Option ℤ}
    (h : search amps chi nc o dir wc = .ok r) :
    (r = none → ∀ i, ¬ May amps nc o dir wc i) ∧
    ∀ i, r = some i → May amps nc o dir wc i ∧ (∀ j, May amps nc o dir wc j → chi (i : ZMod n) ≤ chi (j : ZMod n)) ∧
      ∀ j, May amps nc o dir wc j → j < i → chi (i : ZMod n) < chi (j : ZMod n) := by
  unfold search at h
  split at h
  · simp at h
  · rename_i mask hmask
    have hd := fun i => direction_admissible n nc o (asIdx amps) dir mask wc i hmask
    refine ⟨fun hr i hi => (argmin_none_iff n _ nc o mask wc r h).1 hr i ((hd i).2 hi), ?_⟩
    rintro i rfl
    obtain ⟨h1, h2, h3⟩ := argmin_ok_admissible n _ nc o mask wc i h
    exact ⟨(hd i).1 h1, fun j hj => h2 j ((hd j).2 hj), fun j hj => h3 j ((hd j).2 hj)⟩

/-- A stricter search that still admits the answer gives the same answer. -/
theorem search_strict (amps chi : ZMod n → ℝ) {nc nc' : Option ℤ} {o o' : Bool} {dir dir' wc wc' : ℤ} {r r' : Option ℤ}
    (h : search amps chi nc o dir wc = .ok r) (h' : search amps chi nc' o' dir' wc' = .ok r')
    (hsub : ∀ i, May amps nc' o' dir' wc' i → May amps nc o dir wc i)
    (hr : ∀ i, r = some i → May amps nc' o' dir' wc' i) : r' = r := by
  obtain ⟨a1, a2⟩ := search_first amps chi h
  obtain ⟨b1, b2⟩ := search_first amps chi h'
  cases r with
  | none =>
    cases r' with
    | none => rfl
    | some j => exact absurd (hsub j (b2 j rfl).1) (a1 rfl j)
  | some i =>
    have hi := hr i rfl
    cases r' with
    | none => exact absurd hi (b1 rfl i)
    | some j =>
      obtain ⟨-, u2, u3⟩ := a2 i rfl
      obtain ⟨v1, v2, v3⟩ := b2 j rfl
      rcases lt_trichotomy i j with hij | hij | hij
      · exact absurd (v3 i hi hij) (not_lt.2 (u2 j (hsub j v1)))
      · rw [hij]
      · exact absurd (u3 j (hsub j v1) hij) (not_lt.2 (v2 i hi))

/-- Errors of a search do not depend on the window (if it is positive). -/
theorem search_window_error (amps chi : ZMod n → ℝ) {k : ℤ} (o o' : Bool) {dir wc : ℤ} {e : Err}
    (h : search amps chi none o dir wc = .error e) : search amps chi (some k) o' dir wc = .error e := by
  unfold search at h ⊢
  split at h
  · exact h
  · rename_i mask hmask
    have he := argmin_only_valueError _ _ _ _ _ _ _ h
    subst he
    rw [argmin_error_iff] at h ⊢
    rcases h with h | ⟨_, h, -⟩
    · exact .inl h
    · cases h

theorem search_window_ok (amps chi : ZMod n → ℝ) {k : ℤ} (hk : 0 < k) {nc : Option ℤ} {o : Bool} (o' : Bool)
    {dir wc : ℤ} {r : Option ℤ} (h : search amps chi nc o dir wc = .ok r) :
    ∃ r', search amps chi (some k) o' dir wc = .ok r' := by
  unfold search at h ⊢
  split at h
  · simp at h
  · rename_i mask hmask
    cases h' : argminChi2 n (asIdx chi) (some k) o' mask wc with
    | ok r' => exact ⟨r', rfl⟩
    | error e =>
      have he := argmin_only_valueError _ _ _ _ _ _ _ h'
      subst he
      rw [argmin_error_iff] at h'
      have : argminChi2 n (asIdx chi) nc o mask wc = .error .valueError := by
        rw [argmin_error_iff]
        rcases h' with h' | ⟨m, hm, hm2⟩
        · exact .inl h'
        · cases hm; omega
      rw [this] at h
      cases h

/-- The search over all bins is the search inside or the search outside a window. -/
theorem search_split (amps chi : ZMod n → ℝ) {k : ℤ} (hk : 0 < k) (o : Bool) (dir wc : ℤ) :
    search amps chi none o dir wc = search amps chi (some k) false dir wc ∨
    search amps chi none o dir wc = search amps chi (some k) true dir wc := by
  cases h : search amps chi none o dir wc with
  | error e => exact .inl (search_window_error amps chi o false h).symm
  | ok r =>
    obtain ⟨r1, h1⟩ := search_window_ok amps chi hk false h
    obtain ⟨r2, h2⟩ := search_window_ok amps chi hk true h
    have hsub : ∀ o', ∀ i, May amps (some k) o' dir wc i → May amps none o dir wc i := by
      rintro o' i ⟨⟨a, b, -, -⟩, c⟩
      exact ⟨⟨a, b, by simp, by simp⟩, c⟩
    rw [h1, h2]
    by_cases hin : ∀ i, r = some i → May amps (some k) false dir wc i
    · rw [search_strict amps chi h h1 (hsub false) hin]
      exact .inl rfl
    · right
      rw [search_strict amps chi h h2 (hsub true) ?_]
      push Not at hin
      obtain ⟨i, rfl, hi⟩ := hin
      rintro j hj
      cases hj
      obtain ⟨c1, c2⟩ := ((search_first amps chi h).2 i rfl).1
      refine ⟨(window_partition n k wc i none c1.1 c1.2.1 (by simp)).2 fun hc => hi ⟨hc, c2⟩, c2⟩

/-- A window of `k` bins lies in the window of more bins around the same centre. -/
theorem window_mono {k k' wc i : ℤ} (hkk : k ≤ k') (h : InWindow n (min k n) wc i) : InWindow n (min k' n) wc i := by
  unfold InWindow at h ⊢
  omega

/-- Read out the result of a search. -/
noncomputable def outcome (τ : ℤ → ℝ) (amps chi : ZMod n → ℝ) (c0 : ℝ) : Except Err (Option ℤ) → Except Err (ℝ × ℝ × ℝ)
  | .error e => .error e
  | .ok none => .ok (0, 0, c0)
  | .ok (some i) => .ok (amps (i : ZMod n), τ i, chi (i : ZMod n))

theorem outcome_ok {τ : ℤ → ℝ} {amps chi : ZMod n → ℝ} {c0 a t c : ℝ} {s : Except Err (Option ℤ)}
    (h : outcome τ amps chi c0 s = .ok (a, t, c)) : ∃ r, s = .ok r ∧
      ((r = none ∧ a = 0 ∧ t = 0 ∧ c = c0) ∨
        ∃ i : ℤ, r = some i ∧ a = amps (i : ZMod n) ∧ t = τ i ∧ c = chi (i : ZMod n)) := by
  match s, h with
  | .ok none, h => cases h; exact ⟨_, rfl, .inl ⟨rfl, rfl, rfl, rfl⟩⟩
  | .ok (some i), h => cases h; exact ⟨_, rfl, .inr ⟨i, rfl, rfl, rfl, rfl⟩⟩

section generic

variable {τ : ℤ → ℝ} {amps chi : ZMod n → ℝ} {c0 N : ℝ}

/-- Looser searches have the smaller chi-square. -/
theorem outcome_mono (hN : 0 < N) (hq : ∀ i, chi i = c0 - amps i ^ 2 * N) {nc nc' : Option ℤ} {o o' : Bool}
    {dir dir' wc wc' : ℤ} (hsub : ∀ i, May amps nc' o' dir' wc' i → May amps nc o dir wc i) {a t c a' t' c' : ℝ}
    (h : outcome τ amps chi c0 (search amps chi nc o dir wc) = .ok (a, t, c))
    (h' : outcome τ amps chi c0 (search amps chi nc' o' dir' wc') = .ok (a', t', c')) : c ≤ c' := by
  obtain ⟨r, hr, h1⟩ := outcome_ok h
  obtain ⟨r', hr', h2⟩ := outcome_ok h'
  have hle : ∀ i, chi i ≤ c0 := fun i => by rw [hq]; nlinarith [sq_nonneg (amps i)]
  rcases h1 with ⟨rfl, -, -, rfl⟩ | ⟨i, rfl, -, -, rfl⟩
  · rcases h2 with ⟨rfl, -, -, rfl⟩ | ⟨j, rfl, -, -, rfl⟩
    · exact le_rfl
    · exact absurd (hsub j ((search_first amps chi hr').2 j rfl).1) ((search_first amps chi hr).1 rfl j)
  · rcases h2 with ⟨rfl, -, -, rfl⟩ | ⟨j, rfl, -, -, rfl⟩
    · exact hle _
    · exact ((search_first amps chi hr).2 i rfl).2.1 j (hsub j ((search_first amps chi hr').2 j rfl).1)

/-- The search without direction is one of the searches with a direction, unless the amplitude is zero. -/
theorem outcome_dir (hN : 0 < N) (hq : ∀ i, chi i = c0 - amps i ^ 2 * N) {nc : Option ℤ} {o : Bool} {wc : ℤ}
    {a t c a1 t1 c1 a2 t2 c2 : ℝ} (h : outcome τ amps chi c0 (search amps chi nc o 0 wc) = .ok (a, t, c))
    (h1 : outcome τ amps chi c0 (search amps chi nc o 1 wc) = .ok (a1, t1, c1))
    (h2 : outcome τ amps chi c0 (search amps chi nc o (-1) wc) = .ok (a2, t2, c2)) :
    (0 < a → (a, t, c) = (a1, t1, c1)) ∧ (a < 0 → (a, t, c) = (a2, t2, c2)) ∧
    (a = 0 → a1 = 0 ∧ a2 = 0 ∧ c1 = c ∧ c2 = c) := by
  have hsub : ∀ d i, May amps nc o d wc i → May amps nc o 0 wc i := fun d i hi => ⟨hi.1, by simp, by simp⟩
  have m1 := outcome_mono hN hq (hsub 1) h h1
  have m2 := outcome_mono hN hq (hsub (-1)) h h2
  obtain ⟨r, hr, e⟩ := outcome_ok h
  obtain ⟨r1, hr1, e1⟩ := outcome_ok h1
  obtain ⟨r2, hr2, e2⟩ := outcome_ok h2
  have same : ∀ d r' i, r = some i → search amps chi nc o d wc = .ok r' → May amps nc o d wc i → r' = some i := by
    rintro d r' i rfl hr' hi
    exact search_strict amps chi hr hr' (hsub d) (fun j hj => by cases hj; exact hi)
  refine ⟨fun ha => ?_, fun ha => ?_, fun ha => ?_⟩
  · rcases e with ⟨-, rfl, -⟩ | ⟨i, ri, rfl, rfl, rfl⟩
    · exact absurd ha (lt_irrefl _)
    · have := same 1 r1 i ri hr1 ⟨((search_first amps chi hr).2 i ri).1.1, fun _ => ha, by norm_num⟩
      rcases e1 with ⟨h0, -⟩ | ⟨j, rj, rfl, rfl, rfl⟩
      · rw [h0] at this; cases this
      · rw [rj] at this; cases this; rfl
  · rcases e with ⟨-, rfl, -⟩ | ⟨i, ri, rfl, rfl, rfl⟩
    · exact absurd ha (lt_irrefl _)
    · have := same (-1) r2 i ri hr2 ⟨((search_first amps chi hr).2 i ri).1.1, by norm_num, fun _ => ha⟩
      rcases e2 with ⟨h0, -⟩ | ⟨j, rj, rfl, rfl, rfl⟩
      · rw [h0] at this; cases this
      · rw [rj] at this; cases this; rfl
  · have hc : c = c0 := by
      rcases e with ⟨-, -, -, e⟩ | ⟨i, -, e, -, e'⟩
      · exact e
      · rw [e', hq, ← e, ha]; ring
    have zero : ∀ r' a' t' c', c ≤ c' → ((r' = none ∧ a' = 0 ∧ t' = 0 ∧ c' = c0) ∨
        ∃ i : ℤ, r' = some i ∧ a' = amps (i : ZMod n) ∧ t' = τ i ∧ c' = chi (i : ZMod n)) → a' = 0 ∧ c' = c := by
      rintro r' a' t' c' hle (⟨-, h1, -, h2⟩ | ⟨i, -, h1, -, h2⟩)
      · exact ⟨h1, h2.trans hc.symm⟩
      · rw [h2, hq, ← h1, hc] at hle
        have : a' ^ 2 = 0 := by nlinarith [sq_nonneg a']
        refine ⟨by simpa using this, ?_⟩
        rw [h2, hq, ← h1, this, hc]
        ring
    obtain ⟨x1, y1⟩ := zero r1 a1 t1 c1 m1 e1
    obtain ⟨x2, y2⟩ := zero r2 a2 t2 c2 m2 e2
    exact ⟨x1, x2, y1, y2⟩

end generic

variable [NeZero n]

/-- Every fit is a search whose arrays do not depend on the options. -/
theorem run_search (s : Searching) (st : State n) (interp : Bool) :
    ∃ (amps chi : ZMod n → ℝ) (g : Except Err (Option ℤ) → Except Err (ℝ × ℝ × ℝ)),
      ∀ nc o dir wc, s.run st nc o dir wc interp = g (search amps chi nc o dir wc) := by
  cases s with
  | withdelay =>
    exact ⟨readAmps st, readChi st, fun r => pick st.fs (readAmps st) (readChi st) (readChi0 st) r interp,
      fun _ _ _ _ => rfl⟩
  | pileup a1 t1 =>
    by_cases hi : -(n : ℤ) ≤ t1Index st t1 ∧ t1Index st t1 < n
    · refine ⟨roll (pileupA2 st a1 t1) ((n / 2 : ℕ) : ZMod n), roll (pileupChi st a1 t1) ((n / 2 : ℕ) : ZMod n),
        fun r => match r with
        | .error e => .error e
        | .ok none => .ok (0, 0, readChi0 st + pileupChit st a1 t1)
        | .ok (some i) => if interp then
            match interpolateOf (roll (pileupA2 st a1 t1) ((n / 2 : ℕ) : ZMod n))
              (roll (pileupChi st a1 t1) ((n / 2 : ℕ) : ZMod n)) i (1 / st.fs) with
            | .error e => .error e
            | .ok (a, dt, c) => .ok (a, readTimes st (i : ZMod n) + dt, c)
          else .ok (roll (pileupA2 st a1 t1) ((n / 2 : ℕ) : ZMod n) (i : ZMod n), readTimes st (i : ZMod n),
            roll (pileupChi st a1 t1) ((n / 2 : ℕ) : ZMod n) (i : ZMod n)), fun nc o dir wc => ?_⟩
      simp only [Searching.run, pileupIterative]
      rw [if_neg (not_not.2 hi)]
      cases search (roll (pileupA2 st a1 t1) ((n / 2 : ℕ) : ZMod n))
        (roll (pileupChi st a1 t1) ((n / 2 : ℕ) : ZMod n)) nc o dir wc with
      | error e => rfl
      | ok r => cases r <;> rfl
    · refine ⟨0, 0, fun _ => .error .indexError, fun nc o dir wc => ?_⟩
      simp only [Searching.run, pileupIterative]
      rw [if_pos hi]
  | baseline =>
    simp only [Searching.run, OF.baseline]
    cases hp : st.psd0 with
    | top => exact ⟨0, 0, fun _ => .error .nan, fun _ _ _ _ => rfl⟩
    | coe p0 =>
      simp only
      split_ifs with hb
      · exact ⟨0, 0, fun _ => .error .nan, fun _ _ _ _ => rfl⟩
      · cases ha : argminOn (asIdx (baseChi1 (baseQ st p0))) (arange 0 n) with
        | none => exact ⟨0, 0, fun _ => .error .valueError, fun _ _ _ _ => rfl⟩
        | some i0 =>
          exact ⟨_, _, fun r => pick st.fs _ _ _ r interp, fun _ _ _ _ => rfl⟩

/-- Without interpolation the chi-square of every fit is quadratic in its amplitudes. -/
theorem run_quad (s : Searching) (x T : ZMod n → ℝ) (psd : ZMod n → WithTop ℝ) (fs : ℝ) (ac : Bool) (hfs : 0 < fs)
    (hpsd : ∀ k, 0 < psd k) (hT : 0 < traceChi2 fs (weight psd ac) T) :
    (∃ e, ∀ nc o dir wc, s.run (init x T psd fs ac false) nc o dir wc false = .error e) ∨
    ∃ (amps chi : ZMod n → ℝ) (τ : ℤ → ℝ) (c0 N : ℝ), 0 < N ∧ (∀ i, chi i = c0 - amps i ^ 2 * N) ∧
      (∀ i : ℤ, 0 ≤ i → i < n → τ i = (i - (n / 2 : ℕ)) / fs) ∧
      ∀ nc o dir wc, s.run (init x T psd fs ac false) nc o dir wc false =
        outcome τ amps chi c0 (search amps chi nc o dir wc) := by
  have hNn : 0 < (init x T psd fs ac false).norm := by rw [init_norm]; exact hT
  have hpick : ∀ (amps chi : ZMod n → ℝ) (c0 : ℝ) (r : Except Err (Option ℤ)),
      pick fs amps chi c0 r false = outcome (fun i => ((i : ℝ) - ((n / 2 : ℕ) : ℝ)) / fs) amps chi c0 r := by
    intro amps chi c0 r
    match r with
    | .error e => rfl
    | .ok none => rfl
    | .ok (some i) => rfl
  cases s with
  | withdelay =>
    right
    refine ⟨readAmps (init x T psd fs ac false), readChi (init x T psd fs ac false), _, _,
      (init x T psd fs ac false).norm, hNn, fun i => rfl, fun _ _ _ => rfl, fun nc o dir wc => hpick _ _ _ _⟩
  | pileup a1 t1 =>
    by_cases hi : -(n : ℤ) ≤ t1Index (init x T psd fs ac false) t1 ∧ t1Index (init x T psd fs ac false) t1 < n
    · right
      refine ⟨roll (pileupA2 (init x T psd fs ac false) a1 t1) ((n / 2 : ℕ) : ZMod n),
        roll (pileupChi (init x T psd fs ac false) a1 t1) ((n / 2 : ℕ) : ZMod n),
        fun i => readTimes (init x T psd fs ac false) (i : ZMod n), _, (init x T psd fs ac false).norm, hNn,
        fun i => pile_chi _ hNn.ne' a1 t1 _, fun i h1 h2 => ?_, fun nc o dir wc => ?_⟩
      · have : ((i : ZMod n).val : ℝ) = i := by
          have := ZMod.val_intCast (n := n) i
          rw [Int.emod_eq_of_lt h1 h2] at this
          exact_mod_cast congrArg (fun z : ℤ => (z : ℝ)) this
        change (((i : ZMod n).val : ℝ) - ((n / 2 : ℕ) : ℝ)) / fs = _
        rw [this]
      · simp only [Searching.run, pileupIterative]
        rw [if_neg (not_not.2 hi)]
        cases search (roll (pileupA2 (init x T psd fs ac false) a1 t1) ((n / 2 : ℕ) : ZMod n))
          (roll (pileupChi (init x T psd fs ac false) a1 t1) ((n / 2 : ℕ) : ZMod n)) nc o dir wc with
        | error e => rfl
        | ok r => cases r <;> rfl
    · left
      refine ⟨.indexError, fun nc o dir wc => ?_⟩
      simp only [Searching.run, pileupIterative]
      rw [if_pos hi]
  | baseline =>
    have hpsd0 : (init x T psd fs ac false).psd0 = psd 0 := rfl
    simp only [Searching.run, OF.baseline, hpsd0]
    cases hp : psd 0 with
    | top => exact .inl ⟨.nan, fun _ _ _ _ => rfl⟩
    | coe p0 =>
      simp only
      split_ifs with hb
      · exact .inl ⟨.nan, fun _ _ _ _ => rfl⟩
      · push Not at hb
        cases ha : argminOn (asIdx (baseChi1 (baseQ (init x T psd fs ac false) p0))) (arange 0 n) with
        | none => exact .inl ⟨.valueError, fun _ _ _ _ => rfl⟩
        | some i0 =>
          right
          have hqN : 0 < (baseQ (init x T psd fs ac false) p0).norm := by
            refine lt_of_le_of_ne ?_ hb.2.2.symm
            rw [base_norm x T psd fs ac p0 hp]
            exact ip_nonneg _ _ _ hfs.le (weight_nonneg psd false hpsd)
          refine ⟨_, _, _, _, (baseQ (init x T psd fs ac false) p0).norm, hqN, ?_, fun _ _ _ => rfl,
            fun nc o dir wc => hpick _ _ _ _⟩
          intro i
          simp only [roll, baseChi2, baseAmps2]
          field_simp
          ring

end Verif.OF
