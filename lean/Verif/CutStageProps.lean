import Verif.CutStageLemmas

/-! Property C105: what the cut stages of `autocuts` depend on. -/

namespace Verif.Cut
open Verif Verif.Dft

variable {n : ℕ} [NeZero n]

/-- `pileupcut` does not depend on the offset of any trace, on the units of the traces, on their
polarity, nor on `removemeans`.  `prs` are the traces, each with an offset. -/
theorem pileupcut_invariant (env : Env) (fs : ℝ) (algo : Algo) (nsig : ℝ) (rm rm' : Bool) {a : ℝ}
    (ha : a ≠ 0) (prs : List (ℝ × (ZMod n → ℝ))) :
    pileupcut env fs algo nsig rm' (prs.map fun p i => a * p.2 i + p.1) =
      pileupcut env fs algo nsig rm (prs.map Prod.snd) := by
  have key : ∀ (r : Bool) (c : ℝ), c ≠ 0 → ∀ qrs : List (ℝ × (ZMod n → ℝ)),
      qrs.map Prod.snd = prs.map Prod.snd →
      pileupcut env fs algo nsig r (qrs.map fun p i => c * p.2 i + p.1) =
      pileupcut env fs algo nsig false (prs.map Prod.snd) := by
    intro r c hc qrs hq
    unfold pileupcut
    have hlen : qrs.length = prs.length := by simpa using congrArg List.length hq
    by_cases h0 : prs = []
    · subst h0
      simp at hlen
      subst hlen
      rfl
    have h0' : qrs ≠ [] := by
      intro h
      rw [h] at hlen
      exact h0 (List.length_eq_zero_iff.1 hlen.symm)
    have g0 : prs.map Prod.snd ≠ [] := by simpa using h0
    have g0' : (qrs.map fun p i => c * p.2 i + p.1) ≠ [] := by simpa using h0'
    rw [if_neg g0', if_neg g0]
    simp only [Bool.false_eq_true, if_false]
    have hof : ∃ o : ℝ × (ZMod n → ℝ) → ℝ,
        (if r = true then (qrs.map fun p i => c * p.2 i + p.1).map removeMean
          else qrs.map fun p i => c * p.2 i + p.1) =
        (qrs.map fun p => (o p, p.2)).map fun p => scaled c p.1 p.2 := by
      cases r
      · exact ⟨Prod.fst, by rw [if_neg (by simp), List.map_map]; rfl⟩
      · refine ⟨fun p => p.1 - (∑ j, (c * p.2 j + p.1)) / n, ?_⟩
        rw [if_pos rfl, List.map_map, List.map_map]
        apply List.map_congr_left
        intro p _
        funext i
        simp only [Function.comp, removeMean, scaled]
        ring
    obtain ⟨o, ho⟩ := hof
    rw [ho, ofAll_scaled fs hc, List.map_map]
    have e : (qrs.map (Prod.snd ∘ fun p => (o p, p.2))) = prs.map Prod.snd := by
      rw [← hq]
      rfl
    rw [e]
    cases ofAll fs (prs.map Prod.snd) with
    | error e => rfl
    | ok l =>
      simp only [Except.map, List.length_map, hlen]
      have hp := abs_pos.2 hc
      have := runAlgo_affine env algo nsig prs.length hp 0 (l.map fun p => |p.1|)
      rw [← this, List.map_map, List.map_map]
      congr 2
      apply List.map_congr_left
      intro p _
      simp [abs_mul]
  rw [key rm' a ha prs rfl]
  have := key rm 1 one_ne_zero (prs.map fun p => (0, p.2)) (by simp)
  rw [← this]
  congr 1
  rw [List.map_map]
  apply List.map_congr_left
  intro p _
  funext i
  simp

/-- In particular `removemeans` makes no difference to the mask. -/
theorem pileupcut_removemeans (env : Env) (fs : ℝ) (algo : Algo) (nsig : ℝ)
    (traces : List (ZMod n → ℝ)) :
    pileupcut env fs algo nsig true traces = pileupcut env fs algo nsig false traces := by
  have := pileupcut_invariant env fs algo nsig false true one_ne_zero
    (traces.map fun x => ((0 : ℝ), x))
  simpa [List.map_map, Function.comp_def] using this

/-- `chi2cut` does not depend on the offset of any trace, on the units, nor on the polarity. -/
theorem chi2cut_invariant (env : Env) (fs : ℝ) (algo : Algo) (nsig : ℝ) {a : ℝ}
    (ha : a ≠ 0) (prs : List (ℝ × (ZMod n → ℝ))) :
    chi2cut env fs algo nsig (prs.map fun p i => a * p.2 i + p.1) =
      chi2cut env fs algo nsig (prs.map Prod.snd) := by
  unfold chi2cut
  by_cases h0 : prs = []
  · subst h0
    rfl
  rw [if_neg (by simpa using h0), if_neg (by simpa using h0)]
  have e := ofAll_scaled fs ha prs
  unfold scaled at e
  rw [e]
  cases ofAll fs (prs.map Prod.snd) with
  | error e => rfl
  | ok l =>
    simp only [Except.map, List.length_map]
    rw [← runAlgo_affine env algo nsig prs.length (by positivity : 0 < a ^ 2) 0
      (l.map fun p => p.2), List.map_map, List.map_map]
    congr 2
    apply List.map_congr_left
    intro p _
    simp

omit [NeZero n] in
/-- `baselinecut` does not depend on an offset common to all traces, nor on the units. -/
theorem baselinecut_invariant (env : Env) (fs : ℝ) (algo : Algo) (nsig : ℝ) (didv : Bool)
    (sgfreq : ℝ) {a : ℝ} (ha : 0 < a) (b : ℝ) (traces : List (ZMod n → ℝ)) :
    baselinecut env fs algo nsig didv sgfreq (traces.map fun x i => a * x i + b) =
      baselinecut env fs algo nsig didv sgfreq traces := by
  unfold baselinecut
  by_cases h0 : traces = []
  · subst h0
    rfl
  rw [if_neg (by simpa using h0), if_neg h0]
  rcases colMean_cases (n := n) (beginRange n fs sgfreq didv).1 (beginRange n fs sgfreq didv).2
    with h | h | ⟨h1, h⟩
  · rw [h, h]
    simp
  · rw [h, h]
  · rw [h, h]
    simp only [List.length_map]
    rw [← runAlgo_affine env algo nsig traces.length ha b (traces.map _), List.map_map,
      List.map_map]
    congr 2
    apply List.map_congr_left
    intro x _
    exact winMean_scaled a b h1 x

omit [NeZero n] in
/-- `slopecut` does not depend on the offset of any trace, nor on the units. -/
theorem slopecut_invariant (env : Env) (fs : ℝ) (algo : Algo) (nsig : ℝ) (didv sym : Bool)
    (sgfreq : ℝ) {a : ℝ} (ha : 0 < a) (prs : List (ℝ × (ZMod n → ℝ))) :
    slopecut env fs algo nsig didv sym sgfreq (prs.map fun p i => a * p.2 i + p.1) =
      slopecut env fs algo nsig didv sym sgfreq (prs.map Prod.snd) := by
  unfold slopecut
  by_cases h0 : prs = []
  · subst h0
    rfl
  rw [if_neg (by simpa using h0), if_neg (by simpa using h0)]
  rcases slopes_cases (n := n) fs sgfreq didv with h | h | ⟨h1, h2, h⟩
  · rw [h, h]
    simp only [List.length_map]
  · rw [h, h]
  · rw [h, h]
    set S : List ℝ := (prs.map Prod.snd).map fun x =>
      winMean (endRange n fs sgfreq didv).1 (endRange n fs sgfreq didv).2 x -
      winMean (beginRange n fs sgfreq didv).1 (beginRange n fs sgfreq didv).2 x with hS
    have e : (prs.map fun p i => a * p.2 i + p.1).map (fun x =>
        winMean (endRange n fs sgfreq didv).1 (endRange n fs sgfreq didv).2 x -
        winMean (beginRange n fs sgfreq didv).1 (beginRange n fs sgfreq didv).2 x) =
        S.map fun v => a * v := by
      rw [hS, List.map_map, List.map_map, List.map_map]
      apply List.map_congr_left
      intro p _
      have e1 := winMean_scaled a p.1 h1 p.2
      have e2 := winMean_scaled a p.1 h2 p.2
      unfold scaled at e1 e2
      simp only [Function.comp]
      rw [e1, e2]
      ring
    rw [e]
    simp only [List.length_map, Option.map_some]
    have hget : ∀ inds : List ℕ, inds.map (fun (i : ℕ) => (S.map fun v => a * v).getD i 0) =
        (inds.map fun (i : ℕ) => S.getD i 0).map fun v => a * v + 0 := by
      intro inds
      rw [List.map_map (g := fun v => a * v + 0)]
      apply List.map_congr_left
      intro i _
      simp only [Function.comp, add_zero, List.getD_eq_getElem?_getD, List.getElem?_map]
      cases S[i]? <;> simp
    cases sym
    · simp only
      rw [hget, runAlgo_affine _ _ _ _ ha]
    · simp only [symmetrizedist_scale ha]
      cases symmetrizedist env.choice S with
      | error e => rfl
      | ok m =>
        simp only
        rw [hget, runAlgo_affine _ _ _ _ ha]

/-- `autocuts` does not depend on the units of the traces, nor on an offset common to all. -/
theorem autocuts_invariant (env : Env) (s : AutoArgs) {a : ℝ} (ha : 0 < a) (b : ℝ)
    (traces : List (ZMod n → ℝ)) :
    autocuts env s (traces.map fun x i => a * x i + b) = autocuts env s traces := by
  rw [autocuts_survivors, autocuts_survivors]
  have hpairs : ∀ l : List (ZMod n → ℝ), l.map (fun x i => a * x i + b) =
      (l.map fun x => (b, x)).map fun p i => a * p.2 i + p.1 := by
    intro l
    rw [List.map_map]
    rfl
  have hsnd : ∀ l : List (ZMod n → ℝ), (l.map fun x => (b, x)).map Prod.snd = l := by
    intro l
    rw [List.map_map]
    exact List.map_id _
  have hst : List.Forall₂ (fun p q => (p = none ∧ q = none) ∨
      ∃ st su, p = some st ∧ q = some su ∧
        ∀ l, su (l.map fun (x : ZMod n → ℝ) i => a * x i + b) = st l)
      (stages (n := n) env s) (stages env s) := by
    unfold stages
    refine .cons ?_ (.cons ?_ (.cons ?_ (.cons ?_ (.cons ?_ .nil))))
    · split_ifs
      · exact .inr ⟨_, _, rfl, rfl, fun l => by
          rw [hpairs, pileupcut_invariant env _ _ _ false false ha.ne', hsnd]⟩
      · exact .inl ⟨rfl, rfl⟩
    · split_ifs
      · exact .inr ⟨_, _, rfl, rfl, fun l => by rw [hpairs, slopecut_invariant _ _ _ _ _ _ _ ha,
          hsnd]⟩
      · exact .inl ⟨rfl, rfl⟩
    · split_ifs
      · exact .inr ⟨_, _, rfl, rfl, fun l => baselinecut_invariant _ _ _ _ _ _ ha b l⟩
      · exact .inl ⟨rfl, rfl⟩
    · split_ifs
      · exact .inr ⟨_, _, rfl, rfl, fun l => by
          rw [hpairs, pileupcut_invariant env _ _ _ true true ha.ne', hsnd]⟩
      · exact .inl ⟨rfl, rfl⟩
    · split_ifs
      · exact .inr ⟨_, _, rfl, rfl, fun l => by rw [hpairs, chi2cut_invariant _ _ _ _ ha.ne',
          hsnd]⟩
      · exact .inl ⟨rfl, rfl⟩
  have key := survivors_congr (fun (x : ZMod n → ℝ) i => a * x i + b) _ _ hst
    (traces.zipIdx.map Prod.swap)
  have e : ((traces.map fun x i => a * x i + b).zipIdx.map Prod.swap) =
      (traces.zipIdx.map Prod.swap).map fun p => (p.1, fun i => a * p.2 i + b) := by
    rw [List.zipIdx_map, List.map_map, List.map_map]
    rfl
  rw [e, key, List.length_map]
  rcases survivors (stages env s) (traces.zipIdx.map Prod.swap) with _ | _ | S
  · rfl
  · rfl
  · simp only [Option.map_some, Except.map, List.map_map]
    rfl

/-- An unknown outlier algorithm is never ignored: every stage raises. -/
theorem unknown_algo_raises (env : Env) (fs nsig sgfreq : ℝ) (didv sym rm : Bool)
    (traces : List (ZMod n → ℝ)) :
    (∃ e, pileupcut env fs .other nsig rm traces = some (.error e)) ∧
    (∃ e, slopecut env fs .other nsig didv sym sgfreq traces = some (.error e)) ∧
    (∃ e, baselinecut env fs .other nsig didv sgfreq traces = some (.error e)) ∧
    ∃ e, chi2cut env fs .other nsig traces = some (.error e) := by
  have hr : ∀ len feat, runAlgo env .other nsig len feat = some (.error .nameError) := by
    intro len feat
    cases feat <;> rfl
  by_cases h0 : traces = []
  · subst h0
    exact ⟨⟨_, rfl⟩, ⟨_, rfl⟩, ⟨_, rfl⟩, ⟨_, rfl⟩⟩
  refine ⟨?_, ?_, ?_, ?_⟩
  · unfold pileupcut
    rw [if_neg h0]
    cases ofAll fs (if rm = true then traces.map removeMean else traces) with
    | error e => exact ⟨e, rfl⟩
    | ok l => exact ⟨_, hr _ _⟩
  · unfold slopecut
    rw [if_neg h0]
    cases slopes fs sgfreq didv traces with
    | error e => exact ⟨e, rfl⟩
    | ok feat =>
      simp only
      split
      · exact ⟨_, rfl⟩
      · rw [hr]
        exact ⟨_, rfl⟩
  · unfold baselinecut
    rw [if_neg h0]
    cases colMean traces (beginRange n fs sgfreq didv).1 (beginRange n fs sgfreq didv).2 with
    | error e => exact ⟨e, rfl⟩
    | ok l => exact ⟨_, hr _ _⟩
  · unfold chi2cut
    rw [if_neg h0]
    cases ofAll fs traces with
    | error e => exact ⟨e, rfl⟩
    | ok l => exact ⟨_, hr _ _⟩

omit [NeZero n] in
/-- The slope of a dIdV trace made of `N ≥ 2` periods of `8m` bins: the mean of the third eighth of
the last period minus the mean of the third eighth of the first. -/
theorem slopes_didv {fs sgfreq : ℝ} {m N : ℕ} (hm : 0 < m) (hN : 2 ≤ N)
    (hb : fs / sgfreq = ((8 * m : ℕ) : ℝ)) (hn : n = N * (8 * m)) (traces : List (ZMod n → ℝ)) :
    slopes fs sgfreq true traces = .ok (some (traces.map fun x =>
      (∑ i ∈ Finset.range m, x (((N - 1) * (8 * m) + 2 * m + i : ℕ) : ZMod n)) / m -
      (∑ i ∈ Finset.range m, x ((2 * m + i : ℕ) : ZMod n)) / m)) := by
  have hm' : (0 : ℝ) < m := by exact_mod_cast hm
  have hbr := beginRange_didv hm hN hb hn
  have her := endRange_didv hm hN hb hn
  unfold slopes
  rw [hbr, her]
  simp only
  have h1 : 3 * m ≤ N * (8 * m) := by nlinarith
  have h2 : (N - 1) * (8 * m) + 3 * m ≤ N * (8 * m) := by
    obtain ⟨k, rfl⟩ : ∃ k, N = k + 1 := ⟨N - 1, by omega⟩
    rw [Nat.add_sub_cancel]
    nlinarith
  rw [colMean_nat (2 * m) m hm (by omega), colMean_nat ((N - 1) * (8 * m) + 2 * m) m hm (by omega)]
  simp only [List.zipWith_map, List.zipWith_self]

/-- Non-vacuity: two periods of eight bins at a signal generator frequency of `1/8`. -/
example : (1 : ℝ) / (1 / 8) = ((8 * 1 : ℕ) : ℝ) := by norm_num

omit [NeZero n] in
/-- A trace that repeats itself has no slope. -/
theorem slopes_periodic {fs sgfreq : ℝ} {m N : ℕ} (hm : 0 < m) (hN : 2 ≤ N)
    (hb : fs / sgfreq = ((8 * m : ℕ) : ℝ)) (hn : n = N * (8 * m)) (traces : List (ZMod n → ℝ))
    (h : ∀ x ∈ traces, ∀ i : ZMod n, x (i + ((8 * m : ℕ) : ZMod n)) = x i) :
    slopes fs sgfreq true traces = .ok (some (traces.map fun _ => 0)) := by
  rw [slopes_didv hm hN hb hn]
  congr 2
  apply List.map_congr_left
  intro x hx
  have hk : ∀ (k : ℕ) (i : ZMod n), x (i + ((k * (8 * m) : ℕ) : ZMod n)) = x i := by
    intro k
    induction k with
    | zero => intro i; simp
    | succ k ih =>
      intro i
      rw [show ((((k + 1) * (8 * m) : ℕ)) : ZMod n) = ((k * (8 * m) : ℕ) : ZMod n) +
        ((8 * m : ℕ) : ZMod n) by push_cast; ring, ← add_assoc, h x hx, ih]
  rw [sub_eq_zero]
  congr 1
  refine Finset.sum_congr rfl fun i _ => ?_
  rw [← hk (N - 1) ((2 * m + i : ℕ) : ZMod n)]
  congr 1
  push_cast
  ring

omit [NeZero n] in
/-- The slope of any other trace of `10m` bins: the mean of the last tenth minus the mean of the
first tenth. -/
theorem slopes_plain {fs sgfreq : ℝ} {m : ℕ} (hm : 0 < m) (hn : n = 10 * m)
    (traces : List (ZMod n → ℝ)) :
    slopes fs sgfreq false traces = .ok (some (traces.map fun x =>
      (∑ i ∈ Finset.range m, x ((9 * m + i : ℕ) : ZMod n)) / m -
      (∑ i ∈ Finset.range m, x ((i : ℕ) : ZMod n)) / m)) := by
  have e1 : OF.trunc ((n : ℝ) / 10) = (m : ℕ) := by
    rw [hn, show (((10 * m : ℕ) : ℝ) / 10) = (m : ℕ) by push_cast; ring, trunc_nat]
  have e2 : OF.trunc (9 * (n : ℝ) / 10) = ((9 * m : ℕ) : ℤ) := by
    rw [hn, show (9 * ((10 * m : ℕ) : ℝ) / 10) = ((9 * m : ℕ) : ℝ) by push_cast; ring, trunc_nat]
  have e3 : (n : ℤ) = ((9 * m : ℕ) : ℤ) + m := by rw [hn]; push_cast; ring
  have hbr : beginRange n fs sgfreq false = (((0 : ℕ) : ℤ), ((0 : ℕ) : ℤ) + m) := by
    unfold beginRange
    simp [e1]
  have her : endRange n fs sgfreq false = (((9 * m : ℕ) : ℤ), ((9 * m : ℕ) : ℤ) + m) := by
    unfold endRange
    simp only [Bool.false_eq_true, if_false]
    rw [e2, e3]
  unfold slopes
  rw [hbr, her]
  simp only
  rw [colMean_nat 0 m hm (by omega), colMean_nat (9 * m) m hm (by omega)]
  simp only [List.zipWith_map, List.zipWith_self, Nat.zero_add]

omit [NeZero n] in
/-- `baselinecut` looks for outliers among the means of the third eighth of the first period (dIdV
data) or of the first tenth (other data). -/
theorem baselinecut_feature (env : Env) {fs sgfreq : ℝ} (algo : Algo) (nsig : ℝ) {m : ℕ}
    (hm : 0 < m) (traces : List (ZMod n → ℝ)) (h0 : traces ≠ []) :
    (∀ N, 2 ≤ N → fs / sgfreq = ((8 * m : ℕ) : ℝ) → n = N * (8 * m) →
      baselinecut env fs algo nsig true sgfreq traces =
        runAlgo env algo nsig traces.length (some (traces.map fun x =>
          (∑ i ∈ Finset.range m, x ((2 * m + i : ℕ) : ZMod n)) / m))) ∧
    (n = 10 * m → baselinecut env fs algo nsig false sgfreq traces =
        runAlgo env algo nsig traces.length (some (traces.map fun x =>
          (∑ i ∈ Finset.range m, x ((i : ℕ) : ZMod n)) / m))) := by
  constructor
  · intro N hN hb hn
    have h1 : 3 * m ≤ N * (8 * m) := by nlinarith
    unfold baselinecut
    rw [if_neg h0, beginRange_didv hm hN hb hn]
    simp only
    rw [colMean_nat (2 * m) m hm (by omega)]
  · intro hn
    have e1 : OF.trunc ((n : ℝ) / 10) = (m : ℕ) := by
      rw [hn, show (((10 * m : ℕ) : ℝ) / 10) = (m : ℕ) by push_cast; ring, trunc_nat]
    have hbr : beginRange n fs sgfreq false = (((0 : ℕ) : ℤ), ((0 : ℕ) : ℤ) + m) := by
      unfold beginRange
      simp [e1]
    unfold baselinecut
    rw [if_neg h0, hbr]
    simp only
    rw [colMean_nat 0 m hm (by omega)]
    simp only [Nat.zero_add]

end Verif.Cut
