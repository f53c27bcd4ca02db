import Verif.CutAutoLemmas

/-! Properties C13, C14, C15: `autocuts`, its stages, and `get_muon_cut`. -/

namespace Verif.Cut
open Verif

variable {n : ℕ} [NeZero n]

/-! ### C14: the slope stage removes nothing -/

omit [NeZero n] in
/-- `slopecut` never removes a trace: whenever it returns, every flag is true. -/
theorem slopecut_keeps_all {env : Env} {fs nsig sgfreq : ℝ} {algo : Algo} {didv sym : Bool}
    {traces : List (ZMod n → ℝ)} {m : List Bool}
    (h : slopecut env fs algo nsig didv sym sgfreq traces = some (.ok m)) :
    m = List.replicate traces.length true := by
  unfold slopecut at h
  split_ifs at h with h1
  · cases h
  · split at h
    · cases h
    · simp only at h
      split at h
      · cases h
      · obtain ⟨c, _, hc⟩ := andThen_ok h
        cases hc
        refine List.ext_getElem? fun i => ?_
        by_cases hi : i < traces.length
        · simp [setTrue, hi]
        · simp [setTrue, hi]

/-- For the property one would expect the opposite: with four traces of slopes `-1, 0, 1, 10` and a
cut of 1.5 standard deviations, the outlier algorithm rejects the last trace, but `slopecut`
selects it. -/
theorem slopecut_violated (env : Env) (hf : 4 ≤ env.fuel) :
    ∃ traces : List (ZMod 10 → ℝ),
      slopes 1 1 false traces = .ok (some [-1, 0, 1, 10]) ∧
      runAlgo env .iterstat (3 / 2) 4 (some [-1, 0, 1, 10]) =
        some (.ok [true, true, true, false]) ∧
      slopecut env 1 .iterstat (3 / 2) false false 1 traces =
        some (.ok [true, true, true, true]) := by
  set D : List ℝ := [-1, 0, 1, 10] with hD
  have hal : avg D = 5 / 2 := by norm_num [avg, hD]
  have hm2 : moment 2 D = 77 / 4 := by
    unfold moment
    rw [hal]
    norm_num [avg, hD]
  have hs1 : (43 / 10 : ℝ) < std D := by
    unfold std
    rw [hm2, Real.lt_sqrt (by norm_num)]
    norm_num
  have hs2 : std D < 44 / 10 := by
    unfold std
    rw [hm2, Real.sqrt_lt' (by norm_num)]
    norm_num
  set E : List ℝ := [-1, 0, 1] with hE
  have hae : avg E = 0 := by norm_num [avg, hE]
  have hm2e : moment 2 E = 2 / 3 := by
    unfold moment
    rw [hae]
    norm_num [avg, hE]
  have ht1 : (8 / 10 : ℝ) < std E := by
    unfold std
    rw [hm2e, Real.lt_sqrt (by norm_num)]
    norm_num
  have ht2 : std E < 9 / 10 := by
    unfold std
    rw [hm2e, Real.sqrt_lt' (by norm_num)]
    norm_num
  have mask_of : ∀ μ σ : ℝ, |(-1) - μ| < 3 / 2 * σ → |0 - μ| < 3 / 2 * σ → |1 - μ| < 3 / 2 * σ →
      ¬ |10 - μ| < 3 / 2 * σ → isMask D (3 / 2) μ σ = [true, true, true, false] ∧
        keep D (3 / 2) μ σ = E := by
    intro μ σ h1 h2 h3 h4
    refine ⟨?_, ?_⟩
    · simp only [isMask, hD, List.map_cons, List.map_nil, decide_eq_true h1, decide_eq_true h2,
        decide_eq_true h3, decide_eq_false h4]
    · simp only [keep, hD, List.filter_cons, List.filter_nil, decide_eq_true h1,
        decide_eq_true h2, decide_eq_true h3, decide_eq_false h4, if_true, hE]
      simp
  obtain ⟨m1, k1⟩ := mask_of (5 / 2) (std D)
    (by rw [abs_lt]; constructor <;> linarith) (by rw [abs_lt]; constructor <;> linarith)
    (by rw [abs_lt]; constructor <;> linarith)
    (by rw [abs_lt]; rintro ⟨_, h⟩; linarith)
  obtain ⟨m2, k2⟩ := mask_of 0 (std E)
    (by rw [abs_lt]; constructor <;> linarith) (by rw [abs_lt]; constructor <;> linarith)
    (by rw [abs_lt]; constructor <;> linarith)
    (by rw [abs_lt]; rintro ⟨_, h⟩; linarith)
  have hcut : stdcutoff D 10000 = ((std D / 10000 : ℝ) : WithTop ℝ) := by
    unfold stdcutoff
    rw [if_neg (by norm_num)]
  have hc0 : ¬ stdcutoff D 10000 < ((0 : ℝ) : WithTop ℝ) := by
    rw [hcut, WithTop.coe_lt_coe, not_lt]
    linarith
  have hc1 : stdcutoff D 10000 < ((|0 - 5 / 2| : ℝ) : WithTop ℝ) := by
    rw [hcut, WithTop.coe_lt_coe, abs_of_neg (by norm_num)]
    linarith
  have hE3 : ¬ E.length ≤ 1 := by simp [hE]
  have hstep : ∀ f ns, isLoop D (3 / 2) (stdcutoff D 10000) (f + 1) 0 (std E) ns =
      if ns + 1 ≥ 3 then some ⟨some 0, some (std E), [true, true, true, false]⟩
      else isLoop D (3 / 2) (stdcutoff D 10000) f 0 (std E) (ns + 1) := by
    intro f ns
    rw [isLoop_succ, k2, hae, m2, if_neg hE3, sub_self, sub_self, abs_zero]
    simp only [hc0, or_self, if_false]
  have hit : iterstat env.fuel D (3 / 2) 10000 =
      some ⟨some 0, some (std E), [true, true, true, false]⟩ := by
    unfold iterstat
    rw [if_neg (by simp [hD]), hal]
    refine isLoop_mono _ _ _ (f := 4) ?_ hf
    rw [isLoop_succ, k1, hae, m1, if_neg hE3]
    simp only [hc1, true_or, if_true]
    rw [if_neg (by omega), hstep, if_neg (by omega), hstep, if_neg (by omega), hstep,
      if_pos (by omega)]
  have hrun : runAlgo env .iterstat (3 / 2) 4 (some D) =
      some (.ok [true, true, true, false]) := by
    unfold runAlgo
    simp only
    rw [hit]
    rfl
  set tr : ℝ → ZMod 10 → ℝ := fun v i => if i = 9 then v else 0 with htr
  refine ⟨[tr (-1), tr 0, tr 1, tr 10], ?_⟩
  have hsl : slopes 1 1 false [tr (-1), tr 0, tr 1, tr 10] = .ok (some D) := by
    have t1 : OF.trunc ((10 : ℕ) / 10 : ℝ) = 1 := by
      unfold OF.trunc
      norm_num
    have t2 : OF.trunc (9 * (10 : ℕ) / 10 : ℝ) = 9 := by
      unfold OF.trunc
      norm_num
    have hb : beginRange 10 1 1 false = (0, 1) := by
      unfold beginRange
      simp only [Bool.false_eq_true, if_false]
      rw [t1]
    have he : endRange 10 1 1 false = (9, 10) := by
      unfold endRange
      simp only [Bool.false_eq_true, if_false]
      rw [t2]
      rfl
    have c1 : colMean [tr (-1), tr 0, tr 1, tr 10] 0 1 = .ok (some [0, 0, 0, 0]) := by
      unfold colMean
      rw [if_neg (by norm_num), if_neg (by norm_num)]
      have : (0 : ZMod 10) ≠ 9 := by decide
      simp [htr, List.range_succ, this]
    have c2 : colMean [tr (-1), tr 0, tr 1, tr 10] 9 10 = .ok (some D) := by
      unfold colMean
      rw [if_neg (by norm_num), if_neg (by norm_num)]
      simp [htr, List.range_succ, hD]
    unfold slopes
    rw [hb, he]
    simp only
    rw [c1, c2]
    simp [hD]
  refine ⟨hsl, hrun, ?_⟩
  unfold slopecut
  rw [if_neg (by simp), hsl]
  simp only [List.length_cons, List.length_nil]
  have hidx : (some D).map (fun l => (List.range (0 + 1 + 1 + 1 + 1)).map fun (i : ℕ) =>
      l.getD i 0) = some D := by
    simp [hD, List.range_succ]
  rw [hidx, List.length_range, hrun]
  simp [Comp.andThen, setTrue, List.replicate]

/-! ### C13: `autocuts` -/

/-- The stages of `autocuts`, in order; `none` for a stage that is switched off. -/
noncomputable def stages (env : Env) (a : AutoArgs) :
    List (Option (List (ZMod n → ℝ) → Option (Except Err (List Bool)))) :=
  [if a.pileup1 then some (pileupcut env a.fs a.algo a.nsigpileup1 false) else none,
   if a.slope then some (slopecut env a.fs a.algo a.nsigslope a.didv a.symmetrize a.sgfreq)
     else none,
   if a.baseline then some (baselinecut env a.fs a.algo a.nsigbaseline a.didv a.sgfreq) else none,
   if a.pileup2 && a.didv then some (pileupcut env a.fs a.algo a.nsigpileup2 true) else none,
   if a.chi2 then some (chi2cut env a.fs .iterstat a.nsigchi2) else none]

/-- The traces with their positions. -/
def tagged (traces : List (ZMod n → ℝ)) (i : List ℕ) : List (ℕ × (ZMod n → ℝ)) :=
  i.map fun k => (k, traces.getD k default)

omit [NeZero n] in
theorem tagged_range (traces : List (ZMod n → ℝ)) :
    tagged traces (List.range traces.length) = traces.zipIdx.map Prod.swap := by
  refine List.ext_getElem? fun i => ?_
  by_cases hi : i < traces.length
  · simp [tagged, hi, List.getD_eq_getElem?_getD]
  · simp [tagged, hi]

omit [NeZero n] in
theorem survivors_cons (traces : List (ZMod n → ℝ)) (b : Bool)
    (st : List (ZMod n → ℝ) → Option (Except Err (List Bool)))
    (rest : List (Option (List (ZMod n → ℝ) → Option (Except Err (List Bool))))) (i : List ℕ) :
    survivors ((if b then some st else none) :: rest) (tagged traces i) =
      Comp.andThen (if b then st (takeIdx traces i) else some (.ok (List.replicate i.length true)))
        fun c => survivors rest (tagged traces (sel i c)) := by
  have e1 : (tagged traces i).map Prod.snd = takeIdx traces i := by
    unfold tagged takeIdx
    rw [List.map_map]
    rfl
  cases b
  · simp only [Bool.false_eq_true, if_false]
    rw [survivors, Comp.andThen, sel_replicate]
  · simp only [if_true]
    rw [survivors, e1]
    unfold Comp.andThen
    cases st (takeIdx traces i) with
    | none => rfl
    | some r =>
      cases r with
      | error e => rfl
      | ok c =>
        simp only
        rw [← sel_eq_selected]
        unfold tagged
        rw [sel_map_left]

/-- `autocuts` is the sequence of its enabled stages, each seeing only the traces that survived the
ones before: its mask has one entry per input trace, true exactly for the traces that survive
every stage.  If a stage raises, so does `autocuts`. -/
theorem autocuts_survivors (env : Env) (a : AutoArgs) (traces : List (ZMod n → ℝ)) :
    autocuts env a traces =
      (survivors (stages env a) (traces.zipIdx.map Prod.swap)).map (Except.map fun S =>
        (List.range traces.length).map fun (i : ℕ) => decide (i ∈ S.map Prod.fst)) := by
  have hend : ∀ i : List ℕ,
      ((survivors [] (tagged traces i)).map (Except.map fun S =>
        (List.range traces.length).map fun (i : ℕ) => decide (i ∈ S.map Prod.fst))) =
      (some (.ok (setTrue (List.replicate traces.length false) i)) : Comp (List Bool)) := by
    intro i
    have e : (tagged traces i).map Prod.fst = i := by
      unfold tagged
      rw [List.map_map]
      exact List.map_id _
    simp only [survivors, Option.map_some, Except.map, e]
    congr 2
    refine List.ext_getElem? fun j => ?_
    by_cases hj : j < traces.length
    · simp [setTrue, hj]
    · simp [setTrue, hj]
  have h1 : Comp.andThen
      (if a.pileup1 then
        (pileupcut env a.fs a.algo a.nsigpileup1 false traces).andThen fun c =>
          some (.ok (whereTrue c))
       else some (.ok (List.range traces.length))) (fun i1 => (survivors (stages env a).tail
          (tagged traces i1)).map (Except.map fun S =>
        (List.range traces.length).map fun (i : ℕ) => decide (i ∈ S.map Prod.fst))) =
      (survivors (stages env a) (traces.zipIdx.map Prod.swap)).map (Except.map fun S =>
        (List.range traces.length).map fun (i : ℕ) => decide (i ∈ S.map Prod.fst)) := by
    rw [← tagged_range]
    unfold stages
    rw [survivors_cons, map_andThen, List.tail_cons]
    have e : takeIdx traces (List.range traces.length) = traces := by
      refine List.ext_getElem? fun i => ?_
      by_cases hi : i < traces.length
      · simp [takeIdx, hi, List.getD_eq_getElem?_getD]
      · simp [takeIdx, hi]
    rw [e, List.length_range]
    by_cases hp : a.pileup1 = true
    · simp only [if_pos hp]
      rcases hc : pileupcut env a.fs a.algo a.nsigpileup1 false traces with _ | (e | c)
      · rfl
      · rfl
      · simp only [Comp.andThen]
        rw [whereTrue_eq (pileupcut_length hc)]
    · simp only [if_neg hp]
      simp only [Comp.andThen]
      rw [show List.replicate traces.length true =
        List.replicate (List.range traces.length).length true by rw [List.length_range],
        sel_replicate]
  rw [← h1]
  unfold autocuts stages
  simp only [List.tail_cons, survivors_cons, map_andThen, hend]

/-- With every stage switched off all traces pass. -/
theorem autocuts_all_off (env : Env) (a : AutoArgs) (traces : List (ZMod n → ℝ))
    (h1 : a.pileup1 = false) (h2 : a.slope = false) (h3 : a.baseline = false)
    (h4 : a.pileup2 = false) (h5 : a.chi2 = false) :
    autocuts env a traces = some (.ok (List.replicate traces.length true)) := by
  rw [autocuts_survivors]
  simp only [stages, h1, h2, h3, h4, h5, Bool.false_and, Bool.false_eq_true, if_false, survivors,
    Option.map_some, Except.map]
  congr 2
  refine List.ext_getElem? fun j => ?_
  by_cases hj : j < traces.length
  · simp [hj, List.mem_zipIdx_iff_getElem?]
  · simp [hj]

/-- The slope stage makes no difference (unless it raises). -/
theorem autocuts_slope_no_effect (env : Env) (a : AutoArgs) (traces : List (ZMod n → ℝ))
    (m : List Bool) (h : autocuts env a traces = some (.ok m)) :
    autocuts env { a with slope := false } traces = some (.ok m) := by
  by_cases hs : a.slope = true
  swap
  · rwa [show ({ a with slope := false } : AutoArgs) = a by
      cases a; simp_all]
  unfold autocuts at h ⊢
  obtain ⟨i1, e1, h⟩ := andThen_ok h
  obtain ⟨c2, e2, h⟩ := andThen_ok h
  simp only at h
  rw [if_pos hs] at e2
  have := slopecut_keeps_all e2
  rw [takeIdx, List.length_map] at this
  simp only
  rw [e1]
  simp only [Comp.andThen, Bool.false_eq_true, if_false]
  rw [this] at h
  exact h

/-! ### Termination -/

/-- `autocuts` always ends (with a mask or an exception), whatever the traces and options, although
`iterstat`, which it may call, has no cap on its iterations. -/
theorem autocuts_returns (deg : Option ℝ) (choice : List ℕ → ℕ → List ℕ) (a : AutoArgs)
    (traces : List (ZMod n → ℝ)) :
    ∃ F r, ∀ f ≥ F, autocuts ⟨deg, f, choice⟩ a traces = some r := by
  show Returns fun f => autocuts ⟨deg, f, choice⟩ a traces
  unfold autocuts
  refine .andThen (.ite (.andThen (pileupcut_returns ..) fun _ => .const _) (.const _)) fun _ => ?_
  refine .andThen (.ite (slopecut_returns ..) (.const _)) fun _ => ?_
  refine .andThen (.ite (baselinecut_returns ..) (.const _)) fun _ => ?_
  refine .andThen (.ite (pileupcut_returns ..) (.const _)) fun _ => ?_
  exact .andThen (.ite (chi2cut_returns ..) (.const _)) fun _ => .const _

/-! ### C15: `get_muon_cut` -/

/-- `get_muon_cut` raises for every non-empty set of traces (NameError, or ValueError when the first
trace is empty); only for no traces does it return a mask. -/
theorem getMuonCut_violated (traces : List (List ℝ)) :
    (traces ≠ [] → ∃ e, getMuonCut traces = .error e) ∧
    (traces.head?.any (fun t => t ≠ []) → getMuonCut traces = .error .nameError) := by
  rcases traces with _ | ⟨_ | ⟨x, t⟩, ts⟩
  · exact ⟨fun h => absurd rfl h, fun h => by simp at h⟩
  · exact ⟨fun _ => ⟨_, rfl⟩, fun h => by simp at h⟩
  · exact ⟨fun _ => ⟨_, rfl⟩, fun _ => rfl⟩

/-- What is left of the property: a mask for no traces. -/
theorem getMuonCut_partial : getMuonCut [] = .ok [] := rfl

end Verif.Cut
