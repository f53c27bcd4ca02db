import Verif.CutOrderLemmas

/-! Property C123: the cuts do not depend on the order of the events. -/

namespace Verif.Cut
open Verif Verif.Dft

/-- `removeoutliers` selects the same events in whatever order they are stored. -/
theorem removeoutliers_order (deg : Option ℝ) (fuel : ℕ) (maxiter : ℤ) (target : ℝ) :
    OrderFree fun x : List (WithTop ℝ) => removeoutliers deg fuel x maxiter target :=
  fun _ _ h => roLoop_perm deg h maxiter target fuel 1 (fun v => decide (v ≠ ⊤)) [] []

/-- `iterstat` returns the same mean and standard deviation and selects the same events in whatever
order they are stored. -/
theorem iterstat_order (fuel : ℕ) (cut precision : ℝ) {l l' : List ℝ} (h : l.Perm l') :
    SameStat l l' (iterstat fuel l cut precision) (iterstat fuel l' cut precision) := by
  unfold iterstat
  by_cases h0 : l = []
  · subst h0
    rw [h.nil_eq.symm, if_pos rfl]
    exact .stat _ _ fun _ => true
  · have h0' : l' ≠ [] := fun q => h0 (by subst q; exact h.eq_nil)
    rw [if_neg h0, if_neg h0', avg_perm h, std_perm h]
    have e : stdcutoff l precision = stdcutoff l' precision := by
      unfold stdcutoff
      rw [std_perm h]
    rw [e]
    exact isLoop_perm h _ _ _ _ _ _

/-- The same for `itercov` with the events as rows of a two dimensional array. -/
theorem itercov_order (ppf : ℕ → ℝ) (fuel d : ℕ) {rows rows' : List (List ℝ)}
    (h : rows.Perm rows') (nsigma : ℝ) (thr : Option ℝ) (maxiter : ℤ) (fracerr : ℝ) :
    SameCov rows rows' (itercov ppf fuel (.arrays [(d, rows)]) nsigma thr maxiter fracerr)
      (itercov ppf fuel (.arrays [(d, rows')]) nsigma thr maxiter fracerr) := by
  unfold itercov covData
  simp only [List.all_nil, if_true]
  by_cases hd : d = 1
  · simp only [if_pos hd]
    exact .raised _
  · simp only [if_neg hd]
    have := itercovEv_perm ppf fuel (h.map fun r (i : Fin d) => r.getD i 0) nsigma thr maxiter
      fracerr
    revert this
    generalize itercovEv ppf fuel (rows.map fun r (i : Fin d) => r.getD i 0) nsigma thr maxiter
      fracerr = r
    generalize itercovEv ppf fuel (rows'.map fun r (i : Fin d) => r.getD i 0) nsigma thr maxiter
      fracerr = r'
    intro this
    cases this with
    | running => exact .running
    | raised e => exact .raised e
    | stat m c p keep =>
      rw [List.map_map, List.map_map]
      exact .stat m c p _

/-- The same for `itercov` with one array per variable: `is` lists the events in another order. -/
theorem itercov_order_vectors (ppf : ℕ → ℝ) (fuel N : ℕ) (vs : List (List ℝ))
    (hv : ∀ v ∈ vs, v.length = N) {is : List ℕ} (h : (List.range N).Perm is) (nsigma : ℝ)
    (thr : Option ℝ) (maxiter : ℤ) (fracerr : ℝ) :
    SameCov ((List.range N).map fun (i : ℕ) => vs.map fun v => v.getD i 0)
      (is.map fun (i : ℕ) => vs.map fun v => v.getD i 0)
      (itercov ppf fuel (.vectors vs) nsigma thr maxiter fracerr)
      (itercov ppf fuel (.vectors (vs.map fun v => is.map fun (i : ℕ) => v.getD i 0)) nsigma thr
        maxiter fracerr) := by
  have hl : is.length = N := by rw [← h.length_eq, List.length_range]
  rcases vs with _ | ⟨v, ws⟩
  · exact .raised _
  · have h0 : v.length = N := hv v (by simp)
    by_cases hw : ws = []
    · subst hw
      unfold itercov covData
      simp only [List.map_cons, List.map_nil, List.all_nil, if_true]
      exact .raised _
    · have key := itercov_order ppf fuel (ws.length + 1)
        (h.map fun (i : ℕ) => (v :: ws).map fun w => w.getD i 0) nsigma thr maxiter fracerr
      have hd : ¬ ws.length + 1 = 1 := by
        intro q
        exact hw (List.length_eq_zero_iff.1 (by omega))
      have a1 : (ws.all fun w => decide (w.length = v.length)) = true := by
        rw [List.all_eq_true]
        intro w hw
        simp [hv w (by simp [hw]), h0]
      have a2 : ((ws.map fun v => is.map fun (i : ℕ) => v.getD i 0).all fun w =>
          decide (w.length = is.length)) = true := by
        rw [List.all_eq_true]
        intro w hw
        simp only [List.mem_map] at hw
        obtain ⟨u, _, rfl⟩ := hw
        simp
      have e : ((List.range (is.map fun (i : ℕ) => v.getD i 0).length).map fun (i : ℕ) =>
          (((is.map fun (i : ℕ) => v.getD i 0) :: ws.map fun v => is.map fun (i : ℕ) =>
            v.getD i 0).map fun w => w.getD i 0)) =
          is.map fun (i : ℕ) => (v :: ws).map fun w => w.getD i 0 := by
        refine List.ext_getElem? fun j => ?_
        by_cases hj : j < is.length
        · simp [hj, List.getD_eq_getElem?_getD, Function.comp_def]
        · simp [hj]
      unfold itercov covData at key ⊢
      simp only [List.all_nil, if_true, if_neg hd] at key
      simp only [List.map_cons, a1, a2, if_true, List.map_eq_nil_iff, if_neg hw, List.length_map]
        at key ⊢
      simp only [List.map_cons, List.length_map] at e
      rw [e, h0]
      exact key

example : (∀ v ∈ [[(1 : ℝ), 2, 3], [4, 5, 9]], v.length = 3) ∧
    (List.range 3).Perm [2, 0, 1] := ⟨by simp, by decide⟩

variable {n : ℕ} [NeZero n]

/-- `pileupcut`, `baselinecut`, `chi2cut`, and `slopecut` without symmetrizing, select the same
traces in whatever order they are stored. -/
theorem stages_order (env : Env) (fs : ℝ) (algo : Algo) (nsig sgfreq : ℝ) (didv removemeans : Bool) :
    OrderFree (pileupcut (n := n) env fs algo nsig removemeans) ∧
    OrderFree (baselinecut (n := n) env fs algo nsig didv sgfreq) ∧
    OrderFree (chi2cut (n := n) env fs algo nsig) ∧
    OrderFree (slopecut (n := n) env fs algo nsig didv false sgfreq) := by
  have nil : ∀ {l l' : List (ZMod n → ℝ)}, l.Perm l' → (l = [] ↔ l' = []) := by
    intro l l' h
    rw [← List.length_eq_zero_iff, ← List.length_eq_zero_iff, h.length_eq]
  refine ⟨?_, ?_, ?_, ?_⟩
  · intro l l' h
    unfold pileupcut
    by_cases h0 : l = []
    · rw [if_pos h0, if_pos ((nil h).1 h0)]
      exact .raised _
    have h0' : l' ≠ [] := fun q => h0 ((nil h).2 q)
    rw [if_neg h0, if_neg h0']
    rcases ofAll_map (n := n) fs with ⟨e, he⟩ | ⟨g, hg⟩
    · rw [he _ (by cases removemeans <;> simpa using h0), he _ (by cases removemeans <;> simpa using h0')]
      exact .raised e
    · rw [hg, hg]
      cases removemeans
      · simp only [Bool.false_eq_true, if_false, List.map_map]
        exact runAlgo_feature env algo nsig _ h
      · simp only [if_true, List.map_map]
        exact runAlgo_feature env algo nsig _ h
  · intro l l' h
    unfold baselinecut
    by_cases h0 : l = []
    · rw [if_pos h0, if_pos ((nil h).1 h0)]
      exact .raised _
    have h0' : l' ≠ [] := fun q => h0 ((nil h).2 q)
    rw [if_neg h0, if_neg h0']
    rcases colMean_cases (n := n) (beginRange n fs sgfreq didv).1 (beginRange n fs sgfreq didv).2
      with e | e | ⟨_, e⟩
    · rw [e, e]
      exact runAlgo_none env algo nsig _ _
    · rw [e, e]
      exact .raised _
    · rw [e, e]
      exact runAlgo_feature env algo nsig _ h
  · intro l l' h
    unfold chi2cut
    by_cases h0 : l = []
    · rw [if_pos h0, if_pos ((nil h).1 h0)]
      exact .raised _
    have h0' : l' ≠ [] := fun q => h0 ((nil h).2 q)
    rw [if_neg h0, if_neg h0']
    rcases ofAll_map (n := n) fs with ⟨e, he⟩ | ⟨g, hg⟩
    · rw [he _ h0, he _ h0']
      exact .raised e
    · rw [hg, hg]
      simp only [List.map_map]
      exact runAlgo_feature env algo nsig _ h
  · intro l l' h
    unfold slopecut
    by_cases h0 : l = []
    · rw [if_pos h0, if_pos ((nil h).1 h0)]
      exact .raised _
    have h0' : l' ≠ [] := fun q => h0 ((nil h).2 q)
    rw [if_neg h0, if_neg h0']
    have hset : ∀ (k : List (ZMod n → ℝ)) (i : List ℕ),
        setTrue (List.replicate k.length true) i = k.map fun _ => true := by
      intro k i
      refine List.ext_getElem? fun j => ?_
      by_cases hj : j < k.length
      · simp [setTrue, hj]
      · simp [setTrue, hj]
    have fin : ∀ {r r' : Comp (List Bool)}, SameSelection l l' r r' →
        SameSelection l l'
          (r.andThen fun c => some (.ok (setTrue (List.replicate l.length true)
            (sel (List.range l.length) c))))
          (r'.andThen fun c => some (.ok (setTrue (List.replicate l'.length true)
            (sel (List.range l'.length) c)))) := by
      intro r r' h
      cases h with
      | running => exact .running
      | raised e => exact .raised e
      | kept keep =>
        unfold Comp.andThen
        dsimp only
        rw [hset, hset]
        exact .kept _
    rcases slopes_cases (n := n) fs sgfreq didv with e | e | ⟨_, _, e⟩
    · rw [e, e]
      simp only [Option.map_none, List.length_range]
      exact fin (runAlgo_none env algo nsig l l')
    · rw [e, e]
      exact .raised _
    · rw [e, e]
      simp only [Option.map_some, List.length_range]
      have hr : ∀ (g : (ZMod n → ℝ) → ℝ) (k : List (ZMod n → ℝ)),
          ((List.range k.length).map fun (i : ℕ) => (k.map g).getD i 0) = k.map g := by
        intro g k
        refine List.ext_getElem? fun j => ?_
        by_cases hj : j < k.length
        · simp [hj, List.getD_eq_getElem?_getD]
        · simp [hj]
      rw [hr, hr]
      exact fin (runAlgo_feature env algo nsig _ h)

/-- `autocuts` selects the same traces in whatever order they are stored, unless the slopes are
symmetrized (which draws random numbers). -/
theorem autocuts_order (env : Env) (a : AutoArgs) (ha : a.slope = false ∨ a.symmetrize = false) :
    OrderFree (autocuts (n := n) env a) := by
  intro l l' h
  rw [autocuts_survivors, autocuts_survivors]
  have hst : ∀ f, some f ∈ stages (n := n) env a → OrderFree f := by
    intro f hf
    unfold stages at hf
    simp only [List.mem_cons, List.not_mem_nil, or_false] at hf
    have S := fun (algo : Algo) (nsig : ℝ) (rm : Bool) =>
      stages_order (n := n) env a.fs algo nsig a.sgfreq a.didv rm
    rcases hf with hf | hf | hf | hf | hf
    · split_ifs at hf
      cases hf
      exact (S _ _ _).1
    · split_ifs at hf with hs
      cases hf
      rcases ha with ha | ha
      · rw [ha] at hs
        exact absurd hs (by simp)
      · rw [ha]
        exact (S _ _ false).2.2.2
    · split_ifs at hf
      cases hf
      exact (S _ _ false).2.1
    · split_ifs at hf
      cases hf
      exact (S _ _ _).1
    · split_ifs at hf
      cases hf
      exact (S _ _ false).2.2.1
  have hp : ((l.zipIdx.map Prod.swap).map Prod.snd).Perm
      ((l'.zipIdx.map Prod.swap).map Prod.snd) := by
    have e : ∀ k : List (ZMod n → ℝ), (k.zipIdx.map Prod.swap).map Prod.snd = k := by
      intro k
      rw [List.map_map]
      exact List.zipIdx_map_fst 0 k
    rw [e, e]
    exact h
  have := survivors_perm _ hst _ _ hp
  revert this
  generalize survivors (stages env a) (l.zipIdx.map Prod.swap) = r
  generalize survivors (stages env a) (l'.zipIdx.map Prod.swap) = r'
  intro this
  cases this with
  | running => exact .running
  | raised e => exact .raised e
  | kept keep =>
    simp only [Option.map_some, Except.map, flags_filter]
    exact .kept keep

/-- The selection follows the events: the four values of `slopecut_violated` in another order. -/
example (env : Env) (hf : 4 ≤ env.fuel) :
    runAlgo env .iterstat (3 / 2) 4 (some [10, -1, 0, 1]) =
      some (.ok [false, true, true, true]) := by
  obtain ⟨_, _, h, _⟩ := slopecut_violated env hf
  have key := runAlgo_perm env .iterstat (3 / 2) (l := [-1, 0, 1, 10]) (l' := [10, -1, 0, 1])
    (List.perm_append_singleton 10 [-1, 0, 1])
  simp only [List.length_cons, List.length_nil, zero_add, Nat.reduceAdd] at key
  rw [h] at key
  generalize hr : runAlgo env .iterstat (3 / 2) 4 (some [10, -1, 0, 1]) = r at key ⊢
  generalize hm : (some (.ok [true, true, true, false]) : Comp (List Bool)) = q at key
  cases key with
  | running => cases hm
  | raised e => cases hm
  | kept keep =>
    simp only [List.map_cons, List.map_nil, Option.some.injEq, Except.ok.injEq, List.cons.injEq,
      and_true] at hm
    obtain ⟨h1, h2, h3, h4⟩ := hm
    simp [← h1, ← h2, ← h3, ← h4]

end Verif.Cut
