import Verif.CutOrderSpec
import Verif.CutStageLemmas
import Mathlib.Data.List.Sort

/-! Helper lemmas for C123. -/

namespace Verif.Cut
open Verif Verif.Dft Verif.OF Verif.OF.Fun

theorem avg_perm {l l' : List ℝ} (h : l.Perm l') : avg l = avg l' := by
  unfold avg
  rw [h.sum_eq, h.length_eq]

theorem moment_perm (k : ℕ) {l l' : List ℝ} (h : l.Perm l') : moment k l = moment k l' := by
  unfold moment
  rw [avg_perm h]
  exact avg_perm (h.map _)

theorem std_perm {l l' : List ℝ} (h : l.Perm l') : std l = std l' := by
  unfold std
  rw [moment_perm 2 h]

theorem skew_perm (deg : Option ℝ) {l l' : List ℝ} (h : l.Perm l') : skew deg l = skew deg l' := by
  unfold skew
  have e : l = [] ↔ l' = [] := by
    rw [← List.length_eq_zero_iff, ← List.length_eq_zero_iff, h.length_eq]
  rw [moment_perm 2 h, moment_perm 3 h]
  by_cases h0 : l = []
  · rw [if_pos h0, if_pos (e.1 h0)]
  · rw [if_neg h0, if_neg (fun q => h0 (e.2 q))]

theorem mergeSort_perm {l l' : List ℝ} (h : l.Perm l') :
    l.mergeSort (fun a b => decide (a ≤ b)) = l'.mergeSort fun a b => decide (a ≤ b) := by
  refine List.Perm.eq_of_pairwise (le := (· ≤ ·)) (fun a b _ _ => le_antisymm) ?_ ?_
    (((List.mergeSort_perm l _).trans h).trans (List.mergeSort_perm l' _).symm)
  · exact (List.pairwise_mergeSort (le := fun a b : ℝ => decide (a ≤ b))
      (fun a b c h1 h2 => by simp at *; linarith) (fun a b => by simp [le_total]) l).imp
      fun h => by simpa using h
  · exact (List.pairwise_mergeSort (le := fun a b : ℝ => decide (a ≤ b))
      (fun a b c h1 h2 => by simp at *; linarith) (fun a b => by simp [le_total]) l').imp
      fun h => by simpa using h

theorem median_perm {l l' : List ℝ} (h : l.Perm l') : median l = median l' := by
  unfold median
  rw [mergeSort_perm h, h.length_eq]

theorem finite_perm {l l' : List (WithTop ℝ)} (h : l.Perm l') : (finite l).Perm (finite l') :=
  h.filterMap _

theorem min?_perm {l l' : List (WithTop ℝ)} (h : l.Perm l') : l.min? = l'.min? := by
  cases h1 : l'.min? with
  | none =>
    rw [List.min?_eq_none_iff] at h1 ⊢
    subst h1
    exact h.eq_nil
  | some a =>
    rw [List.min?_eq_some_iff] at h1 ⊢
    exact ⟨h.mem_iff.2 h1.1, fun b hb => h1.2 b (h.mem_iff.1 hb)⟩

theorem max?_perm {l l' : List (WithTop ℝ)} (h : l.Perm l') : l.max? = l'.max? := by
  cases h1 : l'.max? with
  | none =>
    rw [List.max?_eq_none_iff] at h1 ⊢
    subst h1
    exact h.eq_nil
  | some a =>
    rw [List.max?_eq_some_iff] at h1 ⊢
    exact ⟨h.mem_iff.2 h1.1, fun b hb => h1.2 b (h.mem_iff.1 hb)⟩

theorem sel_perm {α : Type*} {l l' : List α} (h : l.Perm l') (p : α → Bool) :
    (sel l (l.map p)).Perm (sel l' (l'.map p)) := by
  rw [sel_map, sel_map]
  exact h.filter p

theorem count_perm {α : Type*} {l l' : List α} (h : l.Perm l') (p : α → Bool) :
    (l.map p).count true = (l'.map p).count true := (h.map p).count_eq true

theorem replicate_map {α β : Type*} (l : List α) (b : β) :
    List.replicate l.length b = l.map fun _ => b := by
  simp

theorem isLoop_perm {l l' : List ℝ} (h : l.Perm l') (cut : ℝ) (c : WithTop ℝ) (f : ℕ) :
    ∀ (μ σ : ℝ) (ns : ℕ), SameStat l l' (isLoop l cut c f μ σ ns) (isLoop l' cut c f μ σ ns) := by
  induction f with
  | zero => exact fun _ _ _ => .running
  | succ f ih =>
    intro μ σ ns
    unfold isLoop
    dsimp only
    have hc : (isMask l cut μ σ).count true = (isMask l' cut μ σ).count true := count_perm h _
    have hs : (sel l (isMask l cut μ σ)).Perm (sel l' (isMask l' cut μ σ)) := sel_perm h _
    rw [hc, avg_perm h, std_perm h, avg_perm hs, std_perm hs]
    split_ifs
    · rw [replicate_map, replicate_map]
      exact .stat _ _ _
    · exact .stat _ _ _
    · exact ih _ _ _
    · exact .stat _ _ _
    · exact ih _ _ _

theorem roPass_perm {x x' : List (WithTop ℝ)} (h : x.Perm x') (p : WithTop ℝ → Bool) :
    (∃ e, roPass x (x.map p) = .error e ∧ roPass x' (x'.map p) = .error e) ∨
    ∃ q : WithTop ℝ → Bool, roPass x (x.map p) = .ok (x.map q) ∧
      roPass x' (x'.map p) = .ok (x'.map q) := by
  unfold roPass
  rw [median_perm (finite_perm (sel_perm h p))]
  set med := median (finite (sel x' (x'.map p)))
  dsimp only
  rw [min?_perm (h.map (WithTop.map fun v => v - med)),
    max?_perm (h.map (WithTop.map fun v => v - med))]
  cases (x'.map (WithTop.map fun v => v - med)).min? with
  | none => exact .inl ⟨_, rfl, rfl⟩
  | some lo =>
    cases (x'.map (WithTop.map fun v => v - med)).max? with
    | none => exact .inl ⟨_, rfl, rfl⟩
    | some hi =>
      refine .inr ⟨fun v => p v && decide (WithTop.map (fun v : ℝ => |v|)
        (WithTop.map (fun v => v - med) v) < min (lo.map fun v => |v|) (hi.map fun v => |v|)), ?_, ?_⟩
      · simp only [List.zipWith_map, List.zipWith_self]
      · simp only [List.zipWith_map, List.zipWith_self]

theorem roLoop_perm (deg : Option ℝ) {x x' : List (WithTop ℝ)} (h : x.Perm x') (maxiter : ℤ)
    (target : ℝ) (f : ℕ) : ∀ (i : ℤ) (p : WithTop ℝ → Bool) (hist hist' : List (List Bool)),
    SameSelection x x'
      ((roLoop deg x maxiter target f i (x.map p) hist).map fun r => r.map fun h => h.headD [])
      ((roLoop deg x' maxiter target f i (x'.map p) hist').map
        fun r => r.map fun h => h.headD []) := by
  induction f with
  | zero => exact fun _ _ _ _ => .running
  | succ f ih =>
    intro i p hist hist'
    unfold roLoop
    rw [skew_perm deg (finite_perm (sel_perm h p))]
    by_cases ha : above (skew deg (finite (sel x' (x'.map p)))) target
    · rw [if_pos ha, if_pos ha]
      rcases roPass_perm h p with ⟨e, h1, h2⟩ | ⟨q, h1, h2⟩
      · rw [h1, h2]
        exact .raised e
      · rw [h1, h2]
        dsimp only
        by_cases hi : i > maxiter
        · rw [if_pos hi, if_pos hi]
          exact .kept q
        · rw [if_neg hi, if_neg hi]
          exact ih _ _ _ _
    · rw [if_neg ha, if_neg ha]
      exact .kept p

/-- A selection by a feature of the event. -/
theorem SameSelection.of_feature {α β : Type*} (g : α → β) {l l' : List α} {r r' : Comp (List Bool)}
    (h : SameSelection (l.map g) (l'.map g) r r') : SameSelection l l' r r' := by
  cases h with
  | running => exact .running
  | raised e => exact .raised e
  | kept keep =>
    rw [List.map_map, List.map_map]
    exact .kept _

variable {n : ℕ} [NeZero n]

/-- The optimum filter of the cuts never fails for one trace and not for another. -/
theorem ofAll_map (fs : ℝ) : (∃ e, ∀ traces : List (ZMod n → ℝ), traces ≠ [] →
      ofAll fs traces = .error e) ∨
    ∃ g : (ZMod n → ℝ) → ℝ × ℝ, ∀ traces, ofAll fs traces = .ok (traces.map g) := by
  by_cases hb : ¬ (-((n : ℤ) / 2) ≤ 0 ∧ 0 ≤ (n : ℤ) / 2 - ((n : ℤ) + 1) % 2)
  · refine .inl ⟨.valueError, fun traces ht => ?_⟩
    rcases traces with _ | ⟨x, t⟩
    · exact absurd rfl ht
    · unfold ofAll ofamp argminRows
      rw [List.mapM_cons]
      simp only [if_true, if_pos hb]
      rfl
  · have key : ∀ x : ZMod n → ℝ, ∃ g : ℝ × ℝ, (match OF.Fun.ofamp [x] (dummyTemplate fs)
        (fun _ => ((1 : ℝ) : WithTop ℝ)) fs true true none false false with
        | .error e => (.error e : Except Err (ℝ × ℝ))
        | .ok l => .ok ((l.headD (0, 0, 0)).1, (l.headD (0, 0, 0)).2.2)) = .ok g := by
      intro x
      unfold ofamp argminRows
      simp only [if_true, if_neg hb]
      exact ⟨_, rfl⟩
    choose g hg using key
    refine .inr ⟨g, fun traces => ?_⟩
    have e : ∀ t : List (ZMod n → ℝ), ofAll fs t = t.mapM fun x => (.ok (g x) : Except Err _) :=
      fun t => congrArg (fun f => t.mapM f) (funext hg)
    rw [e]
    induction traces with
    | nil => rfl
    | cons x t ih =>
      rw [List.mapM_cons, ih]
      rfl

omit [NeZero n] in
theorem runAlgo_perm (env : Env) (algo : Algo) (nsig : ℝ) {l l' : List ℝ} (h : l.Perm l') :
    SameSelection l l' (runAlgo env algo nsig l.length (some l))
      (runAlgo env algo nsig l'.length (some l')) := by
  cases algo with
  | other => exact .raised _
  | removeoutliers =>
    unfold runAlgo removeoutliers roMasks
    exact (roLoop_perm env.deg (h.map fun v : ℝ => (v : WithTop ℝ)) 20 (1 / 20) env.fuel 1
      (fun v => decide (v ≠ ⊤)) [] []).of_feature
  | iterstat =>
    unfold runAlgo iterstat
    dsimp only
    by_cases h0 : l = []
    · subst h0
      rw [h.nil_eq.symm, if_pos rfl]
      exact .kept fun _ => true
    · have h0' : l' ≠ [] := fun q => h0 (by subst q; exact h.eq_nil)
      rw [if_neg h0, if_neg h0', avg_perm h, std_perm h]
      have e : stdcutoff l 10000 = stdcutoff l' 10000 := by
        unfold stdcutoff
        rw [std_perm h]
      rw [e]
      have key := isLoop_perm h nsig (stdcutoff l' 10000) env.fuel (avg l') (std l') 0
      revert key
      generalize isLoop l nsig (stdcutoff l' 10000) env.fuel (avg l') (std l') 0 = r
      generalize isLoop l' nsig (stdcutoff l' 10000) env.fuel (avg l') (std l') 0 = r'
      intro key
      cases key with
      | running => exact .running
      | stat m s keep => exact .kept keep

omit [NeZero n] in
/-- A cut on a feature of the traces. -/
theorem runAlgo_feature (env : Env) (algo : Algo) (nsig : ℝ) {α : Type*} (g : α → ℝ)
    {l l' : List α} (h : l.Perm l') :
    SameSelection l l' (runAlgo env algo nsig l.length (some (l.map g)))
      (runAlgo env algo nsig l'.length (some (l'.map g))) := by
  have := (runAlgo_perm env algo nsig (h.map g)).of_feature g
  rwa [List.length_map, List.length_map] at this

omit [NeZero n] in
theorem runAlgo_none (env : Env) (algo : Algo) (nsig : ℝ) {α : Type*} (l l' : List α) :
    SameSelection l l' (runAlgo env algo nsig l.length none)
      (runAlgo env algo nsig l'.length none) := by
  cases algo with
  | other => exact .raised _
  | removeoutliers =>
    unfold runAlgo
    rw [replicate_map, replicate_map]
    exact .kept _
  | iterstat =>
    unfold runAlgo
    rw [replicate_map, replicate_map]
    exact .kept _

/-- The outcome of a sequence of order free cuts. -/
inductive SameSurvivors {T : Type*} (l l' : List (ℕ × T)) :
    Option (Except Err (List (ℕ × T))) → Option (Except Err (List (ℕ × T))) → Prop
  | running : SameSurvivors l l' none none
  | raised (e : Err) : SameSurvivors l l' (some (.error e)) (some (.error e))
  | kept (keep : T → Bool) : SameSurvivors l l'
      (some (.ok (l.filter fun p => keep p.2))) (some (.ok (l'.filter fun p => keep p.2)))

theorem survivors_perm {T : Type*}
    (st : List (Option (List T → Option (Except Err (List Bool)))))
    (hst : ∀ f, some f ∈ st → OrderFree f) :
    ∀ l l' : List (ℕ × T), (l.map Prod.snd).Perm (l'.map Prod.snd) →
      SameSurvivors l l' (survivors st l) (survivors st l') := by
  induction st with
  | nil =>
    intro l l' _
    have := SameSurvivors.kept (l := l) (l' := l') fun _ => true
    rw [List.filter_true, List.filter_true] at this
    exact this
  | cons s st ih =>
    intro l l' h
    have ih' := ih fun f hf => hst f (by simp [hf])
    cases s with
    | none => exact ih' l l' h
    | some f =>
      have hf := hst f (by simp) _ _ h
      unfold survivors
      revert hf
      generalize f (l.map Prod.snd) = r
      generalize f (l'.map Prod.snd) = r'
      intro hf
      cases hf with
      | running => exact .running
      | raised e => exact .raised e
      | kept keep =>
        dsimp only
        rw [← sel_eq_selected, ← sel_eq_selected, List.map_map, List.map_map, sel_map, sel_map]
        have hp : ((l.filter (keep ∘ Prod.snd)).map Prod.snd).Perm
            ((l'.filter (keep ∘ Prod.snd)).map Prod.snd) := by
          rw [← List.filter_map, ← List.filter_map]
          exact h.filter keep
        have := ih' _ _ hp
        revert this
        generalize survivors st (l.filter (keep ∘ Prod.snd)) = r
        generalize survivors st (l'.filter (keep ∘ Prod.snd)) = r'
        intro this
        cases this with
        | running => exact .running
        | raised e => exact .raised e
        | kept k2 =>
          rw [List.filter_filter, List.filter_filter]
          exact .kept fun x => k2 x && keep x

omit [NeZero n] in
/-- The flags of the survivors. -/
theorem flags_filter (traces : List (ZMod n → ℝ)) (keep : (ZMod n → ℝ) → Bool) :
    ((List.range traces.length).map fun (i : ℕ) => decide (i ∈
      ((traces.zipIdx.map Prod.swap).filter fun p => keep p.2).map Prod.fst)) =
      traces.map keep := by
  refine List.ext_getElem? fun j => ?_
  by_cases hj : j < traces.length
  · simp only [List.getElem?_map, List.getElem?_range hj, Option.map_some,
      List.getElem?_eq_getElem hj, Option.some.injEq]
    rw [Bool.eq_iff_iff, decide_eq_true_iff]
    simp only [List.mem_map, List.mem_filter, Prod.exists, Prod.swap_prod_mk, Prod.mk.injEq]
    constructor
    · rintro ⟨a, b, ⟨⟨c, d, hcd, rfl, rfl⟩, hk⟩, rfl⟩
      rw [List.mem_zipIdx_iff_getElem?] at hcd
      simp only at hcd
      rw [List.getElem?_eq_getElem hj] at hcd
      cases hcd
      exact hk
    · intro hk
      exact ⟨j, traces[j], ⟨⟨traces[j], j, by
        rw [List.mem_zipIdx_iff_getElem?]
        exact List.getElem?_eq_getElem hj, rfl, rfl⟩, hk⟩, rfl⟩
  · simp [hj]

variable {d : ℕ}

theorem vmean_perm {l l' : List (Fin d → ℝ)} (h : l.Perm l') : vmean l = vmean l' := by
  funext i
  exact avg_perm (h.map _)

theorem vcov_perm {l l' : List (Fin d → ℝ)} (h : l.Perm l') : vcov l = vcov l' := by
  funext i j
  unfold vcov
  rw [vmean_perm h, h.length_eq, (h.map _).sum_eq]

/-- `SameCov` for the loop. -/
inductive SameEv (l l' : List (Fin d → ℝ)) :
    Option (Except Err (CovStat d × ℕ)) → Option (Except Err (CovStat d × ℕ)) → Prop
  | running : SameEv l l' none none
  | raised (e : Err) : SameEv l l' (some (.error e)) (some (.error e))
  | stat (m : Option (Fin d → ℝ)) (c : Option (Matrix (Fin d) (Fin d) ℝ)) (p : ℕ)
      (keep : (Fin d → ℝ) → Bool) :
      SameEv l l' (some (.ok (⟨m, c, l.map keep⟩, p))) (some (.ok (⟨m, c, l'.map keep⟩, p)))

theorem covLoop_perm {l l' : List (Fin d → ℝ)} (h : l.Perm l') (mc thr : ℝ) (mi : ℤ)
    (em : Fin d → ℝ) (ec : ℝ) (f : ℕ) :
    ∀ (m : Fin d → ℝ) (c : Matrix (Fin d) (Fin d) ℝ) (ns jj : ℕ),
      SameEv l l' (covLoop l mc thr mi em ec f m c ns jj) (covLoop l' mc thr mi em ec f m c ns jj) := by
  induction f with
  | zero => exact fun _ _ _ _ => .running
  | succ f ih =>
    intro m c ns jj
    unfold covLoop
    dsimp only
    have hc : (covMask l m c mc thr).count true = (covMask l' m c mc thr).count true :=
      count_perm h _
    have hs : (sel l (covMask l m c mc thr)).Perm (sel l' (covMask l' m c mc thr)) := sel_perm h _
    rw [hc, vmean_perm h, vcov_perm h, vmean_perm hs, vcov_perm hs]
    by_cases h1 : c.det = 0
    · rw [if_pos h1, if_pos h1]
      exact .raised _
    · rw [if_neg h1, if_neg h1]
      by_cases h2 : (covMask l' m c mc thr).count true ≤ 1
      · rw [if_pos h2, if_pos h2, replicate_map, replicate_map]
        exact .stat _ _ _ _
      · rw [if_neg h2, if_neg h2]
        generalize (if (∃ i, em i < |vmean (sel l' (covMask l' m c mc thr)) i - m i|) ∨
          (∃ i j, ec < |vcov (sel l' (covMask l' m c mc thr)) i j - c i j|) then 0
          else ns + 1) = ns'
        by_cases h3 : ns' ≥ 2 ∨ (jj : ℤ) > mi
        · rw [if_pos h3, if_pos h3]
          exact .stat _ _ _ _
        · rw [if_neg h3, if_neg h3]
          exact ih _ _ _ _

theorem itercovEv_perm (ppf : ℕ → ℝ) (fuel : ℕ) {l l' : List (Fin d → ℝ)} (h : l.Perm l')
    (nsigma : ℝ) (thr : Option ℝ) (mi : ℤ) (fe : ℝ) :
    SameEv l l' (itercovEv ppf fuel l nsigma thr mi fe) (itercovEv ppf fuel l' nsigma thr mi fe) := by
  unfold itercovEv
  by_cases h0 : l = []
  · subst h0
    rw [h.nil_eq.symm, if_pos rfl]
    exact .stat _ _ _ fun _ => true
  · have h0' : l' ≠ [] := fun q => h0 (by subst q; exact h.eq_nil)
    rw [if_neg h0, if_neg h0']
    by_cases h1 : l.length = 1
    · have h1' : l'.length = 1 := h.length_eq ▸ h1
      rw [if_pos h1, if_pos h1', vmean_perm h]
      have e : ∀ k : List (Fin d → ℝ), k.length = 1 → [true] = k.map fun _ => true := by
        intro k hk
        rw [← replicate_map, hk]
        rfl
      have := SameEv.stat (l := l) (l' := l') (some (vmean l')) none 1 fun _ => true
      rwa [← e l h1, ← e l' h1'] at this
    · have h1' : ¬ l'.length = 1 := fun q => h1 (h.length_eq ▸ q)
      rw [if_neg h1, if_neg h1']
      dsimp only
      rw [vmean_perm h, vcov_perm h]
      exact covLoop_perm h _ _ _ _ _ _ _ _ _ _

end Verif.Cut
