import Verif.CutAuto
import Verif.CutSymProps
import Verif.CutScaleProps

/-! Lemmas about the stages of `autocuts`: lengths of the masks, termination. -/

namespace Verif.Cut
open Verif

variable {n : ℕ} [NeZero n]

theorem removeoutliers_length {deg : Option ℝ} {f : ℕ} {x : List (WithTop ℝ)} {maxiter : ℤ}
    {target : ℝ} {m : List Bool}
    (h : removeoutliers deg f x maxiter target = some (.ok m)) : m.length = x.length := by
  have key : ∀ (f : ℕ) (i : ℤ) (inds : List Bool) (hist ms : List (List Bool)),
      inds.length = x.length → roLoop deg x maxiter target f i inds hist = some (.ok ms) →
      (ms.headD []).length = x.length := by
    intro f
    induction f with
    | zero => intro i inds hist ms _ h; simp [roLoop] at h
    | succ f ih =>
      intro i inds hist ms hl h
      unfold roLoop at h
      by_cases ha : above (skew deg (finite (sel x inds))) target
      · obtain ⟨med, dist, hp⟩ := roPass_ok (above_ne_nil ha) inds
        rw [if_pos ha, hp] at h
        simp only at h
        split_ifs at h
        · cases h
          simp [hl]
        · exact ih _ _ _ _ (by simp [hl]) h
      · rw [if_neg ha] at h
        cases h
        exact hl
  unfold removeoutliers roMasks at h
  cases hr : roLoop deg x maxiter target f 1 (x.map fun v => decide (v ≠ ⊤)) [] with
  | none => rw [hr] at h; simp at h
  | some r =>
    rw [hr] at h
    cases r with
    | error e => cases h
    | ok ms =>
      cases h
      exact key f 1 _ [] ms (by simp) hr

theorem runAlgo_length {env : Env} {algo : Algo} {nsig : ℝ} {len : ℕ} {feat : Option (List ℝ)}
    {m : List Bool} (hf : ∀ l, feat = some l → l.length = len)
    (h : runAlgo env algo nsig len feat = some (.ok m)) : m.length = len := by
  rcases feat with _ | l
  · cases algo
    · cases h; simp
    · cases h; simp
    · cases h
  · have hl := hf l rfl
    cases algo with
    | removeoutliers =>
      have := removeoutliers_length h
      rw [this, List.length_map, hl]
    | iterstat =>
      unfold runAlgo at h
      simp only at h
      cases hr : Cut.iterstat env.fuel l nsig 10000 with
      | none => rw [hr] at h; simp at h
      | some r =>
        rw [hr] at h
        cases h
        rw [(iterstat_stats _ _ _ _ _ hr).1, hl]
    | other => cases h

theorem mapM_length {α β : Type*} {f : α → Except Err β} {l : List α} {r : List β}
    (h : l.mapM f = .ok r) : r.length = l.length := by
  induction l generalizing r with
  | nil =>
    rw [List.mapM_nil] at h
    cases h
    rfl
  | cons a l ih =>
    rw [List.mapM_cons] at h
    cases ha : f a with
    | error e => rw [ha] at h; cases h
    | ok b =>
      rw [ha] at h
      cases hl : l.mapM f with
      | error e => rw [hl] at h; cases h
      | ok bs =>
        rw [hl] at h
        cases h
        simp [ih hl]

theorem pileupcut_length {env : Env} {fs nsig : ℝ} {algo : Algo} {rm : Bool}
    {traces : List (ZMod n → ℝ)} {m : List Bool}
    (h : pileupcut env fs algo nsig rm traces = some (.ok m)) : m.length = traces.length := by
  unfold pileupcut at h
  split_ifs at h with h1 h2
  · cases h
  all_goals
    split at h
    · cases h
    · rename_i l hl
      refine runAlgo_length (fun l' e => ?_) h
      cases e
      have := mapM_length hl
      simpa using this

omit [NeZero n] in
theorem colMean_length {traces : List (ZMod n → ℝ)} {a b : ℤ} {l : List ℝ}
    (h : colMean traces a b = .ok (some l)) : l.length = traces.length := by
  unfold colMean at h
  by_cases h1 : b ≤ a
  · rw [if_pos h1] at h
    cases h
  by_cases h2 : a < -(n : ℤ) ∨ (n : ℤ) < b
  · rw [if_neg h1, if_pos h2] at h
    cases h
  rw [if_neg h1, if_neg h2] at h
  cases h
  exact List.length_map _

omit [NeZero n] in
theorem baselinecut_length {env : Env} {fs nsig sgfreq : ℝ} {algo : Algo} {didv : Bool}
    {traces : List (ZMod n → ℝ)} {m : List Bool}
    (h : baselinecut env fs algo nsig didv sgfreq traces = some (.ok m)) :
    m.length = traces.length := by
  unfold baselinecut at h
  split_ifs at h with h1
  · cases h
  · split at h
    · cases h
    · rename_i feat hf
      refine runAlgo_length (fun l' e => ?_) h
      subst e
      exact colMean_length hf

theorem chi2cut_length {env : Env} {fs nsig : ℝ} {algo : Algo}
    {traces : List (ZMod n → ℝ)} {m : List Bool}
    (h : chi2cut env fs algo nsig traces = some (.ok m)) : m.length = traces.length := by
  unfold chi2cut at h
  split_ifs at h with h1
  · cases h
  · split at h
    · cases h
    · rename_i l hl
      refine runAlgo_length (fun l' e => ?_) h
      cases e
      have := mapM_length hl
      simpa using this

theorem andThen_ok {α β : Type*} {c : Comp α} {f : α → Comp β} {b : β}
    (h : c.andThen f = some (.ok b)) : ∃ a, c = some (.ok a) ∧ f a = some (.ok b) := by
  rcases c with _ | (e | a)
  · cases h
  · cases h
  · exact ⟨a, rfl, h⟩

theorem map_andThen {α β γ : Type*} (c : Comp α) (f : α → Comp β) (g : β → γ) :
    (c.andThen f).map (Except.map g) = c.andThen fun a => (f a).map (Except.map g) := by
  rcases c with _ | (e | a) <;> rfl

theorem whereTrue_eq {m : List Bool} {k : ℕ} (h : m.length = k) :
    whereTrue m = sel (List.range k) m := by
  subst h
  have : m = (List.range m.length).map fun i => m.getD i false := by
    refine List.ext_getElem? fun i => ?_
    by_cases hi : i < m.length
    · simp [hi, List.getD_eq_getElem?_getD]
    · simp [hi]
  conv_rhs => rw [this]
  rw [List.length_map, List.length_range, sel_map]
  rfl

/-- The computation ends, and its result does not depend on the fuel once there is enough of it. -/
def Returns {α : Type*} (c : ℕ → Comp α) : Prop := ∃ F r, ∀ f ≥ F, c f = some r

theorem Returns.const {α : Type*} (r : Except Err α) : Returns fun _ => some r :=
  ⟨0, r, fun _ _ => rfl⟩

theorem Returns.andThen {α β : Type*} {c : ℕ → Comp α} {g : ℕ → α → Comp β} (h : Returns c)
    (hg : ∀ a, Returns fun f => g f a) : Returns fun f => (c f).andThen (g f) := by
  obtain ⟨F, r, hr⟩ := h
  rcases r with e | a
  · exact ⟨F, .error e, fun f hf => by simp only [hr f hf]; rfl⟩
  · obtain ⟨G, s, hs⟩ := hg a
    refine ⟨max F G, s, fun f hf => ?_⟩
    simp only [hr f (le_trans (le_max_left _ _) hf)]
    exact hs f (le_trans (le_max_right _ _) hf)

theorem Returns.ite {α : Type*} {p : Prop} [Decidable p] {c d : ℕ → Comp α} (hc : Returns c)
    (hd : Returns d) : Returns fun f => if p then c f else d f := by
  by_cases h : p
  · simpa only [if_pos h] using hc
  · simpa only [if_neg h] using hd

theorem roLoop_mono (deg : Option ℝ) (x : List (WithTop ℝ)) (maxiter : ℤ) (target : ℝ) {f : ℕ}
    {i : ℤ} {inds : List Bool} {hist : List (List Bool)} {r : Except Err (List (List Bool))}
    (h : roLoop deg x maxiter target f i inds hist = some r) {g : ℕ} (hg : f ≤ g) :
    roLoop deg x maxiter target g i inds hist = some r := by
  induction f generalizing g i inds hist with
  | zero => simp [roLoop] at h
  | succ f ih =>
    obtain ⟨g, rfl⟩ : ∃ g', g = g' + 1 := ⟨g - 1, by omega⟩
    rw [roLoop] at h ⊢
    by_cases ha : above (skew deg (finite (sel x inds))) target
    · rw [if_pos ha] at h ⊢
      cases hp : roPass x inds with
      | error e => simpa only [hp] using h
      | ok inds' =>
        simp only [hp] at h ⊢
        split_ifs at h ⊢
        · exact h
        · exact ih h (by omega)
    · rwa [if_neg ha] at h ⊢

theorem runAlgo_returns (deg : Option ℝ) (choice : List ℕ → ℕ → List ℕ) (algo : Algo) (nsig : ℝ)
    (len : ℕ) (feat : Option (List ℝ)) :
    Returns fun f => runAlgo ⟨deg, f, choice⟩ algo nsig len feat := by
  cases algo with
  | other => exact .const _
  | removeoutliers =>
    cases feat with
    | none => exact .const _
    | some l =>
      obtain ⟨mask, old, _, e, _⟩ := removeoutliers_spec deg
        (l.map fun v => ((v : ℝ) : WithTop ℝ)) 20 (1 / 20) 21 le_rfl
      refine ⟨21, .ok mask, fun f hf => ?_⟩
      simp only [runAlgo, Cut.removeoutliers]
      rw [roMasks, roLoop_mono deg _ 20 (1 / 20) e hf]
      rfl
  | iterstat =>
    cases feat with
    | none => exact .const _
    | some l =>
      obtain ⟨F, r, hr⟩ := iterstat_returns l nsig 10000 (by norm_num)
      refine ⟨F, .ok r.mask, fun f hf => ?_⟩
      simp only [runAlgo, hr f hf, Option.map_some]

theorem pileupcut_returns (deg : Option ℝ) (choice : List ℕ → ℕ → List ℕ) (fs : ℝ) (algo : Algo)
    (nsig : ℝ) (rm : Bool) (traces : List (ZMod n → ℝ)) :
    Returns fun f => pileupcut ⟨deg, f, choice⟩ fs algo nsig rm traces := by
  unfold pileupcut
  refine .ite (.const _) ?_
  cases ofAll fs (if rm then traces.map removeMean else traces) with
  | error e => exact .const _
  | ok l => exact runAlgo_returns ..

omit [NeZero n] in
theorem slopecut_returns (deg : Option ℝ) (choice : List ℕ → ℕ → List ℕ) (fs : ℝ) (algo : Algo)
    (nsig : ℝ) (didv sym : Bool) (sgfreq : ℝ) (traces : List (ZMod n → ℝ)) :
    Returns fun f => slopecut ⟨deg, f, choice⟩ fs algo nsig didv sym sgfreq traces := by
  unfold slopecut
  refine .ite (.const _) ?_
  cases slopes fs sgfreq didv traces with
  | error e => exact .const _
  | ok feat =>
    simp only
    split
    · exact .const _
    · exact .andThen (runAlgo_returns ..) fun _ => .const _

omit [NeZero n] in
theorem baselinecut_returns (deg : Option ℝ) (choice : List ℕ → ℕ → List ℕ) (fs : ℝ) (algo : Algo)
    (nsig : ℝ) (didv : Bool) (sgfreq : ℝ) (traces : List (ZMod n → ℝ)) :
    Returns fun f => baselinecut ⟨deg, f, choice⟩ fs algo nsig didv sgfreq traces := by
  unfold baselinecut
  refine .ite (.const _) ?_
  cases colMean traces (beginRange n fs sgfreq didv).1 (beginRange n fs sgfreq didv).2 with
  | error e => exact .const _
  | ok l => exact runAlgo_returns ..

theorem chi2cut_returns (deg : Option ℝ) (choice : List ℕ → ℕ → List ℕ) (fs : ℝ) (algo : Algo)
    (nsig : ℝ) (traces : List (ZMod n → ℝ)) :
    Returns fun f => chi2cut ⟨deg, f, choice⟩ fs algo nsig traces := by
  unfold chi2cut
  refine .ite (.const _) ?_
  cases ofAll fs traces with
  | error e => exact .const _
  | ok l => exact runAlgo_returns ..

end Verif.Cut
