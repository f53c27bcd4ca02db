import Verif.CutEffects
import Verif.CutAutoLemmas

/-! Property C91: what the calls do to the arrays of the caller. -/

namespace Verif.Cut
open Verif

variable {n : ℕ} [NeZero n]

/-- **C91**, partial: `pileupcut` without `removemeans` and `autocuts` leave the traces of the caller as they
are. -/
theorem traces_unchanged_partial (env : Env) (a : AutoArgs) (fs nsig : ℝ) (algo : Algo) (dt : Dtype)
    (traces : List (ZMod n → ℝ)) :
    (pileupcutM env fs algo nsig false dt traces).2 = traces ∧ (autocutsM env a dt traces).2 = traces := by
  have h1 : ∀ (algo : Algo) (fs nsig : ℝ), (pileupcutM env fs algo nsig false dt traces).2 = traces := by
    intro algo fs nsig
    unfold pileupcutM
    split_ifs
    · rfl
    · cases dt <;> rfl
  refine ⟨h1 algo fs nsig, ?_⟩
  have key : ∀ {α β : Type} (c : Comp α × List (ZMod n → ℝ))
      (f : α → List (ZMod n → ℝ) → Comp β × List (ZMod n → ℝ)), c.2 = traces →
      (∀ x, (f x traces).2 = traces) → (andThenM c f).2 = traces := by
    intro α β c f hc hf
    obtain ⟨c, s⟩ := c
    dsimp only at hc
    subst hc
    rcases c with _ | (e | x)
    · rfl
    · rfl
    · exact hf x
  unfold autocutsM
  refine key _ _ ?_ fun i1 => key _ _ ?_ fun c2 => key _ _ ?_ fun c3 => key _ _ ?_ fun c4 =>
    key _ _ ?_ fun c5 => rfl
  · split_ifs
    · exact key _ _ (h1 _ _ _) fun _ => rfl
    · rfl
  all_goals split_ifs <;> rfl

/-- **C91**, violated: with `removemeans` the traces of the caller lose their means: they are as before only
if all means vanished, and afterwards all means vanish. -/
theorem pileup_inplace_violated (env : Env) (fs nsig : ℝ) (algo : Algo) (traces : List (ZMod n → ℝ)) :
    ((pileupcutM env fs algo nsig true .float traces).2 = traces ↔ ∀ x ∈ traces, ∑ j, x j = 0) ∧
    ∀ x ∈ (pileupcutM env fs algo nsig true .float traces).2, ∑ j, x j = 0 := by
  have hn : (n : ℝ) ≠ 0 := Nat.cast_ne_zero.2 (NeZero.ne n)
  have h : (pileupcutM env fs algo nsig true .float traces).2 = traces.map removeMean := by
    unfold pileupcutM
    split_ifs with h
    · simp [h]
    · rfl
  have h0 : ∀ x : ZMod n → ℝ, ∑ j, removeMean x j = 0 := by
    intro x
    unfold removeMean
    rw [Finset.sum_sub_distrib, Finset.sum_const, Finset.card_univ, ZMod.card, nsmul_eq_mul,
      mul_div_cancel₀ _ hn, sub_self]
  rw [h]
  refine ⟨⟨fun e x hx => ?_, fun e => ?_⟩, fun x hx => ?_⟩
  · rw [← e] at hx
    obtain ⟨y, _, rfl⟩ := List.mem_map.1 hx
    exact h0 y
  · conv_rhs => rw [← List.map_id traces]
    refine List.map_congr_left fun x hx => ?_
    funext i
    simp [removeMean, e x hx]
  · obtain ⟨y, _, rfl⟩ := List.mem_map.1 hx
    exact h0 y

/-- Witness: one trace of two bins with mean 1. -/
example (env : Env) : (pileupcutM (n := 2) env 1 .iterstat 2 true .float [fun _ => 1]).2 ≠ [fun _ => 1] := by
  intro h
  have := ((pileup_inplace_violated env 1 2 .iterstat [fun _ => 1]).1.1 h) _ List.mem_cons_self
  simp at this

/-- For traces of floating point numbers `autocuts` with effects is `autocuts`. -/
theorem autocutsM_float (env : Env) (a : AutoArgs) (traces : List (ZMod n → ℝ)) :
    (autocutsM env a .float traces).1 = autocuts env a traces := by
  have hp : ∀ fs nsig algo rm (t : List (ZMod n → ℝ)),
      (pileupcutM env fs algo nsig rm .float t).1 = pileupcut env fs algo nsig rm t := by
    intro fs nsig algo rm t
    unfold pileupcutM
    split_ifs with h
    · unfold pileupcut
      rw [if_pos h]
    · cases rm <;> rfl
  have key : ∀ {α β : Type} (c : Comp α × List (ZMod n → ℝ)) (c' : Comp α)
      (f : α → List (ZMod n → ℝ) → Comp β × List (ZMod n → ℝ)) (f' : α → Comp β), c = (c', traces) →
      (∀ x, (f x traces).1 = f' x) → (andThenM c f).1 = c'.andThen f' := by
    intro α β c c' f f' hc hf
    subst hc
    rcases c' with _ | (e | x)
    · rfl
    · rfl
    · exact hf x
  have hs := fun fs nsig algo =>
    (traces_unchanged_partial env a fs nsig algo .float traces).1
  unfold autocutsM autocuts
  refine key _ _ _ _ ?_ fun i1 => key _ _ _ _ ?_ fun c2 => key _ _ _ _ ?_ fun c3 => key _ _ _ _ ?_ fun c4 =>
    key _ _ _ _ ?_ fun c5 => rfl
  · split_ifs
    · have e : pileupcutM env a.fs a.algo a.nsigpileup1 false .float traces =
          (pileupcut env a.fs a.algo a.nsigpileup1 false traces, traces) :=
        Prod.ext (hp _ _ _ _ _) (hs _ _ _)
      rw [e]
      rcases pileupcut env a.fs a.algo a.nsigpileup1 false traces with _ | (e | c) <;> rfl
    · rfl
  · split_ifs <;> rfl
  · split_ifs <;> rfl
  · split_ifs
    · rw [hp]
    · rfl
  · split_ifs <;> rfl

/-- **C91**, violated: with the traces of a digitiser the mean cannot be subtracted in place, so that
`pileupcut` with `removemeans`, and `autocuts` for dIdV data with its second pileup cut, never return. -/
theorem integer_traces_violated (env : Env) (fs nsig : ℝ) (algo : Algo) (a : AutoArgs)
    (traces : List (ZMod n → ℝ)) :
    (traces ≠ [] → (pileupcutM env fs algo nsig true .int traces).1 = some (.error .typeError)) ∧
    (a.didv = true → a.pileup2 = true → ∀ m, (autocutsM env a .int traces).1 ≠ some (.ok m)) := by
  have hp : ∀ fs nsig algo (t : List (ZMod n → ℝ)),
      ∃ e, (pileupcutM env fs algo nsig true .int t).1 = some (.error e) := by
    intro fs nsig algo t
    unfold pileupcutM
    split_ifs
    · exact ⟨_, rfl⟩
    · exact ⟨_, rfl⟩
  refine ⟨fun h => by unfold pileupcutM; rw [if_neg h], fun hd h2 m => ?_⟩
  have key : ∀ {α β : Type} (c : Comp α × List (ZMod n → ℝ))
      (f : α → List (ZMod n → ℝ) → Comp β × List (ZMod n → ℝ)) (v : β),
      (∀ x s, (f x s).1 ≠ some (.ok v)) → (andThenM c f).1 ≠ some (.ok v) := by
    intro α β c f v hf
    obtain ⟨_ | (e | x), s⟩ := c
    · intro h; cases h
    · intro h; cases h
    · exact hf x s
  unfold autocutsM
  refine key _ _ _ fun i1 s1 => key _ _ _ fun c2 s2 => key _ _ _ fun c3 s3 => ?_
  dsimp only
  rw [if_pos (by simp [hd, h2])]
  obtain ⟨e, he⟩ := hp a.fs a.nsigpileup2 a.algo (takeIdx s3 (sel (sel i1 c2) c3))
  rw [he]
  intro h
  cases h

/-- Without the second pileup cut, or for other data, the type of the numbers plays no part. -/
theorem integer_traces_partial (env : Env) (a : AutoArgs) (traces : List (ZMod n → ℝ))
    (h : a.didv = false ∨ a.pileup2 = false) :
    autocutsM env a .int traces = autocutsM env a .float traces := by
  have hf : ¬ (a.pileup2 && a.didv) = true := by
    rcases h with h | h <;> simp [h]
  have hp : ∀ fs nsig algo (t : List (ZMod n → ℝ)),
      pileupcutM env fs algo nsig false .int t = pileupcutM env fs algo nsig false .float t := by
    intro fs nsig algo t
    rfl
  unfold autocutsM
  simp only [if_neg hf, hp]

example : (AutoArgs.mk 1 true 1 false .iterstat true true true true true 2 2 2 2 2).didv = true := rfl

end Verif.Cut

namespace Verif.Noise
open Verif Dft

variable {n : ℕ} [NeZero n]

/-- **C91**, partial: a PSD that is finite in its first bin is left alone, and calling again with the same
draws gives the same noise. -/
theorem genNoise_psd_partial (psd : ZMod n → WithTop ℝ) (fs : ℝ) (vals : List (ZMod n → ℝ)) :
    (psd 0 ≠ ⊤ → (genNoiseM psd fs vals).2 = psd) ∧
    genNoiseM (genNoiseM psd fs vals).2 fs vals = genNoiseM psd fs vals := by
  have hid : genPsd (genPsd psd) = genPsd psd := by
    funext k
    unfold genPsd
    by_cases h : psd 0 = ⊤
    · by_cases hk : k = 0
      · simp [hk, h]
      · simp [hk]
    · simp [h]
  refine ⟨fun h => ?_, ?_⟩
  · funext k
    simp [genNoiseM, genPsd, h]
  · simp only [genNoiseM, hid]

/-- **C91**, violated: a PSD with an infinite first bin (how the optimum filters ignore DC) comes back with a
zero there, which means the opposite: no noise at DC. -/
theorem genNoise_psd_violated (psd : ZMod n → WithTop ℝ) (fs : ℝ) (vals : List (ZMod n → ℝ))
    (h : psd 0 = ⊤) : (genNoiseM psd fs vals).2 0 = 0 ∧ (genNoiseM psd fs vals).2 ≠ psd := by
  have h0 : (genNoiseM psd fs vals).2 0 = 0 := by simp [genNoiseM, genPsd, h]
  refine ⟨h0, fun e => ?_⟩
  rw [e, h] at h0
  exact WithTop.top_ne_zero h0

example : (fun k : ZMod 3 => if k = 0 then (⊤ : WithTop ℝ) else 1) 0 = ⊤ := by simp

end Verif.Noise
