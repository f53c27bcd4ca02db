import Verif.OFFun
import Verif.OFLemmas
import Verif.ArgminProps

/-! Helper lemmas relating the function model to the class model. -/

namespace Verif.OF.Fun
open Verif Verif.Dft Verif.OF

variable {n : ℕ} [NeZero n]

section
variable (x T : ZMod n → ℝ) (psd : ZMod n → WithTop ℝ) (fs : ℝ) (ac b : Bool)

theorem tmpl_init : tmpl T fs b = (init x T psd fs ac b).s := by
  cases b <;> rfl

theorem phi_init : phi (tmpl T fs b) (acPsd psd ac) = (init x T psd fs ac b).phi := by
  cases b <;> rfl

theorem norm_init : norm (tmpl T fs b) (acPsd psd ac) fs = (init x T psd fs ac b).norm := by
  cases b <;> rfl

theorem filt_init : filt (tmpl T fs b) (toFreq fs x) (acPsd psd ac) fs =
    readSfTd (init x T psd fs ac b) := by
  cases b <;> rfl

theorem chi0_init : chi0 (toFreq fs x) (acPsd psd ac) fs = readChi0 (init x T psd fs ac b) := by
  have : readChi0 (init x T psd fs ac b) = ((∑ k, starRingEnd ℂ ((init x T psd fs ac b).v k) *
      ((init x T psd fs ac b).w k : ℂ) * (init x T psd fs ac b).v k) * ((fs / n : ℝ) : ℂ)).re := rfl
  rw [this, Complex.re_mul_ofReal]
  rfl

omit [NeZero n] in
theorem search_zero (amps chi : ZMod n → ℝ) (nc : Option ℤ) (o : Bool) (wc : ℤ) :
    search amps chi nc o 0 wc = argminChi2 n (asIdx chi) nc o none wc := by
  simp [search, directionMask]

theorem withdelay_eq (nc : Option ℤ) (o : Bool) :
    (withdelay (init x T psd fs ac b) nc o 0 0 false).1 =
      match argminChi2 n (asIdx (readChi (init x T psd fs ac b))) nc o none 0 with
      | .error e => .error e
      | .ok none => .ok (0, 0, readChi0 (init x T psd fs ac b))
      | .ok (some i) => .ok (readAmps (init x T psd fs ac b) (i : ZMod n),
          ((i : ℝ) - ((n / 2 : ℕ) : ℝ)) / fs, readChi (init x T psd fs ac b) (i : ZMod n)) := by
  have : (withdelay (init x T psd fs ac b) nc o 0 0 false).1 =
    pick fs (readAmps (init x T psd fs ac b)) (readChi (init x T psd fs ac b))
      (readChi0 (init x T psd fs ac b)) (search (readAmps (init x T psd fs ac b))
        (readChi (init x T psd fs ac b)) nc o 0 0) false := rfl
  rw [this, search_zero]
  unfold pick
  cases argminChi2 n (asIdx (readChi (init x T psd fs ac b))) nc o none 0 with
  | error e => rfl
  | ok r => cases r <;> simp

end

theorem wc_zero : (-((n : ℤ) / 2) ≤ 0 ∧ 0 ≤ (n : ℤ) / 2 - ((n : ℤ) + 1) % 2) := by
  have := NeZero.pos n
  omega

theorem argminRows_spec (chis : List (ZMod n → ℝ)) (nc : Option ℤ) (o : Bool) :
    (argminRows chis nc o = .error .valueError ∧ ∃ k, nc = some k ∧ k ≤ 0) ∨
    (argminRows chis nc o = .ok none ∧ ∀ c : ZMod n → ℝ, argminChi2 n (asIdx c) nc o none 0 = .ok none) ∨
    (∃ f : (ZMod n → ℝ) → ℤ, argminRows chis nc o = .ok (some (chis.map f)) ∧
      ∀ c : ZMod n → ℝ, argminChi2 n (asIdx c) nc o none 0 = .ok (some (f c))) := by
  have hw := wc_zero (n := n)
  have h0 : arange 0 (n : ℤ) ≠ [] := by
    intro h
    have hl := congrArg List.length h
    simp [arange] at hl
    exact (NeZero.ne n) hl
  unfold argminRows argminChi2
  rw [if_neg (not_not.2 hw)]
  simp only [if_neg (not_not.2 hw)]
  cases nc with
  | none =>
    right; right
    refine ⟨_, rfl, fun c => ?_⟩
    cases h : arange 0 (n : ℤ) with
    | nil => exact absurd h h0
    | cons a l => rfl
  | some k =>
    simp only
    by_cases hk : k ≤ 0 ∧ ¬ k > n
    · left; rw [if_pos hk]; exact ⟨rfl, k, rfl, hk.1⟩
    · simp only [if_neg hk]
      generalize winInds n (if k > ↑n then ↑n else k) o 0 = inds
      cases inds with
      | nil => right; left; simp [argminOn]
      | cons a l =>
        right; right
        exact ⟨fun c => argminGo (asIdx c) a l, by simp [argminOn], fun c => rfl⟩

omit [NeZero n] in
theorem diagAt_map {β : Type*} {α : Type*} (xs : List β) (g : β → ZMod n → α) (f : β → ℤ) :
    diagAt (xs.map g) (xs.map f) = xs.map fun x => g x (f x : ZMod n) := by
  unfold diagAt
  apply List.ext_getElem?
  intro i
  induction xs generalizing i with
  | nil => simp
  | cons y ys ih =>
    simp only [List.map_cons, List.length_cons, List.range_succ_eq_map, List.filterMap_cons,
      List.getElem?_cons_zero, List.filterMap_map]
    cases i with
    | zero => simp
    | succ i =>
      simp only [List.getElem?_cons_succ]
      rw [← ih i]
      simp

/-- `ofamp` with delays, by cases of the window. -/
theorem ofamp_cases (xs : List (ZMod n → ℝ)) (T : ZMod n → ℝ) (psd : ZMod n → WithTop ℝ)
    (fs : ℝ) (ac b : Bool) (nc : Option ℤ) (o : Bool) :
    (ofamp xs T psd fs true ac nc o b = .error .valueError ∧ ∃ k, nc = some k ∧ k ≤ 0) ∨
    (ofamp xs T psd fs true ac nc o b = .error .indexError ∧
      ∀ c : ZMod n → ℝ, argminChi2 n (asIdx c) nc o none 0 = .ok none) ∨
    (∃ f : (ZMod n → ℝ) → ℤ,
      (∀ c : ZMod n → ℝ, argminChi2 n (asIdx c) nc o none 0 = .ok (some (f c))) ∧
      ofamp xs T psd fs true ac nc o b = .ok (xs.map fun x =>
        (readAmps (init x T psd fs ac b) (f (readChi (init x T psd fs ac b)) : ZMod n),
          ((f (readChi (init x T psd fs ac b)) : ℝ) - ((n / 2 : ℕ) : ℝ)) / fs,
          readChi (init x T psd fs ac b) (f (readChi (init x T psd fs ac b)) : ZMod n)))) := by
  unfold ofamp
  simp only [if_true, List.map_map]
  have e1 : (fun x => roll (filt (tmpl T fs b) (toFreq fs x) (acPsd psd ac) fs)
      ((n / 2 : ℕ) : ZMod n)) = fun x => readAmps (init x T psd fs ac b) := by
    funext x; rw [filt_init x T psd fs ac b]; rfl
  have e2 : (fun x => roll (fun m => chi0 (toFreq fs x) (acPsd psd ac) fs -
      filt (tmpl T fs b) (toFreq fs x) (acPsd psd ac) fs m ^ 2 *
        norm (tmpl T fs b) (acPsd psd ac) fs)
      ((n / 2 : ℕ) : ZMod n)) = fun x => readChi (init x T psd fs ac b) := by
    funext x; rw [filt_init x T psd fs ac b, chi0_init x T psd fs ac b, norm_init x T psd fs ac b]; rfl
  simp only [Function.comp_def]
  rw [e1, e2]
  rcases argminRows_spec (xs.map fun x => readChi (init x T psd fs ac b)) nc o with
    ⟨h, h'⟩ | ⟨h, h'⟩ | ⟨f, h, h'⟩
  · left; rw [h]; exact ⟨rfl, h'⟩
  · right; left; rw [h]; exact ⟨rfl, h'⟩
  · right; right
    refine ⟨f, h', ?_⟩
    rw [h]
    simp only [List.map_map, Function.comp_def, diagAt_map, List.zip_map']

end Verif.OF.Fun
