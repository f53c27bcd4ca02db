import Verif.NoiseSave

/-! C107: saving noise objects. -/

namespace Verif.NoiseSave
open Verif

/-- Saving writes one file, named after the object, in the directory given (with or without the final
slash); every other file is left alone. -/
theorem save_writes {α : Type} (fs : Files α) (name : List Char) (obj : α) {d : List Char}
    (hd : d ≠ []) (hs : d.getLast? ≠ some '/') :
    ∃ fs' f, save fs (some name) obj d = .ok fs' ∧ save fs (some name) obj (d ++ ['/']) = .ok fs' ∧
      d ++ ['/'] <+: f ∧ ['.', 'p', 'k', 'l'] <:+ f ∧ f.length = d.length + name.length + 5 ∧
      fs' f = some obj ∧ ∀ g, g ≠ f → fs' g = fs g := by
  obtain ⟨c, hc⟩ : ∃ c, d.getLast? = some c := by
    cases h : d.getLast? with
    | none => exact absurd (List.getLast?_eq_none_iff.1 h) hd
    | some c => exact ⟨c, rfl⟩
  have hc' : c ≠ '/' := fun h => hs (by rw [hc, h])
  have h1 : directory d = .ok (d ++ ['/']) := by
    simp [directory, hc, hc']
  have h2 : directory (d ++ ['/']) = .ok (d ++ ['/']) := by
    simp [directory]
  refine ⟨fun f => if f = (d ++ ['/']) ++ fileName name then some obj else fs f,
    (d ++ ['/']) ++ fileName name, by simp only [save, h1], by simp only [save, h2], ?_, ?_, ?_, ?_, ?_⟩
  · exact List.prefix_append _ _
  · unfold fileName
    rw [← List.append_assoc]
    exact List.suffix_append _ _
  · simp [fileName]
    omega
  · simp
  · intro g hg
    exact if_neg hg

example : ['a'] ≠ [] ∧ ['a'].getLast? ≠ some '/' := by simp

/-- Partial form of the second half of C107: objects whose names contain no spaces do not overwrite each
other in one directory.  Missing: names with spaces. -/
theorem save_distinct_partial {α : Type} {fs fs' fs'' : Files α} {n m : List Char} {a b : α} {d : List Char}
    (hn : ' ' ∉ n) (hm : ' ' ∉ m) (hne : n ≠ m) (h1 : save fs (some n) a d = .ok fs')
    (h2 : save fs' (some m) b d = .ok fs'') :
    ∃ f g, fs'' f = some a ∧ fs'' g = some b ∧ f ≠ g := by
  unfold save at h1 h2
  cases hd : directory d with
  | error e => rw [hd] at h1; cases h1
  | ok dir =>
    rw [hd] at h1 h2
    simp only [Except.ok.injEq] at h1 h2
    have hid : ∀ l : List Char, ' ' ∉ l → (l.map fun c => if c = ' ' then '_' else c) = l := by
      intro l hl
      conv_rhs => rw [← List.map_id l]
      refine List.map_congr_left fun c hc => ?_
      rw [if_neg fun h : c = ' ' => hl (h ▸ hc)]
      rfl
    have hfg : dir ++ fileName n ≠ dir ++ fileName m := by
      intro h
      have := List.append_cancel_left h
      unfold fileName at this
      rw [hid n hn, hid m hm] at this
      exact hne (List.append_cancel_right this)
    refine ⟨dir ++ fileName n, dir ++ fileName m, ?_, ?_, hfg⟩
    · rw [← h2, ← h1]
      simp [hfg]
    · rw [← h2]
      simp

example : ∃ fs' fs'' : Files ℕ, save (fun _ => none) (some ['a']) 1 ['d'] = .ok fs' ∧
    save fs' (some ['b']) 2 ['d'] = .ok fs'' := ⟨_, _, rfl, rfl⟩

/-- Full C107 is false: two names which differ by a space for an underscore share a file, and saving the
second object destroys the first. -/
theorem save_distinct_violated {α : Type} {fs fs' fs'' : Files α} {p q : List Char} {a b : α} {d : List Char}
    (h1 : save fs (some (p ++ ' ' :: q)) a d = .ok fs') (h2 : save fs' (some (p ++ '_' :: q)) b d = .ok fs'')
    (hfs : ∀ f, fs f ≠ some a) (hab : a ≠ b) : p ++ ' ' :: q ≠ p ++ '_' :: q ∧ ∀ f, fs'' f ≠ some a := by
  refine ⟨fun h => by simpa using List.append_cancel_left h, fun f hf => ?_⟩
  unfold save at h1 h2
  cases hd : directory d with
  | error e => rw [hd] at h1; cases h1
  | ok dir =>
    rw [hd] at h1 h2
    simp only [Except.ok.injEq] at h1 h2
    have e : fileName (p ++ ' ' :: q) = fileName (p ++ '_' :: q) := by
      simp [fileName]
    rw [e] at h1
    rw [← h2] at hf
    simp only at hf
    split_ifs at hf with h
    · exact hab (Option.some.inj hf).symm
    · rw [← h1] at hf
      simp only [if_neg h] at hf
      exact hfs f hf

example : ∃ fs' fs'' : Files ℕ, save (fun _ => none) (some (['a'] ++ ' ' :: ['b'])) 1 ['d'] = .ok fs' ∧
    save fs' (some (['a'] ++ '_' :: ['b'])) 2 ['d'] = .ok fs'' := ⟨_, _, rfl, rfl⟩

/-- Full C107 is false for objects constructed without a name, the default: they cannot be saved.  Nor can
anything be saved in the current directory by giving an empty path. -/
theorem save_default_violated {α : Type} (fs fs' : Files α) (obj : α) (path : List Char)
    (name : Option (List Char)) :
    save fs none obj path ≠ .ok fs' ∧ save fs name obj [] = .error .indexError := by
  refine ⟨fun h => ?_, rfl⟩
  unfold save at h
  cases hd : directory path <;> rw [hd] at h <;> cases h

end Verif.NoiseSave
