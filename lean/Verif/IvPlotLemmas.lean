import Verif.IvPlot
import Verif.IvProps

/-! Lemmas on the IV plots. -/

namespace Verif.IvPlot
open Verif Iv

theorem pyMax_some (l : List (Option ℝ)) : ∀ c : ℝ, ∃ b, pyMax (some c) l = some b ∧ c ≤ b ∧
    (∀ x, some x ∈ l → x ≤ b) ∧ (b = c ∨ some b ∈ l) := by
  induction l with
  | nil => exact fun c => ⟨c, rfl, le_rfl, by simp, .inl rfl⟩
  | cons a l ih =>
    intro c
    match a with
    | none =>
      obtain ⟨b, h1, h2, h3, h4⟩ := ih c
      refine ⟨b, by rw [pyMax, h1], h2, fun x hx => h3 x (by simpa using hx), ?_⟩
      exact h4.imp id fun h => List.mem_cons_of_mem _ h
    | some a =>
      by_cases hc : c < a
      · obtain ⟨b, h1, h2, h3, h4⟩ := ih a
        refine ⟨b, by rw [pyMax, if_pos hc, h1], by linarith, fun x hx => ?_, ?_⟩
        · rcases List.mem_cons.1 hx with h | h
          · cases h
            exact h2
          · exact h3 x h
        · right
          rcases h4 with rfl | h
          · exact List.mem_cons_self
          · exact List.mem_cons_of_mem _ h
      · obtain ⟨b, h1, h2, h3, h4⟩ := ih c
        refine ⟨b, by rw [pyMax, if_neg hc, h1], h2, fun x hx => ?_, ?_⟩
        · rcases List.mem_cons.1 hx with h | h
          · cases h
            linarith
          · exact h3 x h
        · exact h4.imp id fun h => List.mem_cons_of_mem _ h

theorem farthest_spec (l : List ℝ) (hl : l ≠ []) :
    ∃ w, farthest l = some w ∧ w ∈ l ∧ ∀ v ∈ l, |v| ≤ |w| := by
  induction l with
  | nil => exact absurd rfl hl
  | cons a l ih =>
    by_cases h0 : l = []
    · subst h0
      exact ⟨a, rfl, by simp, by simp⟩
    · obtain ⟨w, h1, h2, h3⟩ := ih h0
      by_cases hw : |a| < |w|
      · refine ⟨w, by simp only [farthest, h1, if_pos hw], List.mem_cons_of_mem _ h2, fun v hv => ?_⟩
        rcases List.mem_cons.1 hv with rfl | h
        · exact hw.le
        · exact h3 v h
      · refine ⟨a, by simp only [farthest, h1, if_neg hw], List.mem_cons_self, fun v hv => ?_⟩
        rcases List.mem_cons.1 hv with rfl | h
        · exact le_rfl
        · exact (h3 v h).trans (not_lt.1 hw)

theorem mem_linspace {a b x : ℝ} (hab : a ≤ b) (h : x ∈ linspace a b) : a ≤ x ∧ x ≤ b := by
  obtain ⟨i, hi, rfl⟩ := List.mem_map.1 h
  have h9 : (i : ℝ) ≤ 9 := by
    have := List.mem_range.1 hi
    exact_mod_cast (by omega : i ≤ 9)
  have h0 : (0 : ℝ) ≤ i := Nat.cast_nonneg i
  constructor
  · have : 0 ≤ (i : ℝ) * ((b - a) / 9) := by
      apply mul_nonneg h0
      linarith
    linarith
  · have : (i : ℝ) * ((b - a) / 9) ≤ 9 * ((b - a) / 9) :=
      mul_le_mul_of_nonneg_right h9 (by linarith)
    linarith

theorem linspace_ends (a b : ℝ) : a ∈ linspace a b ∧ b ∈ linspace a b := by
  constructor
  · exact List.mem_map.2 ⟨0, by simp, by simp⟩
  · refine List.mem_map.2 ⟨9, by simp, ?_⟩
    push_cast
    ring

theorem mapM_ok {α β : Type} (f : α → Except Err β) (g : α → β) (l : List α)
    (h : ∀ a ∈ l, f a = .ok (g a)) : l.mapM f = .ok (l.map g) := by
  induction l with
  | nil => rfl
  | cons a l ih =>
    rw [List.mapM_cons, h a List.mem_cons_self, ih fun b hb => h b (List.mem_cons_of_mem _ hb)]
    rfl

theorem axis_nat {n k : ℕ} (h : k < n) : axis n (k : ℤ) = .ok k := by
  unfold axis
  rw [if_pos ⟨by omega, by omega⟩]
  simp

theorem loops_all {o : Obj} {body : ℤ → ℕ → ℕ → Except Err Curve} {f : ℕ → ℕ → Curve}
    (h : ∀ t < o.data.n0, ∀ c < o.data.n1, body t t c = .ok (f t c)) :
    loops o .all .all body = .ok (((List.range o.data.n0).map fun t =>
      (List.range o.data.n1).map fun c => f t c).flatten) := by
  unfold loops
  simp only [Sel.range]
  rw [mapM_ok _ (fun i : ℤ => (List.range o.data.n1).map fun c => f i.toNat c)]
  · simp [List.map_map, Function.comp_def]
  · intro i hi
    obtain ⟨t, ht, rfl⟩ := List.mem_map.1 hi
    rw [mapM_ok _ (fun j : ℤ => f t j.toNat)]
    · simp [List.map_map, Function.comp_def]
    · intro j hj
      obtain ⟨c, hc, rfl⟩ := List.mem_map.1 hj
      rw [axis_nat (List.mem_range.1 ht), axis_nat (List.mem_range.1 hc)]
      simpa using h t (List.mem_range.1 ht) c (List.mem_range.1 hc)

/-- The element of a flattened rectangular table. -/
theorem flatten_getElem {α : Type} (f : ℕ → ℕ → α) (a b t c : ℕ) (ht : t < a) (hc : c < b) :
    (((List.range a).map fun t => (List.range b).map fun c => f t c).flatten)[t * b + c]? = some (f t c) := by
  induction a generalizing t with
  | zero => omega
  | succ a ih =>
    rw [List.range_succ, List.map_append, List.flatten_append]
    have hlen : (((List.range a).map fun t => (List.range b).map fun c => f t c).flatten).length = a * b := by
      rw [List.length_flatten]
      simp [List.map_map, Function.comp_def, List.map_const']
    by_cases h : t < a
    · rw [List.getElem?_append_left (by rw [hlen]; nlinarith)]
      exact ih t h
    · obtain rfl : t = a := by omega
      rw [List.getElem?_append_right (by rw [hlen]; omega), hlen]
      simp [hc]

theorem mem_marks {n : ℕ} {s : ℝ} {vb y err : ℕ → Option ℝ} {mk : Mark} :
    mk ∈ marks n s vb y err ↔ ∃ i < n, ∃ v w, vb i = some v ∧ y i = some w ∧
      mk = ⟨v * 10 ^ 6, w * s, (err i).map (· * s)⟩ := by
  unfold marks
  rw [List.mem_filterMap]
  constructor
  · rintro ⟨i, hi, h⟩
    refine ⟨i, List.mem_range.1 hi, ?_⟩
    cases hv : vb i with
    | none => simp [hv] at h
    | some v =>
      cases hy : y i with
      | none => simp [hv, hy] at h
      | some w =>
        simp only [hv, hy, Option.some.injEq] at h
        exact ⟨v, w, rfl, rfl, h.symm⟩
  · rintro ⟨i, hi, v, w, hv, hy, rfl⟩
    exact ⟨i, List.mem_range.2 hi, by simp only [hv, hy]⟩

theorem axis_ok {n k : ℕ} {i : ℤ} (hk : k < n) (hi : i = k ∨ i = (k : ℤ) - n) : axis n i = .ok k := by
  unfold axis
  rcases hi with rfl | rfl
  · rw [if_pos ⟨by omega, by omega⟩]
    simp
  · rw [if_neg (by omega), if_pos ⟨by omega, by omega⟩]
    congr 1
    omega

theorem axis_bad {n : ℕ} {i : ℤ} (hi : i < -(n : ℤ) ∨ (n : ℤ) ≤ i) : axis n i = .error .indexError := by
  unfold axis
  rw [if_neg (by omega), if_neg (by omega)]

theorem loops_one {o : Obj} {i j : ℤ} {t c : ℕ} {body : ℤ → ℕ → ℕ → Except Err Curve} {cv : Curve}
    (h0 : axis o.data.n0 i = .ok t) (h1 : axis o.data.n1 j = .ok c) (hb : body i t c = .ok cv) :
    loops o (.one i) (.one j) body = .ok [cv] := by
  unfold loops Sel.range
  simp only [List.mapM_cons, List.mapM_nil, h0, h1, hb]
  rfl

theorem loops_bad {o : Obj} {i j : ℤ} {body : ℤ → ℕ → ℕ → Except Err Curve}
    (h : axis o.data.n0 i = .error .indexError ∨ axis o.data.n1 j = .error .indexError) :
    loops o (.one i) (.one j) body = .error .indexError := by
  unfold loops Sel.range
  simp only [List.mapM_cons, List.mapM_nil]
  rcases h with h | h
  · rw [h]
    rfl
  · rw [h]
    cases axis o.data.n0 i <;> rfl

theorem mapM_error {α β : Type} (f : α → Except Err β) (hf : ∀ a b, f a ≠ .ok b) (l : List α) {ll : List β}
    (h : l.mapM f = .ok ll) : ll = [] := by
  cases l with
  | nil => cases h; rfl
  | cons a l =>
    rw [List.mapM_cons] at h
    cases e : f a with
    | error x => rw [e] at h; cases h
    | ok b => exact absurd e (hf a b)

theorem mapM_nils {α β : Type} (f : α → Except Err (List β)) (hf : ∀ a b, f a = .ok b → b = []) (l : List α)
    {ll : List (List β)} (h : l.mapM f = .ok ll) : ll.flatten = [] := by
  induction l generalizing ll with
  | nil => cases h; rfl
  | cons a l ih =>
    rw [List.mapM_cons] at h
    cases e : f a with
    | error x => rw [e] at h; cases h
    | ok b =>
      rw [e] at h
      cases e2 : l.mapM f with
      | error x => rw [e2] at h; cases h
      | ok l2 =>
        rw [e2] at h
        cases h
        rw [List.flatten_cons, hf a b e, ih e2]
        rfl

/-- If no curve can be drawn, an empty selection is all that is accepted. -/
theorem loops_error {o : Obj} {temps chans : Sel} {body : ℤ → ℕ → ℕ → Except Err Curve}
    (hb : ∀ i t c cv, body i t c ≠ .ok cv) {cs : List Curve} (h : loops o temps chans body = .ok cs) :
    cs = [] := by
  unfold loops at h
  split at h
  · cases h
  · rename_i ll hll
    cases h
    refine mapM_nils _ (fun i l hl => mapM_error _ (fun j cv hcv => ?_) _ hl) _ hll
    split at hcv
    · exact hb _ _ _ _ hcv
    · cases hcv

theorem calcIv_ites {o : Obj} {res : Result} (h : calcIv o = .ok res) {t c i : ℕ} {rd : Reading}
    (hd : o.data.get t c i = some rd) : res.ites t c i = some (rd.dites - res.ioff t c) := by
  unfold calcIv at h
  cases hf : o.fits with
  | error e => rw [hf] at h; cases h
  | ok fits =>
    rw [hf] at h
    simp only at h
    cases hrl : o.rload with
    | none => rw [hrl] at h; cases h
    | some rl =>
      rw [hrl] at h
      simp only at h
      split_ifs at h
      cases h
      simp only [hd, Option.map_some]

end Verif.IvPlot
