import Verif.IbisPlot
import Verif.IbisProps
import Verif.IvPlotProps

/-! Lemmas on the IBIS plots. -/

namespace Verif.IbisPlot
open Verif Ibis
open Verif.Iv (A3 ValErr)
open Verif.IvPlot (Sel axis fitLine vbfit mapM_ok axis_nat mapM_error mapM_nils)

theorem loops_all {n0 n1 : ℕ} {body : ℤ → ℕ → ℕ → Except Err Curve} {f : ℕ → ℕ → Curve}
    (h : ∀ t < n0, ∀ c < n1, body t t c = .ok (f t c)) :
    loops n0 n1 .all .all body = .ok (((List.range n0).map fun t =>
      (List.range n1).map fun c => f t c).flatten) := by
  unfold loops
  simp only [Sel.range]
  rw [mapM_ok _ (fun i : ℤ => (List.range n1).map fun c => f i.toNat c)]
  · simp [List.map_map, Function.comp_def]
  · intro i hi
    obtain ⟨t, ht, rfl⟩ := List.mem_map.1 hi
    rw [mapM_ok _ (fun j : ℤ => f t j.toNat)]
    · simp [List.map_map, Function.comp_def]
    · intro j hj
      obtain ⟨c, hc, rfl⟩ := List.mem_map.1 hj
      rw [axis_nat (List.mem_range.1 ht), axis_nat (List.mem_range.1 hc)]
      simpa using h t (List.mem_range.1 ht) c (List.mem_range.1 hc)

theorem mem_marks {n : ℕ} {s : ℝ} {vb y : ℕ → Option ValErr} {mk : Mark} :
    mk ∈ marks n s vb y ↔ ∃ i < n, ∃ v w, vb i = some v ∧ y i = some w ∧
      mk = ⟨v.val * 10 ^ 6, w.val * s, v.err * 10 ^ 6, w.err * s⟩ := by
  unfold marks
  rw [List.mem_filterMap]
  constructor
  · rintro ⟨i, hi, h⟩
    refine ⟨i, List.mem_range.1 hi, ?_⟩
    cases hv : vb i with
    | none => simp [hv] at h
    | some v =>
      cases hy : y i with
      | none => simp [hv, hy] at h
      | some w =>
        simp only [hv, hy, Option.some.injEq] at h
        exact ⟨v, w, rfl, rfl, h.symm⟩
  · rintro ⟨i, hi, v, w, hv, hy, rfl⟩
    exact ⟨i, List.mem_range.2 hi, by simp only [hv, hy]⟩

theorem loops_one {n0 n1 : ℕ} {i j : ℤ} {t c : ℕ} {body : ℤ → ℕ → ℕ → Except Err Curve} {cv : Curve}
    (h0 : axis n0 i = .ok t) (h1 : axis n1 j = .ok c) (hb : body i t c = .ok cv) :
    loops n0 n1 (.one i) (.one j) body = .ok [cv] := by
  unfold loops Sel.range
  simp only [List.mapM_cons, List.mapM_nil, h0, h1, hb]
  rfl

theorem loops_one_error {n0 n1 : ℕ} {i j : ℤ} {t c : ℕ} {body : ℤ → ℕ → ℕ → Except Err Curve} {e : Err}
    (h0 : axis n0 i = .ok t) (h1 : axis n1 j = .ok c) (hb : body i t c = .error e) :
    loops n0 n1 (.one i) (.one j) body = .error e := by
  unfold loops Sel.range
  simp only [List.mapM_cons, List.mapM_nil, h0, h1, hb]
  rfl

theorem loops_all_error {n0 n1 : ℕ} {body : ℤ → ℕ → ℕ → Except Err Curve} {e : Err}
    (h0 : 0 < n0) (h1 : 0 < n1) (hb : ∀ i t c, body i t c = .error e) :
    loops n0 n1 .all .all body = .error e := by
  obtain ⟨a, rfl⟩ : ∃ a, n0 = a + 1 := ⟨n0 - 1, by omega⟩
  obtain ⟨b, rfl⟩ : ∃ b, n1 = b + 1 := ⟨n1 - 1, by omega⟩
  unfold loops Sel.range
  simp only [List.range_succ_eq_map, List.map_cons, List.mapM_cons]
  have e0 : axis (a + 1) ((0 : ℕ) : ℤ) = .ok 0 := axis_nat (by omega)
  have e1 : axis (b + 1) ((0 : ℕ) : ℤ) = .ok 0 := axis_nat (by omega)
  rw [e0, e1]
  simp only [hb]
  rfl

theorem loops_bad {n0 n1 : ℕ} {i j : ℤ} {body : ℤ → ℕ → ℕ → Except Err Curve}
    (h : axis n0 i = .error .indexError ∨ axis n1 j = .error .indexError) :
    loops n0 n1 (.one i) (.one j) body = .error .indexError := by
  unfold loops Sel.range
  simp only [List.mapM_cons, List.mapM_nil]
  rcases h with h | h
  · rw [h]
    rfl
  · rw [h]
    cases axis n0 i <;> rfl

theorem loops_error {n0 n1 : ℕ} {temps chans : Sel} {body : ℤ → ℕ → ℕ → Except Err Curve}
    (hb : ∀ i t c cv, body i t c ≠ .ok cv) {cs : List Curve} (h : loops n0 n1 temps chans body = .ok cs) :
    cs = [] := by
  unfold loops at h
  split at h
  · cases h
  · rename_i ll hll
    cases h
    refine mapM_nils _ (fun i l hl => mapM_error _ (fun j cv hcv => ?_) _ hl) _ hll
    split at hcv
    · exact hb _ _ _ _ hcv
    · cases hcv

theorem fitLine_ne {vb : List (Option ℝ)} (h : vb ≠ []) (rfit : ℝ) : ∃ l, fitLine vb rfit = .ok l := by
  obtain ⟨v, l, e⟩ := List.exists_cons_of_ne_nil h
  unfold fitLine
  rw [e]
  unfold vbfit
  simp only
  split_ifs
  · cases IvPlot.pyMax v l with
    | none => exact ⟨_, rfl⟩
    | some b => exact ⟨_, rfl⟩
  · cases IvPlot.pyMax (v.map (-·)) (l.map (Option.map (-·))) with
    | none => exact ⟨_, rfl⟩
    | some b => exact ⟨_, rfl⟩

theorem mem_fitLine {vb : List (Option ℝ)} {rfit : ℝ} (hr : rfit ≠ 0) {l : List (ℝ × ℝ)}
    (hl : fitLine vb rfit = .ok l) : ∀ p ∈ l, p.2 * rfit = p.1 := by
  intro p hp
  unfold fitLine at hl
  cases hv : vbfit vb with
  | error e => rw [hv] at hl; cases hl
  | ok xs =>
    rw [hv] at hl
    cases hl
    obtain ⟨x, _, rfl⟩ := List.mem_map.1 hp
    field_simp

end Verif.IbisPlot
