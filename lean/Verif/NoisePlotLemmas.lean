import Verif.NoisePlotSpec
import Verif.NoiseLemmas

/-! Helper lemmas for the plots of `Noise` objects. -/

namespace Verif.NoisePlot
open Verif Noise Dft

variable {m c n : ℕ}

theorem underscored_under (s : String) : Underscored s (under s) := by
  unfold Underscored under
  rw [String.toList_ofList, List.forall₂_map_right_iff, List.forall₂_same]
  intro ch _
  by_cases h : ch = ' ' <;> simp [h]

theorem mem_drop_finRange {N : ℕ} {k : Fin N} : k ∈ (List.finRange N).drop 1 ↔ 1 ≤ (k : ℕ) := by
  cases N with
  | zero => exact k.elim0
  | succ N =>
    rw [List.finRange_succ]
    simp only [List.drop_succ_cons, List.drop_zero, List.mem_map, List.mem_finRange, true_and]
    constructor
    · rintro ⟨j, rfl⟩
      simp
    · intro h
      exact ⟨k.pred (by intro h0; rw [h0] at h; simp at h), by simp⟩

theorem mem_logPts {fs : ℝ} {y : Half n → ℝ} {p : ℝ × ℝ} :
    p ∈ logPts fs y ↔ ∃ k : Half n, 1 ≤ (k : ℕ) ∧ 0 < y k ∧ p = (rfftfreq fs k, y k) := by
  unfold logPts
  rw [List.mem_filterMap]
  constructor
  · rintro ⟨k, hk, h⟩
    split_ifs at h with h0
    exact ⟨k, mem_drop_finRange.1 hk, h0, (Option.some.inj h).symm⟩
  · rintro ⟨k, hk, h0, rfl⟩
    exact ⟨k, mem_drop_finRange.2 hk, by rw [if_pos h0]⟩

theorem mem_logPts_root {fs : ℝ} {y : Half n → ℝ} {p : ℝ × ℝ} :
    p ∈ logPts fs (root y) ↔ ∃ k : Half n, 1 ≤ (k : ℕ) ∧ 0 < y k ∧ p = ((k : ℕ) * fs / n, Real.sqrt (y k)) := by
  rw [mem_logPts]
  simp only [root, Real.sqrt_pos, rfftfreq]

theorem cell_inj {r i j : ℕ} (h : cell r i = cell r j) : i = j := by
  unfold cell at h
  split_ifs at h <;> simp only [Prod.mk.injEq] at h <;> omega

theorem cell_lt {c i : ℕ} (h : i < c) : (cell (rows c) i).1 < rows c ∧ (cell (rows c) i).2 < 2 := by
  unfold cell rows
  split_ifs <;> simp <;> omega

/-- The subplots, channel by channel. -/
theorem subplots_eq (s : Src m c n) (lines : Fin c → List Line) (hc : c ≠ 0) :
    subplots s lines = .ok ((List.finRange c).map fun (i : Fin c) =>
      ⟨cell (rows c) i, some (s.channames i), lines i⟩) := by
  unfold subplots
  rw [if_neg hc]
  congr 1
  obtain ⟨d, hd⟩ : ∃ d, rows c * 2 = c + d := ⟨rows c * 2 - c, by unfold rows; omega⟩
  rw [hd, List.range_add, List.filterMap_append]
  have h2 : ((List.range d).map fun x => c + x).filterMap (fun (ii : ℕ) => if h : ii < c then
      some (⟨cell (rows c) ii, some (s.channames ⟨ii, h⟩), lines ⟨ii, h⟩⟩ : Panel) else none) = [] := by
    rw [List.filterMap_eq_nil_iff]
    intro a ha
    obtain ⟨x, _, rfl⟩ := List.mem_map.1 ha
    rw [dif_neg (by omega)]
  rw [h2, List.append_nil, ← List.map_coe_finRange_eq_range, List.filterMap_map]
  rw [← List.filterMap_eq_map]
  apply List.filterMap_congr
  intro i _
  simp

/-- Two digits. -/
theorem select_digits {c : ℕ} {x y : Char} {rest : List Char} (hx : x.isDigit = true) (hy : y.isDigit = true)
    (h : x.toNat - 48 < c ∧ y.toNat - 48 < c) :
    select c [.str (x :: y :: rest)] = .ok (some [(⟨x.toNat - 48, h.1⟩, ⟨y.toNat - 48, h.2⟩)]) := by
  unfold select digit
  simp only [List.getElem?_cons_zero, List.getElem?_cons_succ, hx, hy, if_true, select]
  rw [dif_pos h]

theorem digit_lt {l : List Char} {i x : ℕ} (h : digit l i = .ok x) : x < 10 := by
  unfold digit at h
  split at h
  · cases h
  · rename_i ch _
    split_ifs at h with hd
    cases h
    have : ch.toNat ≤ 57 := by
      unfold Char.isDigit at hd
      simp only [ge_iff_le, Bool.and_eq_true, decide_eq_true_eq] at hd
      have h2 := hd.2
      have : ch.val.toNat ≤ (57 : UInt32).toNat := h2
      simpa using this
    omega

theorem select_asks {c : ℕ} {l : Label} {p : Fin c × Fin c} (h : Asks l p.1 p.2) (rest : List Label) :
    select c (l :: rest) = match select c rest with
      | .error e => .error e
      | .ok none => .ok none
      | .ok (some ps) => .ok (some (p :: ps)) := by
  obtain ⟨x, y, r, rfl, hx, hy, h1, h2⟩ := h
  have hlt : x.toNat - 48 < c ∧ y.toNat - 48 < c := ⟨h1 ▸ p.1.2, h2 ▸ p.2.2⟩
  conv_lhs => unfold select
  simp only [digit, List.getElem?_cons_zero, List.getElem?_cons_succ, hx, hy, if_true, dif_pos hlt]
  have : p = (⟨x.toNat - 48, hlt.1⟩, ⟨y.toNat - 48, hlt.2⟩) := Prod.ext (Fin.ext h1) (Fin.ext h2)
  rw [this]
  rcases select c rest with _ | _ | _ <;> rfl

theorem select_refused {c : ℕ} {l : Label} (h : Refused c l) (rest : List Label) :
    select c (l :: rest) = .ok none := by
  rcases h with rfl | ⟨i, j, ⟨x, y, r, rfl, hx, hy, rfl, rfl⟩, h⟩
  · rfl
  · unfold select
    simp only [digit, List.getElem?_cons_zero, List.getElem?_cons_succ, hx, hy, if_true]
    rw [dif_neg (by omega)]

theorem select_lt {c : ℕ} (l : List Label) {ps : List (Fin c × Fin c)} (h : select c l = .ok (some ps)) :
    ps.length = l.length ∧ ∀ p ∈ ps, (p.1 : ℕ) < 10 ∧ (p.2 : ℕ) < 10 := by
  induction l generalizing ps with
  | nil =>
    cases h
    exact ⟨rfl, fun p hp => by simp at hp⟩
  | cons a l ih =>
    cases a with
    | other => cases h
    | str cs =>
      unfold select at h
      split at h
      · cases h
      · rename_i x hx
        split at h
        · cases h
        · rename_i y hy
          split_ifs at h with hlt
          · split at h
            · cases h
            · cases h
            · rename_i ps' hps
              cases h
              obtain ⟨h1, h2⟩ := ih hps
              refine ⟨by simp [h1], fun p hp => ?_⟩
              rcases List.mem_cons.1 hp with rfl | hp
              · exact ⟨digit_lt hx, digit_lt hy⟩
              · exact h2 p hp
          · cases h

end Verif.NoisePlot
