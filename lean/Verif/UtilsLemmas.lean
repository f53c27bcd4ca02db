import Verif.Utils
import Mathlib.Tactic.Linarith
import Mathlib.Tactic.Ring
import Mathlib.Tactic.NormNum
import Mathlib.Tactic.FieldSimp
import Mathlib.Tactic.Positivity
import Mathlib.Algebra.Order.BigOperators.Ring.Finset
/-! Helper lemmas for `UtilsProps.lean`. -/

namespace Verif.Utils
open Verif

theorem clipIdx_le (n : ℕ) (i : ℤ) : Np.clipIdx n i ≤ n := by
  unfold Np.clipIdx; split <;> omega

theorem shiftInt_length {α} (arr : List α) (num : ℤ) (fill : α) :
    (shiftInt arr num fill).length = arr.length := by
  unfold shiftInt Np.sliceTo Np.sliceFrom Np.clipIdx
  simp only []
  split_ifs <;> simp <;> omega

theorem shiftInt_getElem? {α} (arr : List α) (num : ℤ) (fill : α) (i : ℕ) (hi : i < arr.length) :
    (shiftInt arr num fill)[i]? =
      if 0 ≤ (i : ℤ) - num ∧ (i : ℤ) - num < arr.length then arr[((i : ℤ) - num).toNat]?
      else some fill := by
  unfold shiftInt Np.sliceTo Np.sliceFrom Np.clipIdx
  simp only []
  split_ifs <;> (try simp [List.getElem?_append, List.getElem?_take, List.getElem?_drop, List.getElem?_replicate]) <;> (try split_ifs) <;> (try omega) <;> (try rfl) <;> (try congr 1; omega)

/-- points ordered: abscissae increase, ordinates decrease -/
def DecPts (l : List (ℝ × ℝ)) : Prop := l.Pairwise fun a b => a.1 < b.1 ∧ b.2 < a.2

theorem line_lt {p q : ℝ × ℝ} (h : p.1 < q.1) (h2 : q.2 < p.2) {x x' : ℝ} (hx : x < x') :
    Np.line p q x' < Np.line p q x := by
  unfold Np.line
  have hs : (q.2 - p.2) / (q.1 - p.1) < 0 := div_neg_of_neg_of_pos (by linarith) (by linarith)
  nlinarith

theorem line_left (p q : ℝ × ℝ) : Np.line p q p.1 = p.2 := by simp [Np.line]

theorem line_right {p q : ℝ × ℝ} (h : p.1 < q.1) : Np.line p q q.1 = q.2 := by
  unfold Np.line
  have : q.1 - p.1 ≠ 0 := by linarith
  field_simp; ring

theorem interpExtrap_isSome : ∀ (l : List (ℝ × ℝ)), 2 ≤ l.length → ∀ x, ∃ v, Np.interpExtrap l x = some v
  | [], h, _ => by simp at h
  | [_], h, _ => by simp at h
  | [p, q], _, x => ⟨_, by simp [Np.interpExtrap]; rfl⟩
  | p :: q :: r :: rest, _, x => by
      simp only [Np.interpExtrap]
      split
      · exact ⟨_, rfl⟩
      · exact interpExtrap_isSome (q :: r :: rest) (by simp) x

theorem interpExtrap_first : ∀ (l : List (ℝ × ℝ)) (p q : ℝ × ℝ), DecPts (p :: q :: l) → ∀ x, x ≤ q.1 →
    Np.interpExtrap (p :: q :: l) x = some (Np.line p q x)
  | [], p, q, _, x, _ => by simp [Np.interpExtrap]
  | r :: rest, p, q, _, x, hx => by simp [Np.interpExtrap, hx]

theorem interpExtrap_anti : ∀ (l : List (ℝ × ℝ)), DecPts l → ∀ x x' v v', x < x' →
    Np.interpExtrap l x = some v → Np.interpExtrap l x' = some v' → v' < v
  | [], _, _, _, _, _, _, h, _ => by simp [Np.interpExtrap] at h
  | [_], _, _, _, _, _, _, h, _ => by simp [Np.interpExtrap] at h
  | [p, q], hd, x, x', v, v', hx, h, h' => by
      simp only [Np.interpExtrap, Option.some.injEq] at h h'
      subst h; subst h'
      have := hd
      simp [DecPts] at this
      exact line_lt this.1 this.2 hx
  | p :: q :: r :: rest, hd, x, x', v, v', hx, h, h' => by
      have hd' : DecPts (q :: r :: rest) := (List.pairwise_cons.1 hd).2
      have hpq := (List.pairwise_cons.1 hd).1 q (by simp)
      simp only [Np.interpExtrap] at h h'
      split at h <;> split at h'
      · simp only [Option.some.injEq] at h h'
        subst h; subst h'
        exact line_lt hpq.1 hpq.2 hx
      · rename_i h1 h2
        simp only [Option.some.injEq] at h
        subst h
        have hq : Np.interpExtrap (q :: r :: rest) q.1 = some q.2 := by
          rw [interpExtrap_first _ _ _ hd' _ ((List.pairwise_cons.1 hd').1 r (by simp)).1.le, line_left]
        have := interpExtrap_anti _ hd' q.1 x' q.2 v' (by linarith) hq h'
        have h3 : q.2 ≤ Np.line p q x := by
          rw [← line_right hpq.1]
          rcases h1.lt_or_eq with h1 | h1
          · exact (line_lt hpq.1 hpq.2 h1).le
          · rw [h1]
        linarith
      · linarith
      · exact interpExtrap_anti _ hd' x x' v v' hx h h'

theorem interpExtrap_mem : ∀ (l : List (ℝ × ℝ)), DecPts l → 2 ≤ l.length → ∀ p ∈ l,
    Np.interpExtrap l p.1 = some p.2
  | [], _, h, _, _ => by simp at h
  | [_], _, h, _, _ => by simp at h
  | [p, q], hd, _, a, ha => by
      have := hd
      simp [DecPts] at this
      simp only [List.mem_cons, List.not_mem_nil, or_false] at ha
      rcases ha with rfl | rfl
      · simp [Np.interpExtrap, line_left]
      · simp [Np.interpExtrap, line_right this.1]
  | p :: q :: r :: rest, hd, _, a, ha => by
      have hd' : DecPts (q :: r :: rest) := (List.pairwise_cons.1 hd).2
      have hpq := (List.pairwise_cons.1 hd).1 q (by simp)
      rcases List.mem_cons.1 ha with rfl | ha'
      · rw [interpExtrap_first _ _ _ hd _ hpq.1.le, line_left]
      · by_cases hq : a.1 ≤ q.1
        · rcases List.mem_cons.1 ha' with rfl | h3
          · rw [interpExtrap_first _ _ _ hd _ le_rfl, line_right hpq.1]
          · have := (List.pairwise_cons.1 hd').1 a h3
            linarith [this.1]
        · simp only [Np.interpExtrap, hq, if_false]
          exact interpExtrap_mem _ hd' (by simp) a ha'


/-- abscissae increase -/
def IncX (l : List (ℝ × ℝ)) : Prop := l.Pairwise fun a b => a.1 < b.1

theorem keepDec_mem : ∀ (l : List (ℝ × ℝ)) (last : ℝ) (p : ℝ × ℝ), p ∈ keepDec last l → p ∈ l ∧ p.2 < last
  | [], _, _, h => by simp [keepDec] at h
  | a :: rest, last, p, h => by
      unfold keepDec at h
      split at h
      · split at h
        · rcases List.mem_cons.1 h with rfl | h
          · exact ⟨by simp, by assumption⟩
          · have := keepDec_mem rest _ p h
            exact ⟨by simp [this.1], by linarith [this.2]⟩
        · have := keepDec_mem rest _ p h
          exact ⟨by simp [this.1], by linarith [this.2]⟩
      · have := keepDec_mem rest _ p h
        exact ⟨by simp [this.1], this.2⟩

theorem keepDec_decPts : ∀ (l : List (ℝ × ℝ)) (last : ℝ), IncX l → DecPts (keepDec last l)
  | [], _, _ => by simp [keepDec, DecPts]
  | a :: rest, last, h => by
      have h1 := (List.pairwise_cons.1 h).1
      have h2 : IncX rest := (List.pairwise_cons.1 h).2
      unfold keepDec
      split
      · split
        · refine List.pairwise_cons.2 ⟨fun b hb => ?_, keepDec_decPts rest _ h2⟩
          have := keepDec_mem _ _ _ hb
          exact ⟨h1 b this.1, this.2⟩
        · exact keepDec_decPts rest _ h2
      · exact keepDec_decPts rest _ h2

theorem kept_decPts (l : List (ℝ × ℝ)) (h : IncX l) : DecPts (kept l) := by
  cases l with
  | nil => simp [kept, DecPts]
  | cons a rest =>
      have h1 := (List.pairwise_cons.1 h).1
      have h2 : IncX rest := (List.pairwise_cons.1 h).2
      simp only [kept]
      split
      · refine List.pairwise_cons.2 ⟨fun b hb => ?_, keepDec_decPts rest _ h2⟩
        have := keepDec_mem _ _ _ hb
        exact ⟨h1 b this.1, this.2⟩
      · exact keepDec_decPts rest _ h2

theorem keepDec_runmin : ∀ (l1 : List (ℝ × ℝ)) (l2) (last : ℝ) (p : ℝ × ℝ), p.2 < last →
    (∀ q ∈ l1, p.2 < q.2) → p.2 ≠ 0 → p ∈ keepDec last (l1 ++ p :: l2)
  | [], l2, last, p, h, _, h0 => by
      simp [keepDec, h, h0]
  | a :: l1, l2, last, p, h, hq, h0 => by
      have hq' : ∀ q ∈ l1, p.2 < q.2 := fun q hq2 => hq q (by simp [hq2])
      have ha := hq a (by simp)
      simp only [List.cons_append, keepDec]
      split
      · split
        · exact List.mem_cons_of_mem _ (keepDec_runmin l1 l2 _ p ha hq' h0)
        · exact keepDec_runmin l1 l2 _ p ha hq' h0
      · exact keepDec_runmin l1 l2 _ p h hq' h0

theorem kept_runmin (l1 l2 : List (ℝ × ℝ)) (p : ℝ × ℝ)
    (hq : ∀ q ∈ l1, p.2 < q.2) (h0 : p.2 ≠ 0) : p ∈ kept (l1 ++ p :: l2) := by
  cases l1 with
  | nil => simp [kept, h0]
  | cons a l1 =>
      have hq' : ∀ q ∈ l1, p.2 < q.2 := fun q hq2 => hq q (by simp [hq2])
      have ha := hq a (by simp)
      simp only [List.cons_append, kept]
      split
      · exact List.mem_cons_of_mem _ (keepDec_runmin l1 l2 _ p ha hq' h0)
      · exact keepDec_runmin l1 l2 _ p ha hq' h0

/-- every point lies above (and not to the left of) some kept point, or above the current bound -/
theorem keepDec_below : ∀ (l : List (ℝ × ℝ)) (last : ℝ), IncX l → (∀ p ∈ l, p.2 ≠ 0) →
    ∀ p ∈ l, (last ≤ p.2) ∨ ∃ k ∈ keepDec last l, k.1 ≤ p.1 ∧ k.2 ≤ p.2
  | [], _, _, _, p, hp => by simp at hp
  | a :: rest, last, hx, h0, p, hp => by
      have h1 := (List.pairwise_cons.1 hx).1
      have h2 : IncX rest := (List.pairwise_cons.1 hx).2
      have h0' : ∀ p ∈ rest, p.2 ≠ 0 := fun q hq => h0 q (by simp [hq])
      have ha := h0 a (by simp)
      simp only [keepDec, ha, ne_eq, not_false_eq_true, if_true]
      split
      · right
        rcases List.mem_cons.1 hp with rfl | hp
        · exact ⟨p, by simp, le_rfl, le_rfl⟩
        · rcases keepDec_below rest a.2 h2 h0' p hp with h | ⟨k, hk, h⟩
          · exact ⟨a, by simp, (h1 p hp).le, h⟩
          · exact ⟨k, by simp [hk], h⟩
      · rcases List.mem_cons.1 hp with rfl | hp
        · left; linarith
        · exact keepDec_below rest last h2 h0' p hp

theorem kept_below (l : List (ℝ × ℝ)) (hx : IncX l) (h0 : ∀ p ∈ l, p.2 ≠ 0) :
    ∀ p ∈ l, ∃ k ∈ kept l, k.1 ≤ p.1 ∧ k.2 ≤ p.2 := by
  cases l with
  | nil => simp
  | cons a rest =>
      intro p hp
      have h1 := (List.pairwise_cons.1 hx).1
      have h2 : IncX rest := (List.pairwise_cons.1 hx).2
      have h0' : ∀ p ∈ rest, p.2 ≠ 0 := fun q hq => h0 q (by simp [hq])
      have ha := h0 a (by simp)
      simp only [kept, ha, ne_eq, not_false_eq_true, if_true]
      rcases List.mem_cons.1 hp with rfl | hp
      · exact ⟨p, by simp, le_rfl, le_rfl⟩
      · rcases keepDec_below rest a.2 h2 h0' p hp with h | ⟨k, hk, h⟩
        · exact ⟨a, by simp, (h1 p hp).le, h⟩
        · exact ⟨k, by simp [hk], h⟩

theorem interp_between : ∀ (l : List (ℝ × ℝ)), IncX l → ∀ x v lo hi, Np.interp l x = some v →
    (∀ p ∈ l, lo ≤ p.2 ∧ p.2 ≤ hi) → lo ≤ v ∧ v ≤ hi
  | [], _, _, _, _, _, h, _ => by simp [Np.interp] at h
  | [p], _, x, v, lo, hi, h, hb => by
      simp [Np.interp] at h; subst h; exact hb p (by simp)
  | p :: q :: rest, hx, x, v, lo, hi, h, hb => by
      have hx' : IncX (q :: rest) := (List.pairwise_cons.1 hx).2
      have hpq := (List.pairwise_cons.1 hx).1 q (by simp)
      have hp := hb p (by simp)
      have hq := hb q (by simp)
      simp only [Np.interp] at h
      split at h
      · simp at h; subst h; exact hp
      · split at h
        · simp only [Option.some.injEq] at h
          subst h
          rename_i h1 h2
          have hw : Np.line p q x = (1 - (x - p.1) / (q.1 - p.1)) * p.2 + (x - p.1) / (q.1 - p.1) * q.2 := by
            unfold Np.line; ring
          rw [hw]
          have w0 : 0 ≤ (x - p.1) / (q.1 - p.1) := div_nonneg (by linarith) (by linarith)
          have w1 : (x - p.1) / (q.1 - p.1) ≤ 1 := (div_le_one (by linarith)).2 (by linarith)
          generalize (x - p.1) / (q.1 - p.1) = w at *
          constructor <;> nlinarith
        · exact interp_between _ hx' x v lo hi h (fun r hr => hb r (by simp [hr]))

theorem interp_isSome : ∀ (l : List (ℝ × ℝ)), l ≠ [] → ∀ x, ∃ v, Np.interp l x = some v
  | [], h, _ => by simp at h
  | [p], _, x => ⟨p.2, by simp [Np.interp]⟩
  | p :: q :: rest, _, x => by
      simp only [Np.interp]
      split
      · exact ⟨_, rfl⟩
      · split
        · exact ⟨_, rfl⟩
        · exact interp_isSome (q :: rest) (by simp) x

/-- between two consecutive table points the interpolant is the connecting line -/
theorem interp_segment : ∀ (l1 : List (ℝ × ℝ)) (p q : ℝ × ℝ) (l2), IncX (l1 ++ p :: q :: l2) →
    ∀ x, p.1 < x → x ≤ q.1 → Np.interp (l1 ++ p :: q :: l2) x = some (Np.line p q x)
  | [], p, q, l2, hx, x, h1, h2 => by simp [Np.interp, not_le.2 h1, h2]
  | [a], p, q, l2, hx, x, h1, h2 => by
      have := (List.pairwise_cons.1 hx).1 p (by simp)
      have hx' : IncX ([] ++ p :: q :: l2) := (List.pairwise_cons.1 hx).2
      have h := interp_segment [] p q l2 hx' x h1 h2
      simp only [List.nil_append, List.cons_append] at *
      rw [Np.interp, if_neg (by linarith), if_neg (by linarith)]; exact h
  | a :: b :: l1, p, q, l2, hx, x, h1, h2 => by
      have hap := (List.pairwise_cons.1 hx).1 p (by simp)
      have hx' : IncX ((b :: l1) ++ p :: q :: l2) := (List.pairwise_cons.1 hx).2
      have hbp := (List.pairwise_cons.1 hx').1 p (by simp)
      have h := interp_segment (b :: l1) p q l2 hx' x h1 h2
      simp only [List.cons_append] at *
      rw [Np.interp, if_neg (by linarith), if_neg (by linarith)]; exact h

theorem interp_left (p : ℝ × ℝ) (l) (x : ℝ) (h : x ≤ p.1) : Np.interp (p :: l) x = some p.2 := by
  cases l with
  | nil => simp [Np.interp]
  | cons q l => simp [Np.interp, h]

theorem interp_right : ∀ (l : List (ℝ × ℝ)) (p : ℝ × ℝ), IncX (l ++ [p]) → ∀ x, p.1 < x →
    Np.interp (l ++ [p]) x = some p.2
  | [], p, _, x, _ => by simp [Np.interp]
  | [a], p, hx, x, h => by
      have := (List.pairwise_cons.1 hx).1 p (by simp)
      simp only [List.cons_append, List.nil_append]
      rw [Np.interp, if_neg (by linarith), if_neg (by linarith)]; simp [Np.interp]
  | a :: b :: l, p, hx, x, h => by
      have hap := (List.pairwise_cons.1 hx).1 p (by simp)
      have hx' : IncX ((b :: l) ++ [p]) := (List.pairwise_cons.1 hx).2
      have hbp := (List.pairwise_cons.1 hx').1 p (by simp)
      have h := interp_right (b :: l) p hx' x h
      simp only [List.cons_append] at *
      rw [Np.interp, if_neg (by linarith), if_neg (by linarith)]; exact h

/-! `goodPts` -/

theorem goodPts_pos (arr : List ℝ) : ∀ p ∈ goodPts arr, 0 < p.2 := by
  intro p hp
  simp only [goodPts, List.mem_map, List.mem_filter] at hp
  obtain ⟨a, ⟨_, h⟩, rfl⟩ := hp
  simpa using h

theorem goodPts_incX (arr : List ℝ) : IncX (goodPts arr) := by
  unfold IncX goodPts
  rw [List.pairwise_map]
  apply List.Pairwise.filter
  have h : (arr.zipIdx.map Prod.snd).Pairwise (· < ·) := by
    rw [List.zipIdx_map_snd]
    exact List.pairwise_lt_range'
  rw [List.pairwise_map] at h
  exact h.imp (fun h => by simpa using h)

theorem mem_goodPts (arr : List ℝ) (p : ℝ × ℝ) :
    p ∈ goodPts arr ↔ ∃ i : ℕ, p.1 = i ∧ arr[i]? = some p.2 ∧ 0 < p.2 := by
  simp only [goodPts, List.mem_map, List.mem_filter]
  constructor
  · rintro ⟨⟨v, i⟩, ⟨h, h2⟩, rfl⟩
    rw [List.mem_zipIdx_iff_getElem?] at h
    exact ⟨i, rfl, h, by simpa using h2⟩
  · rintro ⟨i, h1, h2, h3⟩
    refine ⟨(p.2, i), ⟨List.mem_zipIdx_iff_getElem?.2 h2, by simpa using h3⟩, ?_⟩
    rw [← h1]


theorem adjacent_split : ∀ (l : List (ℝ × ℝ)), IncX l → ∀ p q, p ∈ l → q ∈ l → p.1 < q.1 →
    (∀ r ∈ l, ¬ (p.1 < r.1 ∧ r.1 < q.1)) → ∃ l1 l2, l = l1 ++ p :: q :: l2
  | [], _, _, _, h, _, _, _ => by simp at h
  | a :: l, hx, p, q, hp, hq, hlt, hno => by
      have h1 := (List.pairwise_cons.1 hx).1
      have hx' : IncX l := (List.pairwise_cons.1 hx).2
      rcases List.mem_cons.1 hp with rfl | hp'
      · rcases List.mem_cons.1 hq with rfl | hq
        · exact absurd hlt (lt_irrefl _)
        · cases l with
          | nil => simp at hq
          | cons b l =>
              rcases List.mem_cons.1 hq with rfl | hq'
              · exact ⟨[], l, rfl⟩
              · exact absurd ⟨h1 b (by simp), (List.pairwise_cons.1 hx').1 q hq'⟩ (hno b (by simp))
      · rcases List.mem_cons.1 hq with rfl | hq
        · have := h1 p hp'; exact absurd hlt (by linarith)
        · obtain ⟨l1, l2, h⟩ := adjacent_split l hx' p q hp' hq hlt (fun r hr => hno r (by simp [hr]))
          exact ⟨a :: l1, l2, by simp [h]⟩

theorem first_split (l : List (ℝ × ℝ)) (hx : IncX l) (p) (hp : p ∈ l) (hno : ∀ r ∈ l, ¬ r.1 < p.1) :
    ∃ l2, l = p :: l2 := by
  cases l with
  | nil => simp at hp
  | cons a l =>
      rcases List.mem_cons.1 hp with rfl | hp
      · exact ⟨l, rfl⟩
      · exact absurd ((List.pairwise_cons.1 hx).1 p hp) (hno a (by simp))

theorem last_split : ∀ (l : List (ℝ × ℝ)), IncX l → ∀ p ∈ l, (∀ r ∈ l, ¬ p.1 < r.1) →
    ∃ l1, l = l1 ++ [p]
  | [], _, p, hp, _ => by simp at hp
  | a :: l, hx, p, hp, hno => by
      have h1 := (List.pairwise_cons.1 hx).1
      have hx' : IncX l := (List.pairwise_cons.1 hx).2
      rcases List.mem_cons.1 hp with rfl | hp
      · cases l with
        | nil => exact ⟨[], rfl⟩
        | cons b l => exact absurd (h1 b (by simp)) (hno b (by simp))
      · obtain ⟨l1, h⟩ := last_split l hx' p hp (fun r hr => hno r (by simp [hr]))
        exact ⟨a :: l1, by simp [h]⟩

theorem fillNegatives_getElem? (arr : List ℝ) (i : ℕ) :
    (fillNegatives arr)[i]? = if goodPts arr = [] then arr[i]? else
      arr[i]?.map fun v => if v ≤ 0 then ((Np.interp (goodPts arr) (i : ℝ)).getD v) else v := by
  unfold fillNegatives
  simp only [ne_eq, List.length_eq_zero_iff]
  split_ifs with h
  · rfl
  · rw [List.getElem?_map, List.getElem?_zipIdx]
    cases arr[i]? with
    | none => simp
    | some v =>
        simp only [Option.map_some, zero_add]
        split_ifs
        · cases Np.interp (goodPts arr) (i : ℝ) <;> simp
        · rfl

theorem sum_centered {n : ℕ} (x : Fin n → ℝ) (hn : 0 < n) :
    ∑ i, (x i - (∑ i, x i) / n) = 0 := by
  have : (n : ℝ) ≠ 0 := by exact_mod_cast hn.ne'
  rw [Finset.sum_sub_distrib, Finset.sum_const, Finset.card_univ, Fintype.card_fin, nsmul_eq_mul]
  field_simp; ring

theorem slope_centered {n : ℕ} (x y : Fin n → ℝ) (hn : 0 < n) :
    slope x y true = (∑ i, (x i - (∑ i, x i) / n) * (y i - (∑ i, y i) / n)) /
      ∑ i, (x i - (∑ i, x i) / n) ^ 2 := by
  unfold slope
  simp only [if_true]
  congr 1
  have h := sum_centered x hn
  generalize (∑ i, x i) / (n : ℝ) = xm at *
  generalize (∑ i, y i) / (n : ℝ) = ym at *
  have : ∀ i, (x i - xm) * (y i - xm) = (x i - xm) * (y i - ym) + (x i - xm) * (ym - xm) :=
    fun i => by ring
  simp_rw [this]
  rw [Finset.sum_add_distrib, ← Finset.sum_mul, h]; ring

theorem sxx_pos {n : ℕ} (x : Fin n → ℝ) (hx : ∃ i j, x i ≠ x j) (m : ℝ) :
    0 < ∑ i, (x i - m) ^ 2 := by
  obtain ⟨i, j, hij⟩ := hx
  have : ∃ k, x k - m ≠ 0 := by
    by_contra h
    push Not at h
    exact hij (by linarith [h i, h j])
  obtain ⟨k, hk⟩ := this
  exact Finset.sum_pos' (fun i _ => sq_nonneg _) ⟨k, Finset.mem_univ _, by positivity⟩

theorem goodPts_nil_iff (arr : List ℝ) : goodPts arr = [] ↔ ∀ v ∈ arr, v ≤ 0 := by
  rw [List.eq_nil_iff_forall_not_mem]
  constructor
  · intro h v hv
    by_contra hpos
    push Not at hpos
    obtain ⟨i, hi, rfl⟩ := List.mem_iff_getElem.1 hv
    exact h ((i : ℝ), arr[i]) ((mem_goodPts _ _).2 ⟨i, rfl, List.getElem?_eq_getElem hi, hpos⟩)
  · intro h p hp
    obtain ⟨i, _, h2, h3⟩ := (mem_goodPts _ _).1 hp
    linarith [h _ (List.mem_of_getElem? h2)]

theorem argmaxGo_first (s : ℝ) (post : List ℝ) (hpost : ∀ v ∈ post, v ≤ s) :
    ∀ i best : ℕ, argmaxGo best s i post = best := by
  induction post with
  | nil => intros; rfl
  | cons a post ih =>
    intro i best
    have ha := hpost a (by simp)
    rw [argmaxGo, if_neg (not_lt.2 ha)]
    exact ih (fun v hv => hpost v (by simp [hv])) _ _

theorem argmaxGo_split (s : ℝ) (post : List ℝ) (hpost : ∀ v ∈ post, v ≤ s) (pre : List ℝ) :
    ∀ (i best : ℕ) (bv : ℝ), bv < s → (∀ v ∈ pre, v < s) →
      argmaxGo best bv i (pre ++ s :: post) = i + pre.length := by
  induction pre with
  | nil =>
    intro i best bv hbv _
    simp only [List.nil_append, argmaxGo, hbv, if_true, List.length_nil, add_zero]
    exact argmaxGo_first s post hpost _ _
  | cons a pre ih =>
    intro i best bv hbv hpre
    have ha := hpre a (by simp)
    have hpre' : ∀ v ∈ pre, v < s := fun v hv => hpre v (by simp [hv])
    simp only [List.cons_append, argmaxGo, List.length_cons]
    split_ifs
    · rw [ih _ _ _ ha hpre']; omega
    · rw [ih _ _ _ hbv hpre']; omega

theorem mean_replicate (n : ℕ) (hn : 0 < n) (v : ℝ) : Np.mean (List.replicate n v) = some v := by
  have : (n : ℝ) ≠ 0 := by exact_mod_cast hn.ne'
  unfold Np.mean
  rw [if_neg (by simp; omega)]
  simp [this]

theorem trapz1_map_zero (l : List ℝ) : Np.trapz1 (l.map fun _ => 0) = 0 := by
  induction l with
  | nil => rfl
  | cons a l ih =>
    cases l with
    | nil => rfl
    | cons b l =>
      simp only [List.map_cons, Np.trapz1] at ih ⊢
      rw [ih]; norm_num

theorem sum_take_periods (t : List ℝ) (p : ℕ)
    (hper : ∀ i, i + p < t.length → t[i + p]? = t[i]?) :
    ∀ m : ℕ, m * p ≤ t.length → (t.take (m * p)).sum = m * (t.take p).sum := by
  have hshift : ∀ m : ℕ, (m + 1) * p ≤ t.length → (t.drop (m * p)).take p = t.take p := by
    intro m hm
    have hm' : m * p + p ≤ t.length := by linarith [Nat.succ_mul m p]
    apply List.ext_getElem?
    intro i
    simp only [List.getElem?_take, List.getElem?_drop]
    split_ifs with hi
    · have : ∀ k : ℕ, k ≤ m → t[k * p + i]? = t[i]? := by
        intro k
        induction k with
        | zero => intro _; simp
        | succ k ih =>
          intro hk
          have hkp : (k + 1) * p ≤ m * p := Nat.mul_le_mul_right _ hk
          have e : (k + 1) * p + i = (k * p + i) + p := by ring
          rw [e, hper, ih (by omega)]
          rw [← e]; omega
      exact this m le_rfl
    · rfl
  intro m
  induction m with
  | zero => intro _; simp
  | succ m ih =>
    intro hm
    have hm' : m * p + p ≤ t.length := by linarith [Nat.succ_mul m p]
    rw [Nat.succ_mul, List.take_add, List.sum_append, ih (by omega), hshift m hm]
    push_cast; ring

theorem trapz1_replicate (n : ℕ) (c : ℝ) : Np.trapz1 (List.replicate (n + 1) c) = n * c := by
  induction n with
  | zero => simp [Np.trapz1]
  | succ n ih =>
    rw [List.replicate_succ, List.replicate_succ, Np.trapz1, ← List.replicate_succ, ih]
    push_cast
    ring

/-- The trapezoidal sum over pairs. -/
noncomputable def trapzPairs : List (ℝ × ℝ) → ℝ
  | a :: b :: rest => (b.1 - a.1) * (b.2 + a.2) / 2 + trapzPairs (b :: rest)
  | _ => 0

theorem trapz_pairs : ∀ t y : List ℝ, t.length = y.length →
    Np.trapz t y = .ok (trapzPairs (t.zip y)) := by
  intro t y h
  have hl : (List.zipWith (fun a b => b - a) t t.tail).length =
      (List.zipWith (fun a b => b + a) y y.tail).length := by simp [h]
  rw [Np.trapz, if_pos hl]
  congr 1
  induction t generalizing y with
  | nil => cases y <;> simp_all [trapzPairs]
  | cons a t ih =>
    cases y with
    | nil => simp at h
    | cons c y =>
      cases t with
      | nil =>
        cases y with
        | nil => simp [trapzPairs]
        | cons _ _ => simp at h
      | cons b t =>
        cases y with
        | nil => simp at h
        | cons d y =>
          have := ih (d :: y) (by simpa using h) (by simp_all)
          simp only [List.tail_cons, List.zipWith_cons_cons, List.zip_cons_cons, List.sum_cons,
            trapzPairs] at this ⊢
          rw [this]

theorem trapzPairs_grid (fs : ℝ) (l : List ℝ) : ∀ t0 : ℝ,
    trapzPairs (((List.range l.length).map fun k : ℕ => t0 + (k : ℝ) / fs).zip l) =
      Np.trapz1 l / fs := by
  induction l with
  | nil => intro t0; simp [trapzPairs, Np.trapz1]
  | cons a l ih =>
    intro t0
    cases l with
    | nil => simp [trapzPairs, Np.trapz1]
    | cons b l =>
      have h := ih (t0 + 1 / fs)
      have e : ∀ (t0 : ℝ) (n : ℕ), ((List.range (n + 1)).map fun k : ℕ => t0 + (k : ℝ) / fs) =
          t0 :: (List.range n).map fun k : ℕ => t0 + 1 / fs + (k : ℝ) / fs := by
        intro t0 n
        rw [List.range_succ_eq_map]
        simp only [List.map_cons, List.map_map, Nat.cast_zero, zero_div, add_zero]
        congr 1
        apply List.map_congr_left
        intro k _
        simp only [Function.comp, Nat.succ_eq_add_one]
        push_cast; ring
      simp only [List.length_cons] at h ⊢
      rw [e] at h
      rw [e, e]
      simp only [List.zip_cons_cons, trapzPairs, Np.trapz1] at h ⊢
      rw [h]
      ring

theorem trapz_grid (fs t0 : ℝ) (l : List ℝ) :
    Np.trapz ((List.range l.length).map fun k : ℕ => t0 + (k : ℝ) / fs) l =
      .ok (Np.trapz1 l / fs) := by
  rw [trapz_pairs _ _ (by simp), trapzPairs_grid]

theorem trapz_length {t y : List ℝ} (h : t.length ≠ y.length) (ht : 2 < t.length) (hy : 2 < y.length) :
    Np.trapz t y = .error .valueError := by
  match t, y with
  | a :: b :: c :: t, a' :: b' :: c' :: y =>
    simp only [List.length_cons] at h
    simp [Np.trapz]
    omega
  | [], _ => simp at ht
  | [_], _ => simp at ht
  | [_, _], _ => simp at ht
  | _, [] => simp at hy
  | _, [_] => simp at hy
  | _, [_, _] => simp at hy

theorem trapz1_sum (y : List ℝ) :
    (List.zipWith (fun a b => b + a) y y.tail).sum = 2 * Np.trapz1 y := by
  induction y with
  | nil => simp [Np.trapz1]
  | cons a l ih =>
    cases l with
    | nil => simp [Np.trapz1]
    | cons b l =>
      simp only [List.tail_cons, List.zipWith_cons_cons, List.sum_cons, Np.trapz1] at ih ⊢
      rw [ih]
      ring

theorem trapz_two (t0 t1 : ℝ) (y : List ℝ) :
    Np.trapz [t0, t1] y = .ok (Np.trapz1 y * (t1 - t0)) := by
  have h := trapz1_sum y
  unfold Np.trapz
  simp only [List.tail_cons, List.zipWith_cons_cons, List.zipWith_nil_right, List.length_singleton]
  generalize List.zipWith (fun a b => b + a) y y.tail = m at h
  split_ifs with hm
  · obtain ⟨b, rfl⟩ := List.length_eq_one_iff.1 hm.symm
    simp only [List.sum_singleton] at h
    simp [h]
    ring
  · simp only [Except.ok.injEq]
    rw [show (m.map fun b => (t1 - t0) * b / 2) = m.map fun b => (t1 - t0) / 2 * b from
      List.map_congr_left fun b _ => by ring, List.sum_map_mul_left, List.map_id', h]
    ring

theorem sum_diff : ∀ (t : List ℝ) (t0 t1 : ℝ), t.head? = some t0 → t.getLast? = some t1 →
    (List.zipWith (fun a b => b - a) t t.tail).sum = t1 - t0 := by
  intro t
  induction t with
  | nil => simp
  | cons a l ih =>
    intro t0 t1 h0 h1
    cases l with
    | nil => simp_all
    | cons b l =>
      have := ih b t1 rfl (by simpa using h1)
      simp only [List.tail_cons, List.zipWith_cons_cons, List.sum_cons] at this ⊢
      rw [this]
      simp only [List.head?_cons, Option.some.injEq] at h0
      rw [h0]
      ring

theorem trapz_two_samples {t : List ℝ} {t0 t1 : ℝ} (h0 : t.head? = some t0)
    (h1 : t.getLast? = some t1) (a c : ℝ) : Np.trapz t [a, c] = Np.trapz [t0, t1] [a, c] := by
  have h := sum_diff t t0 t1 h0 h1
  have e : Np.trapz [t0, t1] [a, c] = .ok ((t1 - t0) * (c + a) / 2) := by simp [Np.trapz]
  rw [e]
  unfold Np.trapz
  simp only [List.tail_cons, List.zipWith_cons_cons, List.zipWith_nil_right, List.length_singleton]
  generalize List.zipWith (fun a b => b - a) t t.tail = d at h
  split_ifs with hm
  · obtain ⟨b, rfl⟩ := List.length_eq_one_iff.1 hm
    simp only [List.sum_singleton] at h
    simp [h]
  · have e2 : (d.map fun x => x * (c + a) / 2).sum = (t1 - t0) * (c + a) / 2 := by
      rw [← h, show (d.map fun x => x * (c + a) / 2) = d.map fun x => x * ((c + a) / 2) from
        List.map_congr_left fun b _ => by ring, List.sum_map_mul_right, List.map_id']
      ring
    rw [← e2]
    match d with
    | [] => rfl
    | [_] => simp at hm
    | _ :: _ :: _ => rfl

end Verif.Utils
