import Verif.UtilsNd
import Verif.OffsetLemmas
import Mathlib.Data.List.Forall2

/-! Helper lemmas for arrays of traces. -/

namespace Verif.Utils
open Verif

/-- The index `i` is below the shape `s`. -/
abbrev Idx (s i : List ℕ) : Prop := List.Forall₂ (· < ·) i s

namespace Arr

theorem bshapeRev_self (s : List ℕ) : bshapeRev s s = some s := by
  induction s with
  | nil => rfl
  | cons a s ih => simp [bshapeRev, ih]

theorem pick_self {s i : List ℕ} (h : Idx s i) : pick s i = i := by
  have hl := h.length_eq
  unfold pick
  rw [hl, Nat.sub_self, List.drop_zero]
  clear hl
  induction h with
  | nil => rfl
  | cons hab _ ih =>
    rw [List.zipWith_cons_cons, ih]
    split_ifs with h1
    · congr 1
      omega
    · rfl

theorem pick_last {s i : List ℕ} {k m : ℕ} (h : Idx s i) (hk : k < m) :
    pick (s ++ [1]) (i ++ [k]) = i ++ [0] ∧ pick (s ++ [m]) (i ++ [k]) = i ++ [k] := by
  constructor
  · have := pick_self (s := s ++ [1]) (i := i ++ [0])
      (List.rel_append h (List.Forall₂.cons zero_lt_one List.Forall₂.nil))
    rw [← this]
    unfold pick
    have hl := h.length_eq
    simp only [List.length_append, List.length_singleton, hl, Nat.sub_self, List.drop_zero]
    rw [List.zipWith_append hl.symm, List.zipWith_append hl.symm]
    simp
  · exact pick_self (List.rel_append h (List.Forall₂.cons hk List.Forall₂.nil))

theorem sub_keep {x y : Arr} {s : List ℕ} {n : ℕ} (hx : x.shape = s ++ [1]) (hy : y.shape = s ++ [n]) :
    ∃ d, x.sub y = .ok d ∧ d.shape = s ++ [n] ∧
      ∀ i, Idx s i → d.row i = (y.row i).map fun v => x.val (i ++ [0]) - v := by
  have hb : bshapeRev x.shape.reverse y.shape.reverse = some (n :: s.reverse) := by
    rw [hx, hy]
    simp only [List.reverse_append, List.reverse_singleton, List.singleton_append, bshapeRev,
      bshapeRev_self, Option.map_some]
    split_ifs with h
    · rcases h with h | h <;> simp [h]
    · simp
  refine ⟨_, by rw [sub, hb], by simp, fun i hi => ?_⟩
  unfold row
  simp only [List.reverse_cons, List.reverse_reverse, hy, List.getLastD_concat, List.map_map]
  refine List.map_congr_left fun k hk => ?_
  have := pick_last hi (List.mem_range.1 hk)
  simp only [Function.comp, hx, this.1, this.2]

theorem bshapeRev_none : ∀ (p p' : List ℕ) (u v : ℕ) (q q' : List ℕ), p.length = p'.length →
    u ≠ v → u ≠ 1 → v ≠ 1 → bshapeRev (p ++ u :: q) (p' ++ v :: q') = none := by
  intro p
  induction p with
  | nil =>
    intro p' u v q q' hl huv hu hv
    cases p' with
    | nil => simp [bshapeRev, huv, hu, hv]
    | cons _ _ => simp at hl
  | cons a p ih =>
    intro p' u v q q' hl huv hu hv
    cases p' with
    | nil => simp at hl
    | cons b p' =>
      simp only [List.cons_append, bshapeRev]
      rw [ih p' u v q q' (by simpa using hl) huv hu hv]
      simp

theorem sliceTo_row {x : Arr} {s : List ℕ} {n : ℕ} (hx : x.shape = s ++ [n]) (i : ℤ) :
    ∃ y, x.sliceTo i = .ok y ∧ y.shape = s ++ [Np.clipIdx n i] ∧
      ∀ k, y.row k = Np.sliceTo (x.row k) i := by
  have hc : Np.clipIdx n i ≤ n := by
    unfold Np.clipIdx
    split_ifs <;> omega
  refine ⟨_, by rw [sliceTo, hx, List.getLast?_concat], by simp, fun k => ?_⟩
  simp only [row, hx, Np.sliceTo, List.dropLast_concat, List.getLastD_concat, List.length_map,
    List.length_range, ← List.map_take, List.take_range, min_eq_left hc]

theorem sliceFrom_row {x : Arr} {s : List ℕ} {n : ℕ} (hx : x.shape = s ++ [n]) (j : ℤ) :
    ∃ y, x.sliceFrom j = .ok y ∧ y.shape = s ++ [n - Np.clipIdx n j] ∧
      ∀ k, y.row k = Np.sliceFrom (x.row k) j := by
  refine ⟨_, by rw [sliceFrom, hx, List.getLast?_concat], by simp, fun k => ?_⟩
  simp only [row, hx, Np.sliceFrom, List.dropLast_concat, List.getLastD_concat, List.length_map,
    List.length_range]
  refine List.ext_getElem (by simp) fun m h1 h2 => ?_
  simp [Nat.add_comm]

theorem hstack_row {x y : Arr} {s : List ℕ} {p q : ℕ} (hs : s.length ≤ 1) (hx : x.shape = s ++ [p])
    (hy : y.shape = s ++ [q]) :
    ∃ z, x.hstack y = .ok z ∧ z.shape = s ++ [p + q] ∧ ∀ i, Idx s i → z.row i = x.row i ++ y.row i := by
  match s with
  | [] =>
    refine ⟨_, by rw [hstack]; simp only [hx, hy]; rw [if_pos (by simp)], by simp, fun i hi => ?_⟩
    cases hi
    simp [row, hx, hy, List.range_add, Function.comp_def]
    intro k hk hpk
    omega
  | [a] =>
    refine ⟨_, by rw [hstack]; simp only [hx, hy]; rw [if_pos (by simp)], by simp, fun i hi => ?_⟩
    obtain ⟨k, l, hk, hl, rfl⟩ := List.forall₂_cons_right_iff.1 hi
    cases hl
    simp [row, hx, hy, List.range_add, Function.comp_def]
    intro k hk hpk
    omega
  | _ :: _ :: _ => simp at hs

end Arr

/-- The baseline used by `energyAbsorbed`. -/
noncomputable def base1 (trace : List ℝ) (baseline : Option ℝ) (indbasepre indbasepost : Option ℤ) :
    Except Err (Option ℝ) :=
  match baseline with
  | some b => .ok (some b)
  | none =>
    match indbasepre with
    | none => .error .valueError
    | some i =>
      let pre := Np.sliceTo trace i
      let bt := match indbasepost with
        | none => pre
        | some j => pre ++ Np.sliceFrom trace j
      .ok (Np.mean bt)

/-- `energyAbsorbed` after the baseline. -/
noncomputable def rest1 (e : ℝ) (trace : List ℝ) (ioffset qetbias rload rsh : ℝ)
    (fs : Option ℝ) (time : Option (List ℝ)) (mb : Option ℝ) : Except Err ℝ :=
  let b := mb.getD 0
  let p0 := powertraceSimple b ioffset qetbias rload rsh
  let diff := trace.map fun s => p0 - powertraceSimple s ioffset qetbias rload rsh
  match fs, time with
  | some f, _ =>
      if mb = none ∧ 2 ≤ trace.length then .error .nan else .ok (Np.trapz1 diff / (f * e))
  | none, some t =>
      match Np.trapz t diff with
      | .ok v => if mb = none ∧ 2 ≤ trace.length ∧ 2 ≤ t.length then .error .nan else .ok (v / e)
      | .error err => .error err
  | none, none => .error .valueError

theorem energyAbsorbed_eq (e : ℝ) (trace : List ℝ) (ioffset qetbias rload rsh : ℝ)
    (fs : Option ℝ) (baseline : Option ℝ) (time : Option (List ℝ)) (pre post : Option ℤ) :
    energyAbsorbed e trace ioffset qetbias rload rsh fs baseline time pre post =
      match base1 trace baseline pre post with
      | .error err => .error err
      | .ok mb => rest1 e trace ioffset qetbias rload rsh fs time mb := rfl

theorem mean_of_row (l : List ℝ) :
    (Np.mean l = none ↔ l.length = 0) ∧ (Np.mean l).getD 0 = l.sum / l.length := by
  unfold Np.mean
  split_ifs with h
  · simp [h]
  · simp [h]

theorem meanKeep_row {w : Arr} {s : List ℕ} {m : ℕ} (hw : w.shape = s ++ [m]) (i : List ℕ) :
    w.meanKeep.shape = s ++ [1] ∧
      ((w.shape.getLastD 0 == 0) = true ↔ Np.mean (w.row i) = none) ∧
      (Np.mean (w.row i)).getD 0 = w.meanKeep.val (i ++ [0]) := by
  have hl : (w.row i).length = m := by simp [Arr.row, hw]
  refine ⟨by simp [Arr.meanKeep, hw], ?_, ?_⟩
  · rw [(mean_of_row _).1, hl, hw]
    simp
  · rw [(mean_of_row _).2, hl]
    simp [Arr.meanKeep, hw]

/-- The baseline of an array, trace by trace. -/
theorem baselineNd_row {x : Arr} {lead : List ℕ} {n : ℕ} {baseline : Option Arr} {pre post : Option ℤ}
    (hx : x.shape = lead ++ [n]) (hb : ∀ b ∈ baseline, b.shape = lead ++ [1])
    (hpost : post = none ∨ baseline ≠ none ∨ lead.length ≤ 1) :
    (∃ err, baselineNd x baseline pre post = .error err ∧
      ∀ i, base1 (x.row i) (baseline.map fun b => b.val (i ++ [0])) pre post = .error err) ∨
    ∃ b nan, baselineNd x baseline pre post = .ok (b, nan) ∧ b.shape = lead ++ [1] ∧
      ∀ i, Idx lead i → ∃ mb,
        base1 (x.row i) (baseline.map fun b => b.val (i ++ [0])) pre post = .ok mb ∧
        (nan = true ↔ mb = none) ∧ mb.getD 0 = b.val (i ++ [0]) := by
  cases baseline with
  | some b =>
    exact Or.inr ⟨b, false, rfl, hb b rfl, fun i _ => ⟨_, rfl, by simp, rfl⟩⟩
  | none =>
    cases pre with
    | none => exact Or.inl ⟨_, rfl, fun i => rfl⟩
    | some p =>
      right
      obtain ⟨y, hy, hys, hyr⟩ := Arr.sliceTo_row hx p
      cases post with
      | none =>
        refine ⟨y.meanKeep, y.shape.getLastD 0 == 0, by rw [baselineNd]; simp only [hy], (meanKeep_row hys []).1, fun i hi => ?_⟩
        have := meanKeep_row hys i
        rw [hyr] at this
        exact ⟨_, rfl, this.2⟩
      | some q =>
        have hlead : lead.length ≤ 1 := by
          rcases hpost with h | h | h
          · cases h
          · exact absurd rfl h
          · exact h
        obtain ⟨z, hz, hzs, hzr⟩ := Arr.sliceFrom_row hx q
        obtain ⟨w, hw, hws, hwr⟩ := Arr.hstack_row hlead hys hzs
        refine ⟨w.meanKeep, w.shape.getLastD 0 == 0, by rw [baselineNd]; simp only [hy, hz, hw], (meanKeep_row hws []).1,
          fun i hi => ?_⟩
        have := meanKeep_row hws i
        rw [hwr i hi, hyr, hzr] at this
        exact ⟨_, rfl, this.2⟩

theorem powerArr_row (x : Arr) (io qb rl rsh : ℝ) (i : List ℕ) :
    (powerArr x io qb rl rsh).row i = (x.row i).map fun v => powertraceSimple v io qb rl rsh := by
  simp [Arr.row, powerArr]

theorem trapz_fits (t y : List ℝ) :
    ((t.length - 1 ≠ y.length - 1 ∧ t.length - 1 ≠ 1 ∧ y.length - 1 ≠ 1) →
      Np.trapz t y = .error .valueError) ∧
    (¬ (t.length - 1 ≠ y.length - 1 ∧ t.length - 1 ≠ 1 ∧ y.length - 1 ≠ 1) →
      ∃ v, Np.trapz t y = .ok v) := by
  unfold Np.trapz
  simp only
  have e1 : (List.zipWith (fun a b : ℝ => b - a) t t.tail).length = t.length - 1 := by simp
  have e2 : (List.zipWith (fun a b : ℝ => b + a) y y.tail).length = y.length - 1 := by simp
  rw [← e1, ← e2]
  generalize List.zipWith (fun a b : ℝ => b - a) t t.tail = d
  generalize List.zipWith (fun a b : ℝ => b + a) y y.tail = m
  constructor
  · rintro ⟨h1, h2, h3⟩
    rw [if_neg h1]
    match d, m with
    | [], [] => simp at h1
    | [_], _ => simp at h2
    | _, [_] => simp at h3
    | [], _ :: _ :: _ => rfl
    | _ :: _ :: _, [] => rfl
    | _ :: _ :: _, _ :: _ :: _ => rfl
  · intro h
    by_cases h1 : d.length = m.length
    · rw [if_pos h1]
      exact ⟨_, rfl⟩
    · rw [if_neg h1]
      match d, m with
      | [], [] => simp at h1
      | [_], _ => exact ⟨_, rfl⟩
      | [], [_] => exact ⟨_, rfl⟩
      | _ :: _ :: _, [_] => exact ⟨_, rfl⟩
      | [], _ :: _ :: _ => simp at h
      | _ :: _ :: _, [] => simp at h
      | _ :: _ :: _, _ :: _ :: _ => simp at h h1; omega

theorem keepBins_le (n : ℕ) (fs sg : ℝ) (didv : Bool) : keepBins n fs sg didv ≤ n := by
  unfold keepBins
  split_ifs
  · exact min_le_right _ _
  · exact le_rfl

theorem traceMeans_keep {x : List (List ℝ)} {n : ℕ} (hl : ∀ t ∈ x, t.length = n) (fs sg : ℝ)
    (didv : Bool) : traceMeans x n fs sg didv =
      (x.map fun t => Np.mean (t.take (keepBins n fs sg didv))).mapM id := by
  unfold traceMeans keepBins
  cases didv with
  | false => rfl
  | true =>
    simp only [if_true]
    refine congrArg _ (List.map_congr_left fun t ht => ?_)
    congr 1
    rw [← hl t ht, List.take_eq_take_iff]
    simp

/-- Some index below a shape without zeros. -/
theorem exists_idx {s : List ℕ} (h : 0 ∉ s) : ∃ i, Idx s i := by
  refine ⟨s.map fun _ => 0, ?_⟩
  induction s with
  | nil => exact List.Forall₂.nil
  | cons a s ih =>
    simp only [List.mem_cons, not_or] at h
    exact List.Forall₂.cons (Nat.pos_of_ne_zero (Ne.symm h.1)) (ih h.2)

end Verif.Utils
