import Verif.UtilsNdLemmas

/-! C120: `energy_absorbed` and `calc_offset` of arrays of traces. -/

namespace Verif.Utils
open Verif

/-- **C120** for `energy_absorbed`, without `indbasepost` or with at most two dimensions: the result has
the shape of the array without its last axis, and each entry is what the function gives for that trace
alone; an error is raised exactly if it is raised for each trace alone. -/
theorem energy_each_trace_partial (e : ℝ) {x : Arr} {lead : List ℕ} {n : ℕ} {baseline : Option Arr}
    {pre post : Option ℤ} (hx : x.shape = lead ++ [n]) (h0 : 0 ∉ lead)
    (hb : ∀ b ∈ baseline, b.shape = lead ++ [1])
    (hpost : post = none ∨ baseline ≠ none ∨ lead.length ≤ 1) (io qb rl rsh : ℝ) (fs : Option ℝ)
    (time : Option (List ℝ)) :
    (∃ r, energyAbsorbedNd e x io qb rl rsh fs baseline time pre post = .ok r ∧ r.shape = lead ∧
      ∀ i, Idx lead i → energyAbsorbed e (x.row i) io qb rl rsh fs
        (baseline.map fun b => b.val (i ++ [0])) time pre post = .ok (r.val i)) ∨
    ∃ err, energyAbsorbedNd e x io qb rl rsh fs baseline time pre post = .error err ∧
      ∀ i, Idx lead i → energyAbsorbed e (x.row i) io qb rl rsh fs
        (baseline.map fun b => b.val (i ++ [0])) time pre post = .error err := by
  rcases baselineNd_row (pre := pre) hx hb hpost with ⟨err, h1, h2⟩ | ⟨b, nan, h1, hs, h2⟩
  · right
    refine ⟨err, by rw [energyAbsorbedNd, h1], fun i _ => ?_⟩
    rw [energyAbsorbed_eq, h2 i]
  · obtain ⟨d, hd, hds, hdr⟩ := Arr.sub_keep (x := powerArr b io qb rl rsh)
      (y := powerArr x io qb rl rsh) (s := lead) (n := n) hs hx
    have hne : d.shape ≠ [] := by rw [hds]; simp
    have hlast : d.shape.getLastD 0 = n := by rw [hds]; simp
    have hdrop : d.shape.dropLast = lead := by rw [hds]; simp
    have hrl : ∀ i, (x.row i).length = n := fun i => by simp [Arr.row, hx]
    -- the difference of each row is that of `rest1`
    have hrow : ∀ i, Idx lead i → ∀ mb : Option ℝ, mb.getD 0 = b.val (i ++ [0]) →
        ((x.row i).map fun s => powertraceSimple (mb.getD 0) io qb rl rsh -
          powertraceSimple s io qb rl rsh) = d.row i := by
      intro i hi mb hmb
      rw [hdr i hi, powerArr_row, List.map_map, hmb]
      rfl
    obtain ⟨i0, hi0⟩ := exists_idx h0
    cases fs with
    | some f =>
      by_cases hnan : nan = true ∧ 2 ≤ n
      · right
        refine ⟨.nan, ?_, fun i hi => ?_⟩
        · rw [energyAbsorbedNd, h1]
          simp only [hd, if_neg hne, hdrop, hlast]
          rw [if_pos ⟨hnan.1, h0, hnan.2⟩]
        · obtain ⟨mb, hm1, hm2, hm3⟩ := h2 i hi
          rw [energyAbsorbed_eq, hm1]
          simp only [rest1, hrl]
          rw [if_pos ⟨hm2.1 hnan.1, hnan.2⟩]
      · left
        refine ⟨⟨lead, fun i => Np.trapz1 (d.row i) / (f * e)⟩, ?_, rfl, fun i hi => ?_⟩
        · rw [energyAbsorbedNd, h1]
          simp only [hd, if_neg hne, hdrop, hlast]
          rw [if_neg fun h => hnan ⟨h.1, h.2.2⟩]
        · obtain ⟨mb, hm1, hm2, hm3⟩ := h2 i hi
          rw [energyAbsorbed_eq, hm1]
          simp only [rest1, hrl, hrow i hi mb hm3]
          rw [if_neg fun h => hnan ⟨hm2.2 h.1, h.2⟩]
    | none =>
      cases time with
      | none =>
        right
        refine ⟨.valueError, by rw [energyAbsorbedNd, h1]; simp only [hd], fun i hi => ?_⟩
        obtain ⟨mb, hm1, hm2, hm3⟩ := h2 i hi
        rw [energyAbsorbed_eq, hm1]
        rfl
      | some t =>
        have hdl : ∀ i, (d.row i).length = n := fun i => by simp [Arr.row, hds]
        by_cases hfit : t.length - 1 ≠ n - 1 ∧ t.length - 1 ≠ 1 ∧ n - 1 ≠ 1
        · right
          refine ⟨.valueError, ?_, fun i hi => ?_⟩
          · rw [energyAbsorbedNd, h1]
            simp only [hd, if_neg hne, hlast]
            rw [if_pos hfit]
          · obtain ⟨mb, hm1, hm2, hm3⟩ := h2 i hi
            rw [energyAbsorbed_eq, hm1]
            simp only [rest1, hrow i hi mb hm3]
            rw [(trapz_fits t (d.row i)).1 (by rw [hdl]; exact hfit)]
        · have hv : ∀ i, ∃ v, Np.trapz t (d.row i) = .ok v :=
            fun i => (trapz_fits t (d.row i)).2 (by rw [hdl]; exact hfit)
          choose v hv using hv
          by_cases hnan : nan = true ∧ 2 ≤ n ∧ 2 ≤ t.length
          · right
            refine ⟨.nan, ?_, fun i hi => ?_⟩
            · rw [energyAbsorbedNd, h1]
              simp only [hd, if_neg hne, hlast, hdrop]
              rw [if_neg hfit, if_pos ⟨hnan.1, h0, by omega, hnan.2.2⟩]
            · obtain ⟨mb, hm1, hm2, hm3⟩ := h2 i hi
              rw [energyAbsorbed_eq, hm1]
              simp only [rest1, hrow i hi mb hm3, hv, hrl]
              rw [if_pos ⟨hm2.1 hnan.1, hnan.2⟩]
          · left
            refine ⟨⟨lead, fun i => v i / e⟩, ?_, rfl, fun i hi => ?_⟩
            · rw [energyAbsorbedNd, h1]
              simp only [hd, if_neg hne, hlast, hdrop, hv]
              rw [if_neg hfit, if_neg fun h => hnan ⟨h.1, by omega, h.2.2.2⟩]
            · obtain ⟨mb, hm1, hm2, hm3⟩ := h2 i hi
              rw [energyAbsorbed_eq, hm1]
              simp only [rest1, hrow i hi mb hm3, hv, hrl]
              rw [if_neg fun h => hnan ⟨hm2.2 h.1, h.2⟩]

/-- Non-vacuity: two traces of three samples, baselines from before and after the pulse. -/
example : (⟨[2, 3], fun i => (i.sum : ℝ)⟩ : Arr).shape = [2] ++ [3] ∧ 0 ∉ [2] ∧
    (∀ b ∈ (none : Option Arr), b.shape = [2] ++ [1]) ∧
    ((some 2 : Option ℤ) = none ∨ (none : Option Arr) ≠ none ∨ [2].length ≤ 1) := by
  simp

/-- Contrary to C120, a baseline from before and after the pulse cannot be used for arrays with more
than two dimensions: with two or more entries along the second axis `energy_absorbed` always raises
ValueError, although it works for every trace alone. -/
theorem energy_three_axes_violated (e : ℝ) {x : Arr} {a b n : ℕ} {tl : List ℕ}
    (hx : x.shape = a :: b :: tl ++ [n]) (hb : 2 ≤ b) (io qb rl rsh : ℝ) (fs : Option ℝ)
    (time : Option (List ℝ)) (i j : ℤ) :
    energyAbsorbedNd e x io qb rl rsh fs none time (some i) (some j) = .error .valueError := by
  obtain ⟨y, hy, hys, -⟩ := Arr.sliceTo_row (s := a :: b :: tl) hx i
  obtain ⟨z, hz, hzs, -⟩ := Arr.sliceFrom_row (s := a :: b :: tl) hx j
  unfold energyAbsorbedNd baselineNd
  simp only [hy, hz]
  by_cases hst : y.shape.length = z.shape.length ∧ y.shape.eraseIdx 1 = z.shape.eraseIdx 1
  · have hax : ¬ y.shape.length = 1 := by rw [hys]; simp
    have hh : ∃ w, y.hstack z = .ok w ∧
        w.shape = a :: (b + b) :: tl ++ [Np.clipIdx n i] := by
      refine ⟨_, by rw [Arr.hstack]; simp only [if_neg hax]; rw [if_pos hst], ?_⟩
      simp [hys, hzs]
    obtain ⟨w, hw, hws⟩ := hh
    simp only [hw]
    have : (powerArr w.meanKeep io qb rl rsh).sub (powerArr x io qb rl rsh) = .error .valueError := by
      unfold Arr.sub
      have : Arr.bshapeRev (powerArr w.meanKeep io qb rl rsh).shape.reverse
          (powerArr x io qb rl rsh).shape.reverse = none := by
        have e1 : (powerArr w.meanKeep io qb rl rsh).shape.reverse =
            (1 :: tl.reverse) ++ (b + b) :: [a] := by
          simp only [powerArr, Arr.meanKeep, hws, List.dropLast_concat]
          simp
        have e2 : (powerArr x io qb rl rsh).shape.reverse = (n :: tl.reverse) ++ b :: [a] := by
          simp only [powerArr, hx]
          simp
        rw [e1, e2]
        exact Arr.bshapeRev_none _ _ _ _ _ _ (by simp) (by omega) (by omega) (by omega)
      rw [this]
    rw [this]
  · have hax : ¬ y.shape.length = 1 := by rw [hys]; simp
    have : y.hstack z = .error .valueError := by
      rw [Arr.hstack]
      simp only [if_neg hax]
      rw [if_neg hst]
    rw [this]

/-- Non-vacuity: one event with two channels of three samples; each trace alone has an energy. -/
example : energyAbsorbedNd 1 ⟨[1, 2, 3], fun _ => 0⟩ 0 1 0 1 (some 1) none none (some 1) (some 2) =
      .error .valueError ∧
    energyAbsorbed 1 ((⟨[1, 2, 3], fun _ => 0⟩ : Arr).row [0, 1]) 0 1 0 1 (some 1) none none (some 1)
      (some 2) = .ok 0 := by
  refine ⟨energy_three_axes_violated 1 (a := 1) (b := 2) (tl := []) rfl le_rfl 0 1 0 1 _ _ 1 2, ?_⟩
  norm_num [energyAbsorbed, Arr.row, List.range_succ, Np.sliceTo, Np.sliceFrom, Np.clipIdx, Np.mean,
    Np.trapz1, powertraceSimple, show Int.toNat 2 = 2 from rfl]
  all_goals simp

/-- With a single entry along the second axis the call returns two energies for each trace (when both
windows have the same length), one for each of the two baselines. -/
theorem energy_one_channel_violated :
    ∃ r, energyAbsorbedNd 1 ⟨[1, 1, 3], fun i => (i.sum : ℝ)⟩ 0 1 0 1 (some 1) none none (some 1)
        (some 2) = .ok r ∧ r.shape = [1, 2] ∧ r.val [0, 0] = -2 ∧ r.val [0, 1] = 2 ∧
      energyAbsorbed 1 ((⟨[1, 1, 3], fun i => (i.sum : ℝ)⟩ : Arr).row [0, 0]) 0 1 0 1 (some 1) none none
        (some 1) (some 2) = .ok 0 := by
  refine ⟨_, rfl, rfl, ?_, ?_, ?_⟩
  · norm_num [Arr.row, powerArr, Arr.meanKeep, Arr.pick, List.range_succ, Np.clipIdx, Np.trapz1,
      powertraceSimple]
  · norm_num [Arr.row, powerArr, Arr.meanKeep, Arr.pick, List.range_succ, Np.clipIdx, Np.trapz1,
      powertraceSimple, show Int.toNat 2 = 2 from rfl]
  · norm_num [energyAbsorbed, Arr.row, List.range_succ, Np.sliceTo, Np.sliceFrom, Np.clipIdx, Np.mean,
      Np.trapz1, powertraceSimple, show Int.toNat 2 = 2 from rfl]
    all_goals simp
    norm_num

/-- **C120** for `calc_offset`: the offset and its uncertainty of the channels of an array of events
(with any number of axes between that of the events and that of the samples) are those of each channel
alone. -/
theorem offset_each_channel {x : Arr} {a n : ℕ} {tl : List ℕ} (hx : x.shape = a :: tl ++ [n])
    (ha : 0 < a) (fs sg : ℝ) (didv : Bool) (hk : 0 < keepBins n fs sg didv) :
    ∃ off std, calcOffsetNd x fs sg didv = .ok (off, std) ∧ off.shape = tl ∧ std.shape = tl ∧
      ∀ i, calcOffset ((List.range a).map fun k => x.row (k :: i)) n fs sg didv = some (off.val i) ∧
        calcOffsetStd ((List.range a).map fun k => x.row (k :: i)) n fs sg didv = some (std.val i) := by
  have hlast : x.shape.getLast? = some n := by rw [hx, List.getLast?_concat]
  have hdrop : x.shape.dropLast = a :: tl := by rw [hx, List.dropLast_concat]
  have hl : ∀ k, (x.row k).length = n := fun k => by
    rw [Arr.row, List.length_map, List.length_range, hx, List.getLastD_concat]
  have hm : ∀ k, Np.mean ((x.row k).take (keepBins n fs sg didv)) =
      some (((x.row k).take (keepBins n fs sg didv)).sum / (keepBins n fs sg didv : ℕ)) := by
    intro k
    have hlen : ((x.row k).take (keepBins n fs sg didv)).length = keepBins n fs sg didv := by
      rw [List.length_take, hl, min_eq_left (keepBins_le n fs sg didv)]
    rw [Np.mean, if_neg (by rw [← List.length_eq_zero_iff, hlen]; omega), hlen]
  have htm : ∀ i, traceMeans ((List.range a).map fun k => x.row (k :: i)) n fs sg didv =
      some ((List.range a).map fun k =>
        ((x.row (k :: i)).take (keepBins n fs sg didv)).sum / (keepBins n fs sg didv : ℕ)) := by
    intro i
    rw [traceMeans_keep fun t ht => by
      obtain ⟨k, _, rfl⟩ := List.mem_map.1 ht
      exact hl _]
    rw [List.map_map, ← mapM_some, List.map_map]
    refine congrArg _ (List.map_congr_left fun k _ => ?_)
    exact hm (k :: i)
  rw [calcOffsetNd, hlast]
  simp only [hdrop]
  rw [if_neg (by omega)]
  refine ⟨_, _, rfl, rfl, rfl, fun i => ?_⟩
  have := offset_of_means (htm i) (by simp; omega) (by simp)
  simpa [List.map_map, Function.comp_def] using this

/-- Non-vacuity: two events with two channels of three samples. -/
example : (⟨[2, 2, 3], fun i => (i.sum : ℝ)⟩ : Arr).shape = 2 :: [2] ++ [3] ∧ 0 < 2 ∧
    0 < keepBins 3 1 1 false := by
  simp [keepBins]

/-- Contrary to C120 `calc_offset` never returns one offset for each trace: the shape of the result is
not that of the input without its last axis, and a single trace raises IndexError. -/
theorem offset_shape_violated {x : Arr} (fs sg : ℝ) (didv : Bool) :
    (∀ off std, calcOffsetNd x fs sg didv = .ok (off, std) → off.shape ≠ x.shape.dropLast) ∧
    (x.shape.length ≤ 1 → calcOffsetNd x fs sg didv = .error .indexError) := by
  constructor
  · intro off std h
    rw [calcOffsetNd] at h
    split at h
    · cases h
    · split at h
      · cases h
      · next a tl htl =>
        dsimp only at h
        split_ifs at h
        cases h
        rw [htl]
        simp
  · intro hl
    rw [calcOffsetNd]
    split
    · rfl
    · next n hn =>
      have : x.shape.dropLast = [] := by
        rw [← List.length_eq_zero_iff, List.length_dropLast]
        omega
      rw [this]

end Verif.Utils
