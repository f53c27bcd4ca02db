import Verif.TemplateLemmas
import Mathlib.Tactic.IntervalCases
import Mathlib.Analysis.Complex.ExponentialBounds

/-! Properties of the template maker and of the alignment of traces (C86, C87). -/

namespace Verif.Template
open Verif

/-! ### C86: `make_template` -/

/-- **C86** (partial: needs rise faster than fall, times from zero on, a whole offset, and a pulse
that overlaps the trace).  The template has one sample per time; the sample at bin `i` is the double
exponential at the time of bin `i - (n//2 + offset)` divided by one positive number, and zero when
that bin does not exist; all samples lie in [0, 1] and the largest is exactly 1. -/
theorem makeTemplate_partial {t : List ℝ} {τr τf : ℝ} {offset : ℤ} (hr : 0 < τr) (hf : τr < τf)
    (ht : ∀ x ∈ t, 0 ≤ x)
    (hov : ∃ i j : ℕ, i < t.length ∧ (i : ℤ) = j + ((t.length / 2 : ℕ) + offset) ∧
      ∃ x, t[j]? = some x ∧ 0 < x) :
    ∃ l, makeTemplate t τr τf offset = .ok l ∧ l.length = t.length ∧
      (∃ h : ℝ, 0 < h ∧ ∀ i : ℕ, i < t.length →
        (∀ j : ℕ, ∀ x, (i : ℤ) = j + ((t.length / 2 : ℕ) + offset) → t[j]? = some x →
          l[i]? = some ((Real.exp (-x / τf) - Real.exp (-x / τr)) / h)) ∧
        ((i : ℤ) < (t.length / 2 : ℕ) + offset ∨
          (t.length : ℤ) ≤ i - ((t.length / 2 : ℕ) + offset) → l[i]? = some 0)) ∧
      (∀ x ∈ l, 0 ≤ x ∧ x ≤ 1) ∧ 1 ∈ l := by
  obtain ⟨i0, j0, hi0, hij, x0, hx0, hpos⟩ := hov
  set k : ℤ := (t.length / 2 : ℕ) + offset with hk
  have hkc : ((t.length / 2 : ℕ) : ℝ) + (offset : ℝ) = (k : ℝ) := by
    rw [hk, Int.cast_add, Int.cast_natCast]
  have hnn : ∀ x ∈ Utils.shift (t.map (pulse τr τf)) (k : ℝ) 0, 0 ≤ x := by
    intro x hx
    rcases mem_shift hx with rfl | hx
    · exact le_rfl
    · obtain ⟨y, hy, rfl⟩ := List.mem_map.1 hx
      exact pulse_nonneg hr hf.le (ht y hy)
  have hlen : (Utils.shift (t.map (pulse τr τf)) (k : ℝ) 0).length = t.length := by
    simp [shift_len]
  have hent : ∀ i : ℕ, i < t.length → ∀ j : ℕ, ∀ x, (i : ℤ) = j + k → t[j]? = some x →
      (Utils.shift (t.map (pulse τr τf)) (k : ℝ) 0)[i]? = some (pulse τr τf x) := by
    intro i hi j x hijk hx
    have hj : j < t.length := (List.getElem?_eq_some_iff.1 hx).1
    rw [shift_entry _ _ _ (by simpa using hi), if_pos (by simp; omega)]
    have : ((i : ℤ) - k).toNat = j := by omega
    rw [this, List.getElem?_map, hx]
    rfl
  obtain ⟨m, hm⟩ := max?_defined (l := Utils.shift (t.map (pulse τr τf)) (k : ℝ) 0) (by
    intro h
    rw [h] at hlen
    simp at hlen
    omega)
  have hms := max?_spec hm
  have hmpos : 0 < m := by
    refine lt_of_lt_of_le (pulse_pos hr hf hpos) (hms.2 _ ?_)
    exact List.mem_of_getElem? (hent i0 hi0 j0 x0 hij hx0)
  refine ⟨(Utils.shift (t.map (pulse τr τf)) (k : ℝ) 0).map fun x => x / m, ?_, by simpa using hlen,
    ⟨m, hmpos, fun i hi => ⟨?_, ?_⟩⟩, ?_, ?_⟩
  · unfold makeTemplate
    simp only [hkc, hm]
    rw [if_neg hmpos.ne']
  · intro j x hijk hx
    rw [List.getElem?_map, hent i hi j x hijk hx]
    rfl
  · intro hout
    rw [List.getElem?_map, shift_entry _ _ _ (by simpa using hi), if_neg (by simp; omega)]
    simp
  · intro x hx
    obtain ⟨y, hy, rfl⟩ := List.mem_map.1 hx
    exact ⟨div_nonneg (hnn y hy) hmpos.le, (div_le_one hmpos).2 (hms.2 y hy)⟩
  · exact List.mem_map.2 ⟨m, hms.1, div_self hmpos.ne'⟩

/-- Non-vacuity: four samples, default offset. -/
example : ∃ l, makeTemplate [0, 1, 2, 3] 1 2 ((0 : ℤ) : ℝ) = .ok l ∧ l[1]? = some 0 ∧ 1 ∈ l := by
  obtain ⟨l, h1, _, ⟨h, _, h3⟩, _, h5⟩ := makeTemplate_partial (t := [0, 1, 2, 3]) (τr := 1) (τf := 2)
    (offset := 0) one_pos one_lt_two (by simp) ⟨3, 1, by simp, by simp, 1, by simp, one_pos⟩
  exact ⟨l, h1, (h3 1 (by simp)).2 (by simp), h5⟩

/-- **C86**, violated: with the fall time not longer than the rise time the pulse is never positive,
so the normalisation divides by the zero before the pulse and no template comes back. -/
theorem makeTemplate_swapped_violated {t : List ℝ} {τr τf : ℝ} {offset : ℤ} (hf : 0 < τf)
    (hr : τf ≤ τr) (ht : ∀ x ∈ t, 0 ≤ x) (hne : t ≠ [])
    (h0 : 0 < ((t.length / 2 : ℕ) : ℤ) + offset) :
    makeTemplate t τr τf offset = .error .nan := by
  set k : ℤ := (t.length / 2 : ℕ) + offset with hk
  have hkc : ((t.length / 2 : ℕ) : ℝ) + (offset : ℝ) = (k : ℝ) := by
    rw [hk, Int.cast_add, Int.cast_natCast]
  have hlen := List.length_pos_iff.2 hne
  have hzero : (0 : ℝ) ∈ Utils.shift (t.map (pulse τr τf)) (k : ℝ) 0 := by
    apply List.mem_of_getElem? (i := 0)
    rw [shift_entry _ _ _ (by simpa using hlen), if_neg (by simp; omega)]
  obtain ⟨m, hm⟩ := max?_defined (List.ne_nil_of_mem hzero)
  have hms := max?_spec hm
  have hm0 : m = 0 := by
    refine le_antisymm ?_ (hms.2 _ hzero)
    rcases mem_shift hms.1 with h | h
    · exact h.le
    · obtain ⟨y, hy, rfl⟩ := List.mem_map.1 h
      rw [pulse_swap, neg_nonpos]
      exact pulse_nonneg hf hr (ht y hy)
  unfold makeTemplate
  simp only [hkc, hm]
  rw [if_pos hm0]

/-- Non-vacuity. -/
example : makeTemplate [0, 1, 2, 3] 2 1 ((0 : ℤ) : ℝ) = .error .nan :=
  makeTemplate_swapped_violated one_pos one_le_two (by simp) (by simp) (by simp)

/-- **C86**, violated: an offset that moves the pulse out of the trace gives no template. -/
theorem makeTemplate_outside_violated {t : List ℝ} {τr τf : ℝ} {offset : ℤ} (hne : t ≠ [])
    (h0 : (t.length : ℤ) ≤ ((t.length / 2 : ℕ) : ℤ) + offset ∨
      ((t.length / 2 : ℕ) : ℤ) + offset ≤ -(t.length : ℤ)) :
    makeTemplate t τr τf offset = .error .nan := by
  set k : ℤ := (t.length / 2 : ℕ) + offset with hk
  have hkc : ((t.length / 2 : ℕ) : ℝ) + (offset : ℝ) = (k : ℝ) := by
    rw [hk, Int.cast_add, Int.cast_natCast]
  have hlen := List.length_pos_iff.2 hne
  have hall : ∀ x ∈ Utils.shift (t.map (pulse τr τf)) (k : ℝ) 0, x = 0 := by
    intro x hx
    obtain ⟨i, hi, rfl⟩ := List.getElem_of_mem hx
    have hi' : i < t.length := by simpa [shift_len] using hi
    have := shift_entry (t.map (pulse τr τf)) k 0 (i := i) (by simpa using hi')
    rw [if_neg (by simp; omega), List.getElem?_eq_getElem hi] at this
    exact Option.some_inj.1 this
  obtain ⟨m, hm⟩ := max?_defined (l := Utils.shift (t.map (pulse τr τf)) (k : ℝ) 0) (by
    apply List.length_pos_iff.1
    simpa [shift_len] using hlen)
  unfold makeTemplate
  simp only [hkc, hm]
  rw [if_pos (hall m (max?_spec hm).1)]

/-- Non-vacuity. -/
example : makeTemplate [0, 1, 2, 3] 1 2 ((2 : ℤ) : ℝ) = .error .nan :=
  makeTemplate_outside_violated (by simp) (by simp)

/-! ### C87: `align_traces` -/

/-- **C87**: one shift and one row per trace; row `i` is trace `i` moved by the reported shift, and
the bins without a sample are masked. -/
theorem align_rows {filt : ℝ → ℝ → List ℝ → List ℝ} {x : List ℝ} {rest : List (List ℝ)} {nCut : ℤ}
    {f fs : ℝ} :
    ∃ (shifts : List ℤ) (rows : List (List (Option ℝ))),
      alignTraces filt (x :: rest) nCut f fs = .ok (shifts, rows) ∧
      shifts.length = rest.length + 1 ∧ rows.length = rest.length + 1 ∧
      ∀ (i : ℕ) (y : List ℝ) (s : ℤ) (row : List (Option ℝ)), (x :: rest)[i]? = some y → shifts[i]? = some s → rows[i]? = some row →
        row.length = y.length ∧ ∀ j < y.length, ∃ v, row[j]? = some v ∧
          (∀ c, v = some c ↔ ∃ j' : ℕ, (j : ℤ) = j' + s ∧ y[j']? = some c) := by
  refine ⟨_, _, rfl, by simp, by simp, ?_⟩
  intro i y s row hy hs hrow
  rw [List.getElem?_zipWith, hy, hs] at hrow
  have hrow' := Option.some_inj.1 hrow
  subst hrow'
  refine ⟨by simp [Utils.shiftInt_length], fun j hj => ?_⟩
  rw [Utils.shiftInt_getElem? _ _ _ _ (by simpa using hj)]
  simp only [List.length_map, List.getElem?_map]
  split_ifs with hc
  · have hlt : ((j : ℤ) - s).toNat < y.length := by omega
    rw [List.getElem?_eq_getElem hlt]
    refine ⟨_, rfl, fun c => ?_⟩
    constructor
    · intro h
      refine ⟨((j : ℤ) - s).toNat, by omega, ?_⟩
      rw [List.getElem?_eq_getElem hlt]
      exact h
    · rintro ⟨j', hj', hc'⟩
      have : ((j : ℤ) - s).toNat = j' := by omega
      rw [← hc', ← this, List.getElem?_eq_getElem hlt]
  · refine ⟨none, rfl, fun c => ⟨fun h => (by cases h), ?_⟩⟩
    rintro ⟨j', hj', hc'⟩
    have := (List.getElem?_eq_some_iff.1 hc').1
    omega

/-- **C87**: a trace that, once filtered, truncated, centred and scaled, is the first one delayed by
`d` bins (with zeros coming in), is reported with shift `-d`: the shift that undoes the delay. -/
theorem align_delayed {filt : ℝ → ℝ → List ℝ → List ℝ} {x : List ℝ} {rest : List (List ℝ)}
    {nCut : ℤ} {a b y : List ℝ} {i : ℕ} {d : ℤ} (hx : condition filt nCut x = some a)
    (hi : (x :: rest)[i]? = some y) (hy : condition filt nCut y = some b) (hlen : b.length = a.length)
    (hd : ∀ j, ext b j = ext a (j - d)) :
    ∃ shifts, alignShifts filt (x :: rest) nCut = .ok shifts ∧ shifts[i]? = some (-d) := by
  have hne := ext_ne_of_mem (condition_one hx).1 one_ne_zero
  have h0 := peak_delayed (a := a) (b := a) rfl rfl hne (d := 0) (by simp)
  have h1 := peak_delayed (a := a) (b := b) rfl hlen hne hd
  refine ⟨_, rfl, ?_⟩
  rw [List.getElem?_map, hi, Option.map_some, hx, hy, h0, h1]
  congr 1
  omega

/-- **C87**: the first trace, and every further copy of it, is reported with shift zero, for any
filter and also when the trace has no variation. -/
theorem align_origin {filt : ℝ → ℝ → List ℝ → List ℝ} {x : List ℝ} {rest : List (List ℝ)}
    {nCut : ℤ} {i : ℕ} (hi : (x :: rest)[i]? = some x) :
    ∃ shifts, alignShifts filt (x :: rest) nCut = .ok shifts ∧ shifts[0]? = some 0 ∧
      shifts[i]? = some 0 := by
  refine ⟨_, rfl, ?_, ?_⟩
  · simp
  · rw [List.getElem?_map, hi]
    simp

/-- Non-vacuity: a pulse, and the same pulse one bin later. -/
example :
    ∃ shifts, alignShifts (fun _ _ l => l) [[0, 3, -3, 0], [0, 0, 3, -3]] 4 = .ok shifts ∧
      shifts[1]? = some (-1) := by
  have hx : condition (fun _ _ l => l) 4 [0, 3, -3, 0] = some [0, 1, -1, 0] := by
    rw [condition_whole (M := 3) (by simp) (by simp) (by norm_num) (by simp) (by norm_num)
      (by norm_num)]
    norm_num
  have hy : condition (fun _ _ l => l) 4 [0, 0, 3, -3] = some [0, 0, 1, -1] := by
    rw [condition_whole (M := 3) (by simp) (by simp) (by norm_num) (by simp) (by norm_num)
      (by norm_num)]
    norm_num
  refine align_delayed (i := 1) hx (by simp) hy rfl ?_
  intro j
  by_cases hj : 0 ≤ j ∧ j < 5
  · obtain ⟨h0, h5⟩ := hj
    interval_cases j <;> simp [ext]
  · rw [ext_zero (by simp; omega), ext_zero (by simp; omega)]

/-- **C87**, violated: the cut-off frequency and the sampling rate given by the caller have no effect;
5 kHz and 625 kHz are used. -/
theorem align_arguments_violated (filt : ℝ → ℝ → List ℝ → List ℝ) (traces : List (List ℝ)) (nCut : ℤ)
    (f fs : ℝ) : alignTraces filt traces nCut f fs = alignTraces filt traces nCut 5000 625000 := rfl

/-- **C87**, violated: a trace without variation is not left where it is.  Whatever the other traces
are, it is moved by the whole length of the window, so that at most the samples after the window
remain. -/
theorem align_flat_violated {filt : ℝ → ℝ → List ℝ → List ℝ} {x : List ℝ} {rest : List (List ℝ)}
    {nCut : ℤ} {a y : List ℝ} {i : ℕ} (hx : condition filt nCut x = some a)
    (hi : (x :: rest)[i]? = some y) (hy : condition filt nCut y = none) :
    ∃ shifts, alignShifts filt (x :: rest) nCut = .ok shifts ∧
      shifts[i]? = some (-((a.length : ℤ) - 1)) := by
  have hne := ext_ne_of_mem (condition_one hx).1 one_ne_zero
  have h0 := peak_delayed (a := a) (b := a) rfl rfl hne (d := 0) (by simp)
  refine ⟨_, rfl, ?_⟩
  rw [List.getElem?_map, hi, Option.map_some, hx, hy, h0]
  simp [peak]

/-- Non-vacuity: a flat trace beside a pulse. -/
example : ∃ shifts, alignShifts (fun _ _ l => l) [[0, 3, -3, 0], [5, 5, 5, 5]] 4 = .ok shifts ∧
    shifts[1]? = some (-3) := by
  have hx : condition (fun _ _ l => l) 4 [0, 3, -3, 0] = some [0, 1, -1, 0] := by
    rw [condition_whole (M := 3) (by simp) (by simp) (by norm_num) (by simp) (by norm_num)
      (by norm_num)]
    norm_num
  have hy : condition (fun _ _ l => l) 4 [5, 5, 5, 5] = none := by
    have h1 : Np.sliceTo ([5, 5, 5, 5] : List ℝ) 4 = [5, 5, 5, 5] := by simp [Np.sliceTo, Np.clipIdx]
    have h2 : Np.mean ([5, 5, 5, 5] : List ℝ) = some 5 := by
      rw [Np.mean, if_neg (by simp)]
      norm_num
    simp [condition, h1, h2, List.max?]
  simpa using align_flat_violated (rest := [[5, 5, 5, 5]]) (i := 1) hx (by simp) hy

/-- One period of a wave of twelve bins. -/
noncomputable def wave : List ℝ := [7, 6, 3, 0, -3, -6, -7, -6, -3, 0, 3, 6]

/-- The same wave, five bins later. -/
noncomputable def wave5 : List ℝ := [-6, -3, 0, 3, 6, 7, 6, 3, 0, -3, -6, -7]

/-- **C87**, violated: for periodic traces, the use the function is written for, the correlation does
not wrap around and favours small shifts.  Of two windows on the same periodic wave, five of twelve
bins apart, the second is reported with a shift that is not `-5` modulo the period. -/
theorem align_periodic_violated :
    ∃ shifts s, alignShifts (fun _ _ l => l) [wave, wave5] 12 = .ok shifts ∧ shifts[1]? = some s ∧
      (s + 5) % 12 ≠ 0 := by
  have hx : condition (fun _ _ l => l) 12 wave = some (wave.map fun v => v / 7) :=
    condition_whole (by simp [wave]) (by simp [wave]) (by norm_num [wave]) (by simp [wave])
      (by norm_num [wave]) (by norm_num)
  have hy : condition (fun _ _ l => l) 12 wave5 = some (wave5.map fun v => v / 7) :=
    condition_whole (by simp [wave5]) (by simp [wave5]) (by norm_num [wave5]) (by simp [wave5])
      (by norm_num [wave5]) (by norm_num)
  have hne := ext_ne_of_mem (condition_one hx).1 one_ne_zero
  have h0 := peak_delayed (a := wave.map fun v => v / 7) rfl rfl hne (d := 0) (by simp)
  obtain ⟨p, hp, hlt, hmax⟩ := peak_max (a := wave.map fun v => v / 7)
    (b := wave5.map fun v => v / 7) (by simp [wave, wave5])
  refine ⟨_, (p : ℤ) - 11, rfl, ?_, ?_⟩
  · rw [List.getElem?_map]
    simp only [List.getElem?_cons_succ, List.getElem?_cons_zero, Option.map_some, hx, hy, hp, h0]
    simp [wave]
  · intro hc
    have hlen : (wave.map fun v => v / 7).length + (wave5.map fun v => v / 7).length - 1 = 23 := by
      simp [wave, wave5]
    rw [hlen] at hlt hmax
    have hpp : p = 6 ∨ p = 18 := by omega
    have h7 := hmax 7 (by omega)
    rcases hpp with rfl | rfl <;>
    · norm_num [corr, wave, wave5, List.range_succ] at h7

/-- **C87**, violated for traces of integers: nothing is masked, and a trace which is moved gets
invented samples (the integer which stands for `nan`) in the bins that should be masked. -/
theorem align_integer_violated {filt : ℝ → ℝ → List ℝ → List ℝ} {castNan : ℤ}
    {traces : List (List ℤ)} {nCut : ℤ} {shifts : List ℤ} {rows : List (List (Option ℤ))}
    (h : alignTracesInt filt castNan traces nCut = .ok (shifts, rows)) :
    (∀ row ∈ rows, none ∉ row) ∧
    ∀ (i j : ℕ) (y : List ℤ) (s : ℤ) (row : List (Option ℤ)), traces[i]? = some y →
      shifts[i]? = some s → rows[i]? = some row → j < y.length →
      ((j : ℤ) - s < 0 ∨ (y.length : ℤ) ≤ j - s) → row[j]? = some (some castNan) := by
  rw [alignTracesInt] at h
  cases hs : alignShifts filt (traces.map fun x => x.map fun v : ℤ => (v : ℝ)) nCut with
  | error e => rw [hs] at h; cases h
  | ok sh =>
    rw [hs] at h
    cases h
    constructor
    · intro row hrow
      rw [List.mem_iff_getElem?] at hrow
      obtain ⟨i, hi⟩ := hrow
      rw [List.getElem?_zipWith] at hi
      split at hi
      · cases hi
        simp
      · cases hi
    · intro i j y s row hy hsi hrow hj hout
      rw [List.getElem?_zipWith, hy, hsi] at hrow
      cases hrow
      rw [List.getElem?_map, Utils.shiftInt_getElem? _ _ _ _ hj, if_neg (by omega)]
      rfl

/-- Non-vacuity: the second trace is the first one bin later; its last bin should be masked. -/
example (c : ℤ) : ∃ shifts rows, alignTracesInt (fun _ _ l => l) c [[0, 3, -3, 0], [0, 0, 3, -3]] 4 =
    .ok (shifts, rows) ∧ shifts[1]? = some (-1) := by
  have hx : condition (fun _ _ l => l) 4 [0, 3, -3, 0] = some [0, 1, -1, 0] := by
    rw [condition_whole (M := 3) (by simp) (by simp) (by norm_num) (by simp) (by norm_num)
      (by norm_num)]
    norm_num
  have hy : condition (fun _ _ l => l) 4 [0, 0, 3, -3] = some [0, 0, 1, -1] := by
    rw [condition_whole (M := 3) (by simp) (by simp) (by norm_num) (by simp) (by norm_num)
      (by norm_num)]
    norm_num
  obtain ⟨shifts, h1, h2⟩ := align_delayed (rest := [[0, 0, 3, -3]]) (i := 1) (d := 1) hx (by simp) hy
    rfl (by
      intro j
      by_cases hj : 0 ≤ j ∧ j < 5
      · obtain ⟨h0, h5⟩ := hj
        interval_cases j <;> simp [ext]
      · rw [ext_zero (by simp; omega), ext_zero (by simp; omega)])
  rw [alignTracesInt, show ([[0, 3, -3, 0], [0, 0, 3, -3]] : List (List ℤ)).map (fun x => x.map fun v : ℤ => (v : ℝ)) =
    [[0, 3, -3, 0], [0, 0, 3, -3]] by simp, h1]
  exact ⟨shifts, _, rfl, h2⟩

/-- **C87.**  Without traces there is nothing to align to: `IndexError`. -/
theorem align_empty (filt : ℝ → ℝ → List ℝ → List ℝ) (nCut : ℤ) (cutOffFreq fs : ℝ) :
    alignTraces filt [] nCut cutOffFreq fs = .error .indexError := rfl

end Verif.Template
