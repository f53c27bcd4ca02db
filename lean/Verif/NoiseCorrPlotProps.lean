import Verif.NoiseCorrPlotLemmas
import Verif.NoiseObjProps

/-! C98: the plot of the correlation coefficients.  C99: the comparison of noise objects. -/

namespace Verif.NoisePlot
open Verif Noise Dft

variable {m c n : ℕ} [NeZero n]

omit [NeZero n] in
/-- One line for each pair of different channels, each pair once; without smoothing its points are exactly
the coefficients at the non-zero frequencies, and they lie between -1 and 1. -/
theorem corr_lines (s : Src m c n) {r : Fin c → Fin c → Half n → Option ℝ} (hr : s.o.corrcoeff = some r)
    (lgcsave : Bool) (path : Option String) :
    ∃ out pn, plotCorrcoeff s false lgcsave path = .ok out ∧ out.shown = [[pn]] ∧
      ∃ pairs : List (Fin c × Fin c), pairs.Nodup ∧ (∀ i j, (i, j) ∈ pairs ↔ j < i) ∧
        pn.lines.length = pairs.length ∧
        ∀ p ln, (p, ln) ∈ pairs.zip pn.lines →
          ln.label = s.channames p.1 ++ " - " ++ s.channames p.2 ∧
          ∀ q, q ∈ ln.pts ↔ ∃ k : Half n, 1 ≤ (k : ℕ) ∧ ∃ v, r p.1 p.2 k = some v ∧
            q = ((k : ℕ) * s.o.fs / n, v) := by
  unfold plotCorrcoeff
  rw [hr]
  simp only [done, pair_loop (fun i j => (⟨s.channames i ++ " - " ++ s.channames j, linPts (n := n) s.o.fs
    (if false = true then savgol (((List.finRange (n / 2 + 1)).drop 1).map (r i j)) else
      (((List.finRange (n / 2 + 1)).drop 1).map (r i j)))⟩ : Line))]
  refine ⟨_, _, rfl, rfl, pairs c, nodup_pairs, fun i j => mem_pairs, by simp, fun p ln h => ?_⟩
  rw [List.zip_map_right, zip_self, List.map_map] at h
  obtain ⟨p', _, he⟩ := List.mem_map.1 h
  cases he
  exact ⟨rfl, fun q => mem_linPts⟩

example : ({ o := (calculateCorrcoeff rampObj).2, channames := fun _ => "a", name := none } :
    Src 2 2 2).o.corrcoeff = some (corrcoeffOf rampTraces) := by
  simp [calculateCorrcoeff, rampObj]

/-- Without smoothing everything drawn lies between -1 and 1. -/
theorem corr_range (s : Src m c n) (hr : s.o.corrcoeff = some (corrcoeffOf s.o.traces))
    (lgcsave : Bool) (path : Option String) {out : Out}
    (h : plotCorrcoeff s false lgcsave path = .ok out) :
    ∀ fig ∈ out.shown, ∀ pn ∈ fig, ∀ ln ∈ pn.lines, ∀ q ∈ ln.pts, -1 ≤ q.2 ∧ q.2 ≤ 1 := by
  obtain ⟨out', pn, e, hs, ps, _, _, hl, hq⟩ := corr_lines s hr lgcsave path
  rw [h] at e
  cases e
  intro fig hf pn' hpn ln hln q hqq
  rw [hs] at hf
  obtain rfl := List.mem_singleton.1 hf
  obtain rfl := List.mem_singleton.1 hpn
  obtain ⟨i, hi, rfl⟩ := List.mem_iff_getElem.1 hln
  have hz : (ps[i]'(by omega), pn'.lines[i]) ∈ ps.zip pn'.lines := by
    rw [List.mem_iff_getElem]
    exact ⟨i, by simp; omega, by simp⟩
  obtain ⟨k, _, v, hv, rfl⟩ := ((hq _ _ hz).2 q).1 hqq
  exact (corrcoeff_range s.o.traces _ _ k).2.1 v hv

example : ({ o := (calculateCorrcoeff rampObj).2, channames := fun _ => "a", name := none } :
    Src 2 2 2).o.corrcoeff = some (corrcoeffOf rampTraces) := by
  simp [calculateCorrcoeff, rampObj]

/-- Partial form of smoothing: where seven neighbouring values lie on a cubic the middle one is kept.
Missing: other values, see `smooth_violated`. -/
theorem smooth_partial (y : List (Option ℝ)) (a b d e : ℝ) {i : ℕ} (hi : 3 ≤ i) (hl : i + 3 < y.length)
    (hc : ∀ j, i - 3 ≤ j → j ≤ i + 3 → y[j]? = some (some (a + b * j + d * j ^ 2 + e * j ^ 3))) :
    (savgol y)[i]? = y[i]? := by
  have hn : ∀ t ≤ 6, nearest y (i + t) =
      some (a + b * ((i - 3 + t : ℕ) : ℝ) + d * ((i - 3 + t : ℕ) : ℝ) ^ 2 + e * ((i - 3 + t : ℕ) : ℝ) ^ 3) := by
    intro t ht
    unfold nearest
    rw [show min (i + t - 3) (y.length - 1) = i - 3 + t by omega, hc _ (by omega) (by omega)]
    rfl
  unfold savgol
  rw [List.getElem?_map, List.getElem?_range (by omega), hc i (by omega) (by omega)]
  simp only [Option.map_some, weights, List.zipIdx_cons, List.zipIdx_nil, List.foldl_cons, List.foldl_nil,
    zero_add, Nat.reduceAdd]
  rw [hn 0 (by norm_num), hn 1 (by norm_num), hn 2 (by norm_num), hn 3 (by norm_num), hn 4 (by norm_num),
    hn 5 (by norm_num), hn 6 (by norm_num)]
  obtain ⟨k, rfl⟩ : ∃ k, i = k + 3 := ⟨i - 3, by omega⟩
  simp only [Nat.add_sub_cancel]
  congr 2
  push_cast
  ring

example : ∀ j : ℕ, 3 - 3 ≤ j → j ≤ 3 + 3 → ((List.range 7).map fun (j : ℕ) => some ((j : ℝ) ^ 2))[j]? =
    some (some (0 + 0 * (j : ℝ) + 1 * (j : ℝ) ^ 2 + 0 * (j : ℝ) ^ 3)) := by
  intro j _ hj
  rw [List.getElem?_map, List.getElem?_range (by omega)]
  simp

/-- Amplitudes of two channels in two traces, in step except in the last bin. -/
def stepAmp (t i : Fin 2) (k : Half 14) : ℝ :=
  if i = 1 ∧ k = 7 then 2 - ((t : ℕ) : ℝ) else ((t : ℕ) : ℝ) + 1

theorem step_corr {traces : Fin 2 → Fin 2 → ZMod 14 → ℝ}
    (h : ∀ t i k, rfft (traces t i) k = (stepAmp t i k : ℂ)) (k : Half 14) :
    corrcoeffOf traces 1 0 k = some (if k = 7 then -1 else 1) := by
  have h0 : ∀ t i k, ‖rfft (traces t i) k‖ = stepAmp t i k := by
    intro t i k
    rw [h, Complex.norm_real, Real.norm_of_nonneg]
    unfold stepAmp
    fin_cases t <;> split_ifs <;> norm_num
  unfold corrcoeffOf corrcoef
  simp only [h0]
  have hs : Real.sqrt (1 / 2) * Real.sqrt (1 / 2) = 1 / 2 := Real.mul_self_sqrt (by norm_num)
  by_cases hk : k = 7
  · have c1 : cov (fun t => stepAmp t 0 k) (fun t => stepAmp t 0 k) = 1 / 2 := by
      simp [cov, avg, Fin.sum_univ_two, stepAmp]; norm_num
    have c2 : cov (fun t => stepAmp t 1 k) (fun t => stepAmp t 1 k) = 1 / 2 := by
      simp [cov, avg, Fin.sum_univ_two, stepAmp, hk]; norm_num
    have c3 : cov (fun t => stepAmp t 0 k) (fun t => stepAmp t 1 k) = -(1 / 2) := by
      simp [cov, avg, Fin.sum_univ_two, stepAmp, hk]; norm_num
    rw [c1, c2, c3, if_neg (by norm_num), if_pos hk, hs]
    norm_num
  · have c1 : ∀ i j, cov (fun t => stepAmp t i k) (fun t => stepAmp t j k) = 1 / 2 := by
      intro i j
      simp [cov, avg, Fin.sum_univ_two, stepAmp, hk]; norm_num
    rw [c1, c1, c1, if_neg (by norm_num), if_neg hk, hs]
    norm_num

/-- Full C98 is false with the default smoothing: for some traces a coefficient of 25/21 is drawn. -/
theorem smooth_violated : ∃ (traces : Fin 2 → Fin 2 → ZMod 14 → ℝ) (o : Obj 2 2 14) (out : Out) (pn : Panel)
    (ln : Line), create 3 traces 14 ["a", "b"] 1 none = .ok o ∧
    plotCorrcoeff ⟨(calculateCorrcoeff o).2, fun i => if i = 0 then "a" else "b", none⟩ true false none = .ok out ∧
    out.shown = [[pn]] ∧ pn.lines = [ln] ∧ (4, 25 / 21) ∈ ln.pts := by
  choose tr htr using fun t i => exists_rfft (stepAmp t i)
  have hcr : ∃ o, create 3 tr 14 ["a", "b"] 1 none = .ok o ∧ o.traces = tr ∧ o.fs = 14 := by
    unfold create
    simp
  obtain ⟨o, ho, ht, hfs⟩ := hcr
  have hcc : (calculateCorrcoeff o).2.corrcoeff = some (corrcoeffOf tr) := by
    simp [calculateCorrcoeff, ht]
  have hfs' : (calculateCorrcoeff o).2.fs = 14 := by
    simp [calculateCorrcoeff, hfs]
  have hfr : (List.finRange (14 / 2 + 1)).drop 1 = ([1, 2, 3, 4, 5, 6, 7] : List (Half 14)) := by decide
  have hy : ((List.finRange (14 / 2 + 1)).drop 1).map (corrcoeffOf tr 1 0) =
      [some 1, some 1, some 1, some 1, some 1, some 1, some (-1)] := by
    rw [hfr]
    simp only [List.map_cons, List.map_nil, step_corr htr]
    simp [show (1 : Half 14) ≠ 7 by decide, show (2 : Half 14) ≠ 7 by decide,
      show (3 : Half 14) ≠ 7 by decide, show (4 : Half 14) ≠ 7 by decide, show (5 : Half 14) ≠ 7 by decide,
      show (6 : Half 14) ≠ 7 by decide]
  have hp : pairs 2 = [(1, 0)] := by decide
  have key : plotCorrcoeff ⟨(calculateCorrcoeff o).2, fun i => if i = 0 then "a" else "b", none⟩ true false none =
      .ok ⟨[[⟨(0, 0), none, [⟨"b - a", linPts (n := 14) 14 (savgol
        [some 1, some 1, some 1, some 1, some 1, some 1, some (-1)])⟩]⟩]], []⟩ := by
    unfold plotCorrcoeff
    simp only [hcc, hfs', if_true]
    rw [pair_loop (fun i j => (⟨(if i = 0 then "a" else "b") ++ " - " ++ (if j = 0 then "a" else "b"),
      linPts (n := 14) 14 (savgol (((List.finRange (14 / 2 + 1)).drop 1).map (corrcoeffOf tr i j)))⟩ : Line)), hp]
    simp only [List.map_cons, List.map_nil, hy]
    rfl
  refine ⟨tr, o, _, _, _, ho, key, rfl, rfl, ?_⟩
  have h3 : (savgol [some 1, some 1, some 1, some 1, some 1, some 1, some (-1)])[3]? = some (some (25 / 21)) := by
    unfold savgol
    rw [List.getElem?_map, List.getElem?_range (by simp)]
    simp [weights, nearest]
    norm_num
  unfold linPts
  rw [List.mem_filterMap]
  refine ⟨(4, some (25 / 21)), ?_, ?_⟩
  · refine List.mem_of_getElem? (i := 3) (List.getElem?_zip_eq_some.2 ⟨?_, h3⟩)
    rw [hfr]
    rfl
  · simp only [Option.map_some, rfftfreq]
    congr 2
    norm_num [show (((4 : Half 14) : ℕ)) = 4 from rfl]

/-! ### C99 -/

/-- Full C99 is false: naming a channel that one of the objects has raises AttributeError, so nothing is
ever compared. -/
theorem compare_violated (arr : List CmpObj) (l : List String) (decorr : Bool)
    (h : ∃ ch ∈ l, ∃ o ∈ arr, ch ∈ o.channames) : compareNoise arr (some l) decorr = .error .attributeError := by
  unfold compareNoise
  simp only
  induction l with
  | nil =>
    obtain ⟨_, h, _⟩ := h
    simp at h
  | cons a l ih =>
    unfold compareNoise.go
    by_cases ha : a ∈ (arr.map CmpObj.channames).flatten
    · rw [if_pos ha]
      cases arr with
      | nil => simp at ha
      | cons o rest => rfl
    · rw [if_neg ha]
      obtain ⟨ch, hch, o, ho, hoc⟩ := h
      rcases List.mem_cons.1 hch with rfl | hch
      · exact absurd (List.mem_flatten.2 ⟨_, List.mem_map_of_mem ho, hoc⟩) ha
      · exact ih ⟨ch, hch, o, ho, hoc⟩

example : ∃ ch ∈ ["PAS1"], ∃ o ∈ [(⟨"a", ["PAS1"], fun _ => [], none⟩ : CmpObj)], ch ∈ o.channames := by
  simp

/-- Partial form of C99: channels that no object has are skipped without a figure.  Missing: channels that
exist. -/
theorem compare_partial (arr : List CmpObj) (decorr : Bool) :
    compareNoise arr none decorr = .ok [] ∧
    ∀ l, (∀ ch ∈ l, ∀ o ∈ arr, ch ∉ o.channames) → compareNoise arr (some l) decorr = .ok [] := by
  refine ⟨rfl, fun l h => ?_⟩
  unfold compareNoise
  simp only
  induction l with
  | nil => rfl
  | cons a l ih =>
    unfold compareNoise.go
    rw [if_neg]
    · exact ih fun ch hch => h ch (List.mem_cons_of_mem _ hch)
    · intro ha
      obtain ⟨c, hc, hac⟩ := List.mem_flatten.1 ha
      obtain ⟨o, ho, rfl⟩ := List.mem_map.1 hc
      exact h a List.mem_cons_self o ho hac

example : ∀ ch ∈ ["x"], ∀ o ∈ [(⟨"a", ["PAS1"], fun _ => [], none⟩ : CmpObj)], ch ∉ o.channames := by
  simp

end Verif.NoisePlot
