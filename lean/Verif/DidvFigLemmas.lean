import Verif.DidvFigSpec
import Verif.DidvPlotProps

/-! Helper lemmas for the figures. -/

namespace Verif.Didv
open Verif

/-- A plot in frequency fails or not whatever the part drawn. -/
theorem freqPlot_error_iff (v : View) (fn : ℂ → ℝ) (poles : Poles) :
    (v.freqPlot fn poles = .error .valueError ∧ ∀ k ∈ v.plotBins, 10 ^ 5 ≤ v.freq k) ∨
      ((∃ g, v.freqPlot fn poles = .ok g) ∧ ∃ k ∈ v.plotBins, v.freq k < 10 ^ 5) := by
  unfold View.freqPlot
  by_cases h : v.limValues fn = []
  · left
    refine ⟨by simp [h], fun k hk => ?_⟩
    by_contra hlt
    have : fn (v.proc.didvmean k * v.phase k) ∈ v.limValues fn := by
      unfold View.limValues
      exact List.mem_map.2 ⟨k, by simp [hk, not_le.1 hlt], rfl⟩
    rw [h] at this
    simp at this
  · right
    refine ⟨by simp [h], ?_⟩
    obtain ⟨y, hy⟩ := List.exists_mem_of_ne_nil _ h
    unfold View.limValues at hy
    obtain ⟨k, hk, -⟩ := List.mem_map.1 hy
    simp only [List.mem_filter, decide_eq_true_eq] at hk
    exact ⟨k, hk.1, hk.2⟩

/-- The stems of a method. -/
theorem figures_stems (v : View) (poles : Poles) (m : Method) :
    ((v.figures poles m).map Prod.snd).Nodup ∧ (v.figures poles m).length = m.count := by
  cases m <;> simp [View.figures, Method.count]

/-- What the figures of a call are. -/
theorem emit_files {save : Bool} {path name : List Char} {l : List (Except Err Drawing × List Char)}
    (h : (emit save path name l).2 = .ok ()) :
    (emit save path name l).1.map Figure.file = l.map fun p => output save path name p.2 := by
  induction l with
  | nil => rfl
  | cons p l ih =>
    obtain ⟨d, stem⟩ := p
    cases d with
    | error e => simp [emit] at h
    | ok d =>
      simp only [emit] at h ⊢
      simp [ih h]

theorem output_inj {path name s s' : List Char} (h : output true path name s = output true path name s') :
    s = s' := by
  simpa [output] using h

theorem emit_show {path name : List Char} {l : List (Except Err Drawing × List Char)} {f : Figure}
    (h : f ∈ (emit false path name l).1) : f.file = none := by
  induction l with
  | nil => simp [emit] at h
  | cons p l ih =>
    obtain ⟨d, stem⟩ := p
    cases d with
    | error e => simp [emit] at h
    | ok d =>
      simp only [emit, List.mem_cons] at h
      rcases h with rfl | h
      · simp [output]
      · exact ih h

theorem emit_mem {path name : List Char} {l : List (Except Err Drawing × List Char)} {f : Figure}
    (h : f ∈ (emit true path name l).1) :
    ∃ p ∈ l, f.file = some (path ++ p.2 ++ '_' :: name ++ ".png".toList) := by
  induction l with
  | nil => simp [emit] at h
  | cons p l ih =>
    obtain ⟨d, stem⟩ := p
    cases d with
    | error e => simp [emit] at h
    | ok d =>
      simp only [emit, List.mem_cons] at h
      rcases h with rfl | h
      · exact ⟨_, List.mem_cons_self, by simp [output]⟩
      · obtain ⟨q, hq, he⟩ := ih h
        exact ⟨q, List.mem_cons_of_mem _ hq, he⟩

/-- The stem of a figure does not start with a slash. -/
theorem emit_stem {v : View} {m : Method} {poles : Poles} {path name : List Char} {f : Figure}
    (h : f ∈ (v.plot m poles true path name).1) :
    ∃ (stem : List Char) (c : Char), c ≠ '/' ∧ stem.head? = some c ∧
      f.file = some (path ++ stem ++ '_' :: name ++ ".png".toList) := by
  obtain ⟨p, hp, he⟩ := emit_mem h
  cases m <;> simp only [View.figures, List.mem_cons, List.not_mem_nil, or_false] at hp
  all_goals
    first
    | (subst hp; exact ⟨_, _, by decide, rfl, he⟩)
    | (rcases hp with rfl | rfl <;> exact ⟨_, _, by decide, rfl, he⟩)

/-- A stem belongs to one method. -/
theorem stem_same {v v' : View} {poles poles' : Poles} {m m' : Method} {p q : Except Err Drawing × List Char}
    (hp : p ∈ v.figures poles m) (hq : q ∈ v'.figures poles' m') (h : p.2 = q.2) : m.Same m' := by
  cases m <;> cases m' <;>
    simp only [View.figures, List.mem_cons, List.not_mem_nil, or_false] at hp hq <;>
    first
    | trivial
    | rfl
    | (exfalso; revert h; subst hp; subst hq; simp)
    | (exfalso; revert h; subst hp; rcases hq with rfl | rfl <;> simp)
    | (exfalso; revert h; subst hq; rcases hp with rfl | rfl <;> simp)
    | (exfalso; revert h; rcases hp with rfl | rfl <;> rcases hq with rfl | rfl <;> simp)

/-- The times of a drawn fit. -/
theorem fitCurve_times {v : View} {f : PlotFit} {c : Curve} (h : v.fitCurve f = .ok c) :
    ∃ y : ℕ → ℝ, c = (List.range v.proc.nbins).map fun i => ((v.proc.time i + f.dt) * 10 ^ 6, y i) := by
  unfold View.fitCurve at h
  split at h
  · cases h
  · cases h
  · rename_i m hm
    split at h
    · cases h
    · rename_i y _
      cases h
      exact ⟨fun i => y (i : ZMod (m + 2)) * 10 ^ 6, by rw [hm]⟩

theorem freqPlot_parts {v : View} {fn : ℂ → ℝ} {poles : Poles} {g : FreqPlot}
    (h : v.freqPlot fn poles = .ok g) : g.data = v.dataPoints fn ∧ g.upper = v.upperBound fn ∧
      g.lower = v.lowerBound fn ∧ g.fits = (v.drawn poles).map (v.fitFreq fn) := by
  unfold View.freqPlot at h
  simp only at h
  split_ifs at h
  cases h
  exact ⟨rfl, rfl, rfl, rfl⟩

theorem freqPlot_data {v : View} {fn : ℂ → ℝ} {poles : Poles} {g : FreqPlot}
    (h : v.freqPlot fn poles = .ok g) : g.data = v.dataPoints fn := (freqPlot_parts h).1

theorem collect_ok {α : Type*} {l : List (Except Err α)} {r : List α} (h : collect l = .ok r) :
    l = r.map .ok := by
  induction l generalizing r with
  | nil => simp [collect] at h; subst h; rfl
  | cons x l ih =>
    cases x with
    | error e => simp [collect] at h
    | ok a =>
      cases hc : collect l with
      | error e => simp [collect, hc] at h
      | ok t =>
        simp only [collect, hc, Except.ok.injEq] at h
        subst h
        rw [ih hc]
        rfl

/-- The figure of a method that makes one. -/
theorem emit_single {save : Bool} {path name stem : List Char} {d : Except Err Drawing} {f : Figure}
    (h : f ∈ (emit save path name [(d, stem)]).1) : d = .ok f.drawing := by
  cases d with
  | error e => simp [emit] at h
  | ok d => simp [emit] at h; rw [h]

theorem timeDrawing_ok {v : View} {poles : Poles} {lim : ℝ × ℝ} {d : Drawing}
    (h : v.timeDrawing poles lim = .ok d) : ∃ l, d = .time v.meanCurve l none (some lim) ∧
      (v.drawn poles).map v.fitCurve = l.map .ok := by
  unfold View.timeDrawing View.timePlot at h
  cases hc : collect ((v.drawn poles).map v.fitCurve) with
  | error e => simp [hc] at h
  | ok l =>
    simp only [hc, View.timeLim] at h
    split_ifs at h with h0
    simp only [Except.ok.injEq] at h
    exact ⟨l, h.symm, collect_ok hc⟩

theorem freqDrawing_ok {v : View} {poles : Poles} {fn : ℂ → ℝ} {lim : ℝ × ℝ → ℝ × ℝ} {d : Drawing}
    (h : v.freqDrawing poles fn lim = .ok d) :
    ∃ g, v.freqPlot fn poles = .ok g ∧ d = .freq { g with ylim := lim g.ylim } := by
  unfold View.freqDrawing at h
  cases hg : v.freqPlot fn poles with
  | error e => simp [hg] at h
  | ok g => simp only [hg, Except.ok.injEq] at h; exact ⟨g, rfl, h.symm⟩

/-- The two figures of a method that makes two. -/
theorem emit_pair {save : Bool} {path name s t : List Char} {d d' : Except Err Drawing} {a b : Figure}
    (h : (emit save path name [(d, s), (d', t)]).1 = [a, b]) : d = .ok a.drawing ∧ d' = .ok b.drawing := by
  cases d with
  | error e => simp [emit] at h
  | ok d =>
    cases d' with
    | error e => simp [emit] at h
    | ok d' =>
      simp only [emit, List.cons.injEq] at h
      obtain ⟨rfl, rfl, -⟩ := h
      exact ⟨rfl, rfl⟩

/-- `plot_full_trace` shows every sample of the averaged trace; a sample of a fit is shown if and
only if its delayed time is within the trace, so that a whole fit is shown only without delay. -/
theorem fullLim_range {v : View} {n : ℕ} {t0 : ℝ} (hv : Sampled v n t0) (hn : n ≠ 0) :
    (∀ p ∈ v.meanCurve, v.fullLim.1 ≤ p.1 ∧ p.1 ≤ v.fullLim.2) ∧
    ∀ (f : PlotFit) (c : Curve), v.fitCurve f = .ok c →
      ((∀ p ∈ c, v.fullLim.1 ≤ p.1 ∧ p.1 ≤ v.fullLim.2) ↔ f.dt = 0) := by
  have hfs := hv.fs_pos
  have ht : ∀ i < n, v.proc.time 0 ≤ v.proc.time i ∧ v.proc.time i ≤ v.proc.time (n - 1) := by
    intro i hi
    rw [hv.time, hv.time, hv.time]
    have h1 : (i : ℝ) ≤ ((n - 1 : ℕ) : ℝ) := by exact_mod_cast (by omega : i ≤ n - 1)
    have h2 : (i : ℝ) / v.fs ≤ ((n - 1 : ℕ) : ℝ) / v.fs := div_le_div_of_nonneg_right h1 hfs.le
    have h3 : 0 ≤ (i : ℝ) / v.fs := by positivity
    constructor
    · simpa using h3
    · linarith
  constructor
  · intro p hp
    obtain ⟨i, hi, rfl⟩ := List.mem_map.1 hp
    rw [List.mem_range, hv.nbins] at hi
    obtain ⟨h1, h2⟩ := ht i hi
    simp only [View.fullLim, hv.nbins]
    constructor <;> nlinarith
  · intro f c hc
    obtain ⟨y, hy⟩ := fitCurve_times hc
    have hmem : ∀ i < n, ((v.proc.time i + f.dt) * 10 ^ 6, y i) ∈ c := by
      intro i hi
      rw [hy, hv.nbins]
      exact List.mem_map.2 ⟨i, List.mem_range.2 hi, rfl⟩
    constructor
    · intro h
      have h1 := (h _ (hmem 0 (by omega))).1
      have h2 := (h _ (hmem (n - 1) (by omega))).2
      simp only [View.fullLim, hv.nbins] at h1 h2
      linarith
    · intro h p hp
      rw [hy, hv.nbins] at hp
      obtain ⟨i, hi, rfl⟩ := List.mem_map.1 hp
      obtain ⟨h1, h2⟩ := ht i (List.mem_range.1 hi)
      simp only [View.fullLim, hv.nbins, h, add_zero]
      constructor <;> nlinarith

/-- `plot_single_period_of_trace` shows the samples of the averaged trace up to and including the
first of the next period, and no others. -/
theorem periodLim_range {v : View} {n : ℕ} {t0 : ℝ} (hv : Sampled v n t0) {q : ℕ}
    (hp : v.fs = q * v.sgfreq) (hsg : 0 < v.sgfreq) {i : ℕ} :
    (v.periodLim.1 ≤ v.proc.time i * 10 ^ 6 ∧ v.proc.time i * 10 ^ 6 ≤ v.periodLim.2) ↔ i ≤ q := by
  have hfs := hv.fs_pos
  have hq : (0 : ℝ) < q := by
    rw [hp] at hfs
    exact pos_of_mul_pos_left hfs hsg.le
  have e : 1 / v.sgfreq = q / v.fs := by rw [hp]; field_simp
  simp only [View.periodLim]
  rw [e, hv.time, hv.time]
  have h0 : 0 ≤ (i : ℝ) / v.fs := by positivity
  have : (i : ℝ) / v.fs ≤ q / v.fs ↔ i ≤ q := by
    rw [div_le_div_iff_of_pos_right hfs]
    exact_mod_cast Iff.rfl
  rw [← this]
  constructor
  · rintro ⟨-, h2⟩
    push_cast at h2
    simp only [zero_div, zero_add] at h2
    nlinarith
  · intro h
    push_cast
    simp only [zero_div, zero_add]
    constructor <;> nlinarith

/-- The plot of the modulus starts at zero and shows every data point below 100 kHz; its upper limit
is positive. -/
theorem absDrawing_range {v : View} {poles : Poles} {g : FreqPlot}
    (h : v.freqDrawing poles (fun z => ‖z‖) (fun l => (0, l.2)) = .ok (.freq g)) :
    0 < g.ylim.2 ∧ g.ylim.1 = 0 ∧ ∀ p ∈ g.data, p.1 < 10 ^ 5 → g.ylim.1 ≤ p.2 ∧ p.2 ≤ g.ylim.2 := by
  rcases freqPlot_error_iff v (fun z => ‖z‖) poles with ⟨h1, -⟩ | ⟨-, k, hk, hlt⟩
  · simp [View.freqDrawing, h1] at h
  · obtain ⟨g', hg', -, hr, -⟩ := (freqPlot_range v (fun z => ‖z‖) poles).2 ⟨k, hk, hlt⟩
    simp only [View.freqDrawing, hg', Except.ok.injEq, Drawing.freq.injEq] at h
    subst h
    have hdata : g'.data = v.dataPoints fun z => ‖z‖ := freqPlot_data hg'
    have hkm : (v.freq k, ‖v.proc.didvmean k * v.phase k‖) ∈ g'.data := by
      rw [hdata]
      exact List.mem_map.2 ⟨k, hk, rfl⟩
    refine ⟨?_, rfl, fun p hp hp5 => ⟨?_, (hr p hp hp5).2⟩⟩
    · have hpos : 0 < ‖v.proc.didvmean k * v.phase k‖ := by
        refine norm_pos_iff.2 (mul_ne_zero ?_ (Complex.exp_ne_zero _))
        have := (mem_plotBins.1 hk).2
        unfold good at this
        intro h0
        rw [h0] at this
        split_ifs at this with h1
        · exact this rfl
        · simp at this
          linarith
      exact hpos.trans_le (hr _ hkm hlt).2
    · rw [hdata] at hp
      obtain ⟨j, -, rfl⟩ := List.mem_map.1 hp
      exact norm_nonneg _

/-- The plot of the phase shows every data point, bound and fit. -/
theorem phaseDrawing_range {v : View} {poles : Poles} {g : FreqPlot}
    (h : v.freqDrawing poles Complex.arg (fun _ => (-Real.pi, Real.pi)) = .ok (.freq g)) :
    (∀ p ∈ g.data ++ g.upper ++ g.lower, g.ylim.1 ≤ p.2 ∧ p.2 ≤ g.ylim.2) ∧
    ∀ c ∈ g.fits, ∀ p ∈ c, ∀ y, p.2 = some y → g.ylim.1 ≤ y ∧ y ≤ g.ylim.2 := by
  have harg : ∀ z, -Real.pi ≤ Complex.arg z ∧ Complex.arg z ≤ Real.pi := fun z =>
    ⟨(Complex.neg_pi_lt_arg z).le, Complex.arg_le_pi z⟩
  rcases freqPlot_error_iff v Complex.arg poles with ⟨h1, -⟩ | ⟨⟨g', hg'⟩, -⟩
  · simp [View.freqDrawing, h1] at h
  · simp only [View.freqDrawing, hg', Except.ok.injEq, Drawing.freq.injEq] at h
    subst h
    obtain ⟨e1, e2, e3, e4⟩ := freqPlot_parts hg'
    constructor
    · intro p hp
      simp only [e1, e2, e3, List.mem_append] at hp
      rcases hp with (hp | hp) | hp <;> obtain ⟨k, -, rfl⟩ := List.mem_map.1 hp <;> exact harg _
    · intro c hc p hp y hy
      simp only [e4] at hc
      obtain ⟨f, -, rfl⟩ := List.mem_map.1 hc
      obtain ⟨k, -, rfl⟩ := List.mem_map.1 hp
      simp only at hy
      split at hy
      · cases hy; exact harg _
      · cases hy

theorem emit_pair_file {save : Bool} {path name s t : List Char} {d d' : Except Err Drawing} {a b : Figure}
    (h : (emit save path name [(d, s), (d', t)]).1 = [a, b]) : a.file = output save path name s := by
  cases d with
  | error e => simp [emit] at h
  | ok d =>
    simp only [emit, List.cons.injEq] at h
    rw [← h.1]

theorem emit_pair_file' {save : Bool} {path name s t : List Char} {d d' : Except Err Drawing} {a b : Figure}
    (h : (emit save path name [(d, s), (d', t)]).1 = [a, b]) : b.file = output save path name t := by
  cases d with
  | error e => simp [emit] at h
  | ok d =>
    cases d' with
    | error e => simp [emit] at h
    | ok d' =>
      simp only [emit, List.cons.injEq] at h
      rw [← h.2.1]

theorem collected_at {α β : Type*} {F : α → Except Err β} {l : List α} {r : List β}
    (h : l.map F = r.map .ok) {k : ℕ} {x : α} {y : β} (hx : l[k]? = some x) (hy : r[k]? = some y) :
    F x = .ok y := by
  have := congrArg (fun l => l[k]?) h
  simpa [hx, hy] using this

theorem meanCurve_at {v : View} {i : ℕ} {p : ℝ × ℝ} (h : v.meanCurve[i]? = some p) :
    i < v.proc.nbins ∧ p = (v.proc.time i * 10 ^ 6, (v.proc.tmean i - v.proc.offset) * 10 ^ 6) := by
  unfold View.meanCurve at h
  rw [List.getElem?_map] at h
  by_cases hi : i < v.proc.nbins
  · rw [List.getElem?_range hi] at h
    simp at h
    exact ⟨hi, h.symm⟩
  · rw [List.getElem?_eq_none (by simpa using hi)] at h
    simp at h

theorem freqPlot_visible {v : View} {fn : ℂ → ℝ} {poles : Poles} {g : FreqPlot}
    (h : v.freqPlot fn poles = .ok g) (p : ℝ × ℝ) (hp : p ∈ g.data) (h5 : p.1 < 10 ^ 5) :
    g.ylim.1 ≤ p.2 ∧ p.2 ≤ g.ylim.2 := by
  rcases freqPlot_error_iff v fn poles with ⟨h1, -⟩ | ⟨-, k, hk, hlt⟩
  · simp [h1] at h
  · obtain ⟨g', hg', -, hr, -⟩ := (freqPlot_range v fn poles).2 ⟨k, hk, hlt⟩
    rw [hg'] at h
    cases h
    exact hr p hp h5

end Verif.Didv
