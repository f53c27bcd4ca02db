import Verif.DidvFigLemmas
import Verif.DidvPlotProps

/-! Property C113: the figures which the plotting methods of the dI/dV classes show and save. -/

namespace Verif.Didv
open Verif

/-- **C113.**  A call shows or saves all of its figures or, when it raises, none. -/
theorem plot_all_or_none (v : View) (m : Method) (poles : Poles) (save : Bool) (path name : List Char) :
    ((v.plot m poles save path name).2 = .ok () ∧ (v.plot m poles save path name).1.length = m.count) ∨
      ((∃ e, (v.plot m poles save path name).2 = .error e) ∧ (v.plot m poles save path name).1 = []) := by
  have hone : ∀ (d : Except Err Drawing) (s : List Char),
      ((emit save path name [(d, s)]).2 = .ok () ∧ (emit save path name [(d, s)]).1.length = 1) ∨
        ((∃ e, (emit save path name [(d, s)]).2 = .error e) ∧ (emit save path name [(d, s)]).1 = []) := by
    intro d s
    cases d with
    | error e => exact Or.inr ⟨⟨e, rfl⟩, rfl⟩
    | ok d => exact Or.inl ⟨rfl, rfl⟩
  have htwo : ∀ (f g : ℂ → ℝ) (a b : ℝ × ℝ → ℝ × ℝ) (s t : List Char),
      ((emit save path name [(v.freqDrawing poles f a, s), (v.freqDrawing poles g b, t)]).2 = .ok () ∧
        (emit save path name [(v.freqDrawing poles f a, s), (v.freqDrawing poles g b, t)]).1.length = 2) ∨
      ((∃ e, (emit save path name [(v.freqDrawing poles f a, s), (v.freqDrawing poles g b, t)]).2 = .error e) ∧
        (emit save path name [(v.freqDrawing poles f a, s), (v.freqDrawing poles g b, t)]).1 = []) := by
    intro f g a b s t
    rcases freqPlot_error_iff v f poles with ⟨h1, -⟩ | ⟨⟨x, h1⟩, k, hk, hlt⟩
    · right
      simp [View.freqDrawing, h1, emit]
    · rcases freqPlot_error_iff v g poles with ⟨-, h2⟩ | ⟨⟨y, h2⟩, -⟩
      · exact absurd (h2 k hk) (not_le.2 hlt)
      · left
        simp [View.freqDrawing, h1, h2, emit]
  cases m with
  | reIm => exact htwo _ _ _ _ _ _
  | absPhase => exact htwo _ _ _ _ _ _
  | _ => exact hone _ _

/-- **C113.**  With `saveplot` each figure gets a file and no figure is shown; without it nothing is written.
Calls of different methods with the same path and name write different files, and so do the figures of one
call. -/
theorem plot_files {v v' : View} {m m' : Method} {poles poles' : Poles} {path name : List Char}
    (h : (v.plot m poles true path name).2 = .ok ()) (h' : (v'.plot m' poles' true path name).2 = .ok ()) :
    (∀ f ∈ (v.plot m poles true path name).1, f.file ≠ none) ∧
    (∀ f ∈ (v.plot m poles false path name).1, f.file = none) ∧
    ((v.plot m poles true path name).1.map Figure.file).Nodup ∧
    (¬ m.Same m' → ∀ f ∈ (v.plot m poles true path name).1, ∀ g ∈ (v'.plot m' poles' true path name).1,
      f.file ≠ g.file) := by
  have hf := emit_files h
  have hf' := emit_files h'
  refine ⟨?_, ?_, ?_, ?_⟩
  · intro f hfm
    have : f.file ∈ (emit true path name (v.figures poles m)).1.map Figure.file := List.mem_map_of_mem hfm
    rw [hf] at this
    obtain ⟨p, -, hp⟩ := List.mem_map.1 this
    rw [← hp]
    simp [output]
  · intro f hfm
    exact emit_show hfm
  · unfold View.plot
    rw [hf, show (fun p : Except Err Drawing × List Char => output true path name p.2) =
      (output true path name) ∘ Prod.snd from rfl, ← List.map_map]
    exact (figures_stems v poles m).1.map fun _ _ => output_inj
  · intro hm f hfm g hgm he
    have h1 : f.file ∈ (emit true path name (v.figures poles m)).1.map Figure.file := List.mem_map_of_mem hfm
    have h2 : g.file ∈ (emit true path name (v'.figures poles' m')).1.map Figure.file := List.mem_map_of_mem hgm
    rw [hf] at h1
    rw [hf'] at h2
    obtain ⟨p, hp, hpe⟩ := List.mem_map.1 h1
    obtain ⟨q, hq, hqe⟩ := List.mem_map.1 h2
    have hs : p.2 = q.2 := output_inj (hpe.trans (he.trans hqe.symm))
    exact hm (stem_same hp hq hs)

/-- **C113.**  The file is in the directory `savepath` if this is empty or ends with a slash. -/
theorem plot_path_partial {v : View} {m : Method} {poles : Poles} {path name : List Char}
    (hp : path = [] ∨ path.getLast? = some '/') {f : Figure}
    (hf : f ∈ (v.plot m poles true path name).1) : ∃ file, f.file = some file ∧ InDirectory file path := by
  obtain ⟨stem, c, hc, hs, hfile⟩ := emit_stem hf
  refine ⟨_, hfile, ?_⟩
  unfold InDirectory
  rcases hp with rfl | hp
  · rw [if_pos rfl]
    simp [List.head?_append, hs, hc]
  · have : path ≠ [] := by rintro rfl; simp at hp
    rw [if_neg this]
    exact ⟨stem ++ '_' :: name ++ ".png".toList, Or.inr ⟨hp, by simp⟩⟩

/-- **C113 is violated**: for a directory without a slash at the end no figure is saved in it; the name of the
directory becomes the beginning of the file name. -/
theorem plot_path_violated {v : View} {m : Method} {poles : Poles} {path name : List Char}
    (hp : path ≠ []) (hl : path.getLast? ≠ some '/') {f : Figure}
    (hf : f ∈ (v.plot m poles true path name).1) : ∃ file, f.file = some file ∧ ¬ InDirectory file path := by
  obtain ⟨stem, c, hc, hs, hfile⟩ := emit_stem hf
  refine ⟨_, hfile, ?_⟩
  unfold InDirectory
  rw [if_neg hp]
  rintro ⟨rest, h | ⟨h, -⟩⟩
  · obtain ⟨t, rfl⟩ : ∃ t, stem = c :: t := by
      cases stem with
      | nil => simp at hs
      | cons a t => simp at hs; exact ⟨t, by rw [hs]⟩
    simp only [List.append_assoc, List.cons_append, List.append_cancel_left_eq, List.cons.injEq] at h
    exact hc h.1
  · exact hl h

/-! ### What is visible -/

/-- **C113.**  `plot_full_trace` draws the averaged trace, all of which is visible, and one curve for each fit
drawn; the whole of this curve is visible if and only if the fit has no delay. -/
theorem full_trace_range {v : View} {n : ℕ} {t0 : ℝ} (hv : Sampled v n t0) (hn : n ≠ 0) {poles : Poles}
    {save : Bool} {path name : List Char} {f : Figure}
    (hf : f ∈ (v.plot .fullTrace poles save path name).1) :
    ∃ l lim, f.drawing = .time v.meanCurve l none (some lim) ∧ l.length = (v.drawn poles).length ∧
      (∀ p ∈ v.meanCurve, lim.1 ≤ p.1 ∧ p.1 ≤ lim.2) ∧
      ∀ (k : ℕ) (fit : PlotFit) (c : Curve), (v.drawn poles)[k]? = some fit → l[k]? = some c →
        (v.fitCurve fit = .ok c ∧ ((∀ p ∈ c, lim.1 ≤ p.1 ∧ p.1 ≤ lim.2) ↔ fit.dt = 0)) := by
  obtain ⟨l, hd, hl⟩ := timeDrawing_ok (emit_single hf)
  obtain ⟨h1, h2⟩ := fullLim_range hv hn
  refine ⟨l, v.fullLim, hd, by simpa using (congrArg List.length hl).symm, h1, fun k fit c hk hc => ?_⟩
  have hfit := collected_at hl hk hc
  exact ⟨hfit, h2 fit c hfit⟩

/-- **C113.**  `plot_single_period_of_trace` draws the averaged trace; visible are its samples up to and
including the first of the next period, and no others. -/
theorem single_period_range {v : View} {n : ℕ} {t0 : ℝ} (hv : Sampled v n t0) {q : ℕ}
    (hp : v.fs = q * v.sgfreq) (hsg : 0 < v.sgfreq) {poles : Poles}
    {save : Bool} {path name : List Char} {f : Figure}
    (hf : f ∈ (v.plot .singlePeriod poles save path name).1) :
    ∃ l lim, f.drawing = .time v.meanCurve l none (some lim) ∧
      ∀ (i : ℕ) p, v.meanCurve[i]? = some p → ((lim.1 ≤ p.1 ∧ p.1 ≤ lim.2) ↔ i ≤ q) := by
  obtain ⟨l, hd, -⟩ := timeDrawing_ok (emit_single hf)
  refine ⟨l, v.periodLim, hd, fun i p hi => ?_⟩
  obtain ⟨-, rfl⟩ := meanCurve_at hi
  exact periodLim_range hv hp hsg

/-- **C113.**  `plot_didv_flipped` draws the averaged trace, the curve of each fit drawn and the flipped
trace: the averaged trace moved by half a period to earlier times and with the opposite sign. -/
theorem flipped_drawn {v : View} {poles : Poles} {save : Bool} {path name : List Char} {f : Figure}
    (hf : f ∈ (v.plot .flipped poles save path name).1) :
    ∃ l flip, f.drawing = .time v.meanCurve l (some flip) none ∧
      List.Forall₂ (fun fit c => v.fitCurve fit = .ok c) (v.drawn poles) l ∧
      flip = v.meanCurve.map fun p => (p.1 - 1 / v.sgfreq / 2 * 10 ^ 6, -p.2) := by
  have h := emit_single hf
  simp only [View.timePlot] at h
  cases hc : collect ((v.drawn poles).map v.fitCurve) with
  | error e => simp [hc] at h
  | ok l =>
    simp only [hc, Except.ok.injEq] at h
    refine ⟨l, v.flippedCurve, h.symm, ?_, ?_⟩
    · rw [← List.forall₂_map_right_iff (f := Except.ok) (R := fun fit c => v.fitCurve fit = c),
        ← collect_ok hc, List.forall₂_map_right_iff, List.forall₂_same]
      exact fun _ _ => rfl
    · simp only [View.flippedCurve, View.meanCurve, List.map_map]
      refine List.map_congr_left fun i _ => ?_
      simp only [Function.comp_apply, Prod.mk.injEq]
      constructor <;> ring

example (path name : List Char) : ∃ a, ((ohmView none none).plot .flipped .all true path name).1 = [a] := by
  simp [View.plot, View.figures, View.timePlot, View.drawn, ohmView, viewOf, collect, emit, Poles.has]

/-- **C113.**  `plot_re_vs_im_dvdi` draws the averaged impedance and one curve for each fit drawn. -/
theorem plane_drawn (v : View) (poles : Poles) (save : Bool) (path name : List Char) :
    ∃ f, v.plot .reVsIm poles save path name = ([f], .ok ()) ∧
      f.drawing = .plane v.dvdiPoints ((v.drawn poles).map v.dvdiFit) := ⟨_, rfl, rfl⟩

/-- **C113.**  `plot_re_im_didv` draws the real part, in the file for it, and then the imaginary part; all data
points below 100 kHz are visible. -/
theorem re_im_range {v : View} {poles : Poles} {path name : List Char} {a b : Figure}
    (h : (v.plot .reIm poles true path name).1 = [a, b]) :
    ∃ g g', a.drawing = .freq g ∧ b.drawing = .freq g' ∧
      a.file = some (path ++ "didv_real_".toList ++ name ++ ".png".toList) ∧
      b.file = some (path ++ "didv_imag_".toList ++ name ++ ".png".toList) ∧
      g.data = v.dataPoints Complex.re ∧ g'.data = v.dataPoints Complex.im ∧
      (∀ p ∈ g.data, p.1 < 10 ^ 5 → g.ylim.1 ≤ p.2 ∧ p.2 ≤ g.ylim.2) ∧
      ∀ p ∈ g'.data, p.1 < 10 ^ 5 → g'.ylim.1 ≤ p.2 ∧ p.2 ≤ g'.ylim.2 := by
  obtain ⟨ha, hb⟩ := emit_pair h
  obtain ⟨g, hg, hga⟩ := freqDrawing_ok ha
  obtain ⟨g', hg', hgb⟩ := freqDrawing_ok hb
  refine ⟨g, g', hga, hgb, ?_, ?_, freqPlot_data hg, freqPlot_data hg', ?_, ?_⟩
  · rw [emit_pair_file h]; simp [output]
  · rw [emit_pair_file' h]; simp [output]
  · exact freqPlot_visible hg
  · exact freqPlot_visible hg'

/-- **C113.**  `plot_abs_phase_didv` draws the modulus from zero, with all data points below 100 kHz visible,
and then the phase with every data point, bound and fit visible. -/
theorem abs_phase_range {v : View} {poles : Poles} {path name : List Char} {a b : Figure}
    (h : (v.plot .absPhase poles true path name).1 = [a, b]) :
    ∃ g g', a.drawing = .freq g ∧ b.drawing = .freq g' ∧
      a.file = some (path ++ "didv_abs_".toList ++ name ++ ".png".toList) ∧
      b.file = some (path ++ "didv_phase_".toList ++ name ++ ".png".toList) ∧
      g.data = v.dataPoints (fun z => ‖z‖) ∧ g'.data = v.dataPoints Complex.arg ∧
      (0 < g.ylim.2 ∧ g.ylim.1 = 0 ∧ ∀ p ∈ g.data, p.1 < 10 ^ 5 → g.ylim.1 ≤ p.2 ∧ p.2 ≤ g.ylim.2) ∧
      (∀ p ∈ g'.data ++ g'.upper ++ g'.lower, g'.ylim.1 ≤ p.2 ∧ p.2 ≤ g'.ylim.2) ∧
      ∀ c ∈ g'.fits, ∀ p ∈ c, ∀ y, p.2 = some y → g'.ylim.1 ≤ y ∧ y ≤ g'.ylim.2 := by
  obtain ⟨ha, hb⟩ := emit_pair h
  obtain ⟨g, hg, hga⟩ := freqDrawing_ok ha
  obtain ⟨g', hg', hgb⟩ := freqDrawing_ok hb
  rw [hga] at ha
  rw [hgb] at hb
  obtain ⟨p1, p2⟩ := phaseDrawing_range hb
  have e1 := freqPlot_data hg
  have e2 := freqPlot_data hg'
  refine ⟨_, _, hga, hgb, ?_, ?_, e1, e2, absDrawing_range ha, p1, p2⟩
  · rw [emit_pair_file h]; simp [output]
  · rw [emit_pair_file' h]; simp [output]

-- the plots in frequency of an ohmic device return
example (path name : List Char) : ∃ a b, ((ohmView none none).plot .absPhase .all true path name).1 = [a, b] := by
  rcases plot_all_or_none (ohmView none none) .absPhase .all true path name with ⟨-, h⟩ | ⟨⟨e, h⟩, -⟩
  · exact List.length_eq_two.1 h
  · exfalso
    have hr := fun fn => (freqPlot_range (ohmView none none) fn .all).2 ⟨1, ohm_bin _ _, by rw [ohm_freq]; norm_num⟩
    obtain ⟨g, hg, -⟩ := hr fun z => ‖z‖
    obtain ⟨g', hg', -⟩ := hr Complex.arg
    simp [View.plot, View.figures, View.freqDrawing, hg, hg', emit] at h

-- and so do those in time
example (path name : List Char) : ∃ a, ((ohmView none none).plot .fullTrace .all true path name).1 = [a] := by
  simp [View.plot, View.figures, View.timeDrawing, View.timePlot, View.drawn, ohmView, viewOf, collect,
    View.timeLim, emit, Poles.has]

end Verif.Didv
