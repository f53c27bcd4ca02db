import Verif.IbisPlotLemmas

/-! C108: the plots of IBIS objects. -/

namespace Verif.IbisPlot
open Verif Ibis
open Verif.Iv (A3 Nd ValErr)
open Verif.IvPlot (Sel axis fitLine axis_ok axis_bad flatten_getElem)

/-- With the default selection `plot_iv` draws one curve per temperature and channel, whose marks are
exactly the analysed readings, in microvolts and microamperes, with the errors of both. -/
theorem drawIv_all (o : Obj) (r : Result) (showfit : Bool) (h : showfit = true → 0 < o.data.n2) :
    ∃ cs, drawIv o (some r) .all .all showfit = .ok cs ∧ cs.length = o.data.n0 * o.data.n1 ∧
      ∀ t < o.data.n0, ∀ c < o.data.n1, ∃ cv, cs[t * o.data.n1 + c]? = some cv ∧ cv.chan = c ∧
        (cv.temp = some (t : ℤ) ↔ 1 < o.data.n0) ∧
        ∀ mk, mk ∈ cv.marks ↔ ∃ i < o.data.n2, ∃ v w, r.vb t c i = some v ∧ r.ites t c i = some w ∧
          mk = ⟨v.val * 10 ^ 6, w.val * 10 ^ 6, v.err * 10 ^ 6, w.err * 10 ^ 6⟩ := by
  have hline : ∀ t c, ∃ l, showfit = true →
      fitLine ((List.range o.data.n2).map fun (k : ℕ) => (r.vb t c k).map ValErr.val) (r.rfit t c).val =
        .ok l := by
    intro t c
    by_cases hs : showfit = true
    · obtain ⟨l, hl⟩ := fitLine_ne (vb := (List.range o.data.n2).map fun (k : ℕ) => (r.vb t c k).map ValErr.val)
        (by simpa using (h hs).ne') (r.rfit t c).val
      exact ⟨l, fun _ => hl⟩
    · exact ⟨[], fun h => absurd h hs⟩
  choose ln hln using hline
  have key : drawIv o (some r) .all .all showfit = _ :=
    loops_all (f := fun t c => (⟨tempLabel o t, c, marks o.data.n2 (10 ^ 6) (r.vb t c) (r.ites t c),
      if showfit then ln t c else []⟩ : Curve)) (by
    intro t _ c _
    by_cases hs : showfit = true
    · simp only [hs, if_true, hln t c hs]
    · simp only [hs]
      rfl)
  refine ⟨_, key, ?_, fun t ht c hc => ⟨_, flatten_getElem _ _ _ t c ht hc, rfl, ?_, fun mk => ?_⟩⟩
  · rw [List.length_flatten]
    simp [List.map_map, Function.comp_def, List.map_const']
  · simp only [tempLabel]
    split_ifs with h1 <;> simp [h1]
  · exact mem_marks

example : 0 < (demo true none).data.n2 ∧ 0 < (demo true none).data.n0 := by
  simp [demo]

/-- The same for `plot_rv` (milliohms) and `plot_pv` (picowatts). -/
theorem drawRv_drawPv_all (o : Obj) (r : Result) :
    ∃ cr cp, drawRv o (some r) .all .all = .ok cr ∧ drawPv o (some r) .all .all = .ok cp ∧
      ∀ t < o.data.n0, ∀ c < o.data.n1, ∃ vr vp, cr[t * o.data.n1 + c]? = some vr ∧
        cp[t * o.data.n1 + c]? = some vp ∧
        (∀ mk, mk ∈ vr.marks ↔ ∃ i < o.data.n2, ∃ v w, r.vb t c i = some v ∧ r.r0 t c i = some w ∧
          mk = ⟨v.val * 10 ^ 6, w.val * 10 ^ 3, v.err * 10 ^ 6, w.err * 10 ^ 3⟩) ∧
        ∀ mk, mk ∈ vp.marks ↔ ∃ i < o.data.n2, ∃ v w, r.vb t c i = some v ∧ r.ptes t c i = some w ∧
          mk = ⟨v.val * 10 ^ 6, w.val * 10 ^ 12, v.err * 10 ^ 6, w.err * 10 ^ 12⟩ := by
  have k1 : drawRv o (some r) .all .all = _ := loops_all
    (f := fun t c => (⟨tempLabel o t, c, marks o.data.n2 (10 ^ 3) (r.vb t c) (r.r0 t c), []⟩ : Curve))
    (fun t _ c _ => rfl)
  have k2 : drawPv o (some r) .all .all = _ := loops_all
    (f := fun t c => (⟨tempLabel o t, c, marks o.data.n2 (10 ^ 12) (r.vb t c) (r.ptes t c), []⟩ : Curve))
    (fun t _ c _ => rfl)
  exact ⟨_, _, k1, k2, fun t ht c hc => ⟨_, _, flatten_getElem _ _ _ t c ht hc,
    flatten_getElem _ _ _ t c ht hc, fun mk => mem_marks, fun mk => mem_marks⟩⟩

/-- Numbers select one temperature and one channel; negative ones count from the end; others raise
IndexError, and nothing can be plotted before `analyze`. -/
theorem draw_one (o : Obj) (r : Result) (i j : ℤ) :
    (∀ t c : ℕ, t < o.data.n0 → c < o.data.n1 → (i = t ∨ i = (t : ℤ) - o.data.n0) →
      (j = c ∨ j = (c : ℤ) - o.data.n1) → ∃ cv, drawRv o (some r) (.one i) (.one j) = .ok [cv] ∧ cv.chan = c ∧
        ∀ mk, mk ∈ cv.marks ↔ ∃ i < o.data.n2, ∃ v w, r.vb t c i = some v ∧ r.r0 t c i = some w ∧
          mk = ⟨v.val * 10 ^ 6, w.val * 10 ^ 3, v.err * 10 ^ 6, w.err * 10 ^ 3⟩) ∧
    (((i < -(o.data.n0 : ℤ) ∨ (o.data.n0 : ℤ) ≤ i) ∨ (j < -(o.data.n1 : ℤ) ∨ (o.data.n1 : ℤ) ≤ j)) →
      drawIv o (some r) (.one i) (.one j) true = .error .indexError ∧
      drawRv o (some r) (.one i) (.one j) = .error .indexError ∧
      drawPv o (some r) (.one i) (.one j) = .error .indexError) ∧
    ∀ temps chans cs, (drawIv o none temps chans true = .ok cs → cs = []) ∧
      (drawRv o none temps chans = .ok cs → cs = []) ∧ (drawPv o none temps chans = .ok cs → cs = []) := by
  refine ⟨fun t c ht hc hi hj => ?_, fun h => ?_, fun temps chans cs => ⟨fun h => ?_, fun h => ?_, fun h => ?_⟩⟩
  · exact ⟨_, loops_one (axis_ok ht hi) (axis_ok hc hj) rfl, rfl, fun mk => mem_marks⟩
  · have hb : axis o.data.n0 i = .error .indexError ∨ axis o.data.n1 j = .error .indexError :=
      h.imp axis_bad axis_bad
    exact ⟨loops_bad hb, loops_bad hb, loops_bad hb⟩
  all_goals exact loops_error (fun i t c cv h => by cases h) h

example : ((0 : ℕ) < (demo true none).data.n0 ∧ (0 : ℕ) < (demo true none).data.n1) ∧
    ((-1 : ℤ) = ((0 : ℕ) : ℤ) - (demo true none).data.n0) := by
  simp [demo]

/-- Before `analyze` every plot of a data set that is not empty raises TypeError, with the default selection
and with one temperature and channel. -/
theorem draw_before_analyze (o : Obj) (showfit : Bool) (h0 : 0 < o.data.n0) (h1 : 0 < o.data.n1) {i j : ℤ}
    {t c : ℕ} (ht : t < o.data.n0) (hc : c < o.data.n1) (hi : i = t ∨ i = (t : ℤ) - o.data.n0)
    (hj : j = c ∨ j = (c : ℤ) - o.data.n1) {temps chans : Sel}
    (hs : (temps = .all ∧ chans = .all) ∨ (temps = .one i ∧ chans = .one j)) :
    drawIv o none temps chans showfit = .error .typeError ∧ drawRv o none temps chans = .error .typeError ∧
      drawPv o none temps chans = .error .typeError := by
  rcases hs with ⟨rfl, rfl⟩ | ⟨rfl, rfl⟩
  · exact ⟨loops_all_error h0 h1 fun _ _ _ => rfl, loops_all_error h0 h1 fun _ _ _ => rfl,
      loops_all_error h0 h1 fun _ _ _ => rfl⟩
  · exact ⟨loops_one_error (axis_ok ht hi) (axis_ok hc hj) rfl,
      loops_one_error (axis_ok ht hi) (axis_ok hc hj) rfl, loops_one_error (axis_ok ht hi) (axis_ok hc hj) rfl⟩

example : (0 : ℕ) < (demo true none).data.n0 ∧ (0 : ℕ) < (demo true none).data.n1 := by
  simp [demo]

/-- Partial form of the fit line of C108: with the offsets found by the fits, with or without the
superconducting fit, a reading on the fitted normal line is drawn on the drawn line.  Missing: offsets given
by the user. -/
theorem normal_on_line_partial {o : Obj} {res : Result} (h : analyze o .none .none = .ok res)
    (hr : o.rsh ≠ 0) {t c i : ℕ} (ht : t < o.data.n0) (hc : c < o.data.n1) {rd : Reading}
    (hd : o.data.get t c i = some rd) (hlin : rd.dites = res.slopeN t c * rd.ibias + res.intN t c)
    {l : List (ℝ × ℝ)} {vb : List (Option ℝ)} (hl : fitLine vb (res.rfit t c).val = .ok l) :
    (∀ p ∈ l, p.2 * (res.rfit t c).val = p.1) ∧
      ∃ v w, res.vb t c i = some v ∧ res.ites t c i = some w ∧
        (w.val * 10 ^ 6) * (res.rfit t c).val = v.val * 10 ^ 6 := by
  obtain ⟨nf, sf, src, ioff, ibo, rp, h1, h2, h3, h4, rfl⟩ := analyze_ok h
  obtain ⟨ln, hn, _, _, hdn, en, hmn⟩ := fits_ok h1 ht hc
  unfold offsets at h3
  cases h3
  simp only [assemble] at hlin hl ⊢
  refine ⟨mem_fitLine (mul_ne_zero (one_div_ne_zero hmn) hr) hl, ?_⟩
  simp only [hd, Option.map_some]
  refine ⟨_, _, rfl, rfl, ?_⟩
  simp only [hlin, intY]
  split_ifs with hs
  · field_simp
    ring
  · simp only [intX, hs, Bool.false_eq_true, if_false]
    field_simp
    ring

example : ∃ res rd, analyze (demo true none) .none .none = .ok res ∧ (demo true none).rsh ≠ 0 ∧
    (demo true none).data.get 0 0 1 = some rd ∧ rd.dites = res.slopeN 0 0 * rd.ibias + res.intN 0 0 := by
  obtain ⟨res, e, h0, h1, _⟩ := demo_sc none
  refine ⟨res, _, e, by norm_num [demo], rfl, ?_⟩
  rw [h0, h1]
  norm_num

/-- Full C108 is false: if the current offset is given by the user and differs from the fitted one, the
readings of the normal branch are drawn off the line drawn as their fit. -/
theorem normal_on_line_violated {o : Obj} {res : Result} {a : A3 ValErr}
    (h : analyze o (.array a) .none = .ok res) (hr : o.rsh ≠ 0) {t c i : ℕ} (ht : t < o.data.n0)
    (hc : c < o.data.n1) {rd : Reading} (hd : o.data.get t c i = some rd)
    (hlin : rd.dites = res.slopeN t c * rd.ibias + res.intN t c)
    (ha : (a.get t c i).val ≠ res.slopeN t c * (res.ibiasOff t c).val + res.intN t c)
    {l : List (ℝ × ℝ)} {vb : List (Option ℝ)} (hl : fitLine vb (res.rfit t c).val = .ok l) :
    (∀ p ∈ l, p.2 * (res.rfit t c).val = p.1) ∧
      ∃ v w, res.vb t c i = some v ∧ res.ites t c i = some w ∧
        (w.val * 10 ^ 6) * (res.rfit t c).val ≠ v.val * 10 ^ 6 := by
  obtain ⟨nf, sf, src, ioff, ibo, rp, h1, h2, h3, h4, rfl⟩ := analyze_ok h
  obtain ⟨ln, hn, _, _, hdn, en, hmn⟩ := fits_ok h1 ht hc
  unfold offsets at h3
  cases h3
  simp only [assemble] at hlin ha hl ⊢
  refine ⟨mem_fitLine (mul_ne_zero (one_div_ne_zero hmn) hr) hl, ?_⟩
  simp only [hd, Option.map_some]
  refine ⟨_, _, rfl, rfl, fun e => ha ?_⟩
  simp only [hlin] at e
  field_simp at e
  linarith

example : ∃ res rd, analyze (demo true none) (.array ⟨1, 1, 6, fun _ _ _ => ⟨0, 0⟩⟩) .none = .ok res ∧
    (demo true none).data.get 0 0 1 = some rd ∧ rd.dites = res.slopeN 0 0 * rd.ibias + res.intN 0 0 ∧
    (0 : ℝ) ≠ res.slopeN 0 0 * (res.ibiasOff 0 0).val + res.intN 0 0 := by
  obtain ⟨res, e, h0, h1, _, _, h4, _⟩ := demo_sc none
  obtain ⟨nf, sf, src, ioff, ibo, rp, k1, k2, k3, k4, rfl⟩ := analyze_ok e
  unfold offsets at k3
  cases k3
  refine ⟨assemble (demo true none) (fitAt nf) (fitAt sf) (fun _ _ _ => ⟨0, 0⟩)
    (fun t c _ => ⟨intX (demo true none).fitsc (fitAt nf t c) (fitAt sf t c), intXErr (fitAt nf t c) (fitAt sf t c)⟩)
    rp, _, ?_, rfl, ?_, ?_⟩
  · unfold analyze
    simp only [k1, k2, k4, offsets]
  · simp only [assemble] at h0 h1 ⊢
    rw [h0, h1]
    norm_num
  · simp only [assemble] at h0 h1 h4 ⊢
    rw [h0, h1, (congrArg ValErr.val h4 : intX _ _ _ = 1)]
    norm_num

/-- Partial form of the last part of C108: without `lgcsave` the figure is returned and no file written, and
`plot_all_curves` with `lgcsave` writes the three figures.  Missing: the other methods with `lgcsave`. -/
theorem save_partial (o : Obj) (res : Option Result) (temps chans : Sel) (showfit : Bool)
    (d : Except Err (List Curve)) :
    method d false = ⟨d, []⟩ ∧
    ∀ a b c, drawIv o res temps chans showfit = .ok a → drawRv o res temps chans = .ok b →
      drawPv o res temps chans = .ok c → plotAll o res temps chans showfit true = ⟨.ok (), [a, b, c]⟩ := by
  constructor
  · cases d <;> rfl
  · intro a b c ha hb hc
    unfold plotAll
    rw [ha, hb, hc]
    rfl

example (r : Result) : ∃ a b c, drawIv (demo true none) (some r) .all .all true = .ok a ∧
    drawRv (demo true none) (some r) .all .all = .ok b ∧ drawPv (demo true none) (some r) .all .all = .ok c := by
  obtain ⟨a, ha, _⟩ := drawIv_all (demo true none) r true (by simp [demo])
  obtain ⟨b, c, hb, hc, _⟩ := drawRv_drawPv_all (demo true none) r
  exact ⟨a, b, c, ha, hb, hc⟩

/-- `plot_iv`, `plot_rv` and `plot_pv` of an IBIS object with `lgcsave=True` never return: the file is
written, then TypeError is raised. -/
theorem save_violated (d : Except Err (List Curve)) :
    (∀ r, (method d true).ret ≠ .ok r) ∧ ∀ cs, d = .ok cs → method d true = ⟨.error .typeError, [cs]⟩ := by
  cases d with
  | error e => exact ⟨fun r h => (by cases h), fun cs h => (by cases h)⟩
  | ok cs =>
    refine ⟨fun r h => (by cases h), fun cs' h => ?_⟩
    cases h
    rfl

example (r : Result) : ∃ a, drawIv (demo true none) (some r) .all .all true = .ok a :=
  let ⟨a, ha, _⟩ := drawIv_all (demo true none) r true (by simp [demo])
  ⟨a, ha⟩

end Verif.IbisPlot
