import Verif.IvPlotLemmas
import Verif.IvProps

/-! C96: the plots of IV objects. -/

namespace Verif.IvPlot
open Verif Iv

/-- With the default selection `plot_iv` draws one curve per temperature and channel, whose marks are
exactly the readings, in microvolts and microamperes, with their errors. -/
theorem drawIv_all (o : Obj) (r : Result) (showfit : Bool) (h : showfit = true → 0 < o.data.n2) :
    ∃ cs, drawIv o (some r) .all .all showfit = .ok cs ∧ cs.length = o.data.n0 * o.data.n1 ∧
      ∀ t < o.data.n0, ∀ c < o.data.n1, ∃ cv, cs[t * o.data.n1 + c]? = some cv ∧ cv.chan = c ∧
        (cv.temp = some (t : ℤ) ↔ 1 < o.data.n0) ∧
        ∀ mk, mk ∈ cv.marks ↔ ∃ i < o.data.n2, ∃ rd w, o.data.get t c i = some rd ∧ r.ites t c i = some w ∧
          mk = ⟨rd.vb * 10 ^ 6, w * 10 ^ 6, (r.itesErr t c i).map (· * 10 ^ 6)⟩ := by
  have hline : ∀ t c, ∃ l, showfit = true →
      fitLine ((List.range o.data.n2).map (vbRow o t c)) (r.rfit t c) = .ok l := by
    intro t c
    by_cases hs : showfit = true
    · have hne : (List.range o.data.n2).map (vbRow o t c) ≠ [] := by
        simpa using (h hs).ne'
      obtain ⟨v, l, e⟩ := List.exists_cons_of_ne_nil hne
      unfold fitLine
      rw [e]
      unfold vbfit
      simp only
      split_ifs
      · cases pyMax v l with
        | none => exact ⟨_, fun _ => rfl⟩
        | some b => exact ⟨_, fun _ => rfl⟩
      · cases pyMax (v.map (-·)) (l.map (Option.map (-·))) with
        | none => exact ⟨_, fun _ => rfl⟩
        | some b => exact ⟨_, fun _ => rfl⟩
    · exact ⟨[], fun h => absurd h hs⟩
  choose ln hln using hline
  have key := loops_all (o := o) (f := fun t c => (⟨tempLabel o t, c, marks o.data.n2 (10 ^ 6) (vbRow o t c)
      (r.ites t c) (r.itesErr t c), if showfit then ln t c else []⟩ : Curve))
    (body := fun i t c =>
      let vb := vbRow o t c
      if showfit then
        match fitLine ((List.range o.data.n2).map vb) (r.rfit t c) with
        | .error e => .error e
        | .ok l => .ok ⟨tempLabel o i, c, marks o.data.n2 (10 ^ 6) vb (r.ites t c) (r.itesErr t c), l⟩
      else .ok ⟨tempLabel o i, c, marks o.data.n2 (10 ^ 6) vb (r.ites t c) (r.itesErr t c), []⟩) (by
    intro t _ c _
    by_cases hs : showfit = true
    · simp only [hs, if_true, hln t c hs]
    · simp only [hs]
      rfl)
  refine ⟨_, key, ?_, fun t ht c hc => ⟨_, flatten_getElem _ _ _ t c ht hc, rfl, ?_, fun mk => ?_⟩⟩
  · rw [List.length_flatten]
    simp [List.map_map, Function.comp_def, List.map_const']
  · simp only [tempLabel]
    split_ifs with h1 <;> simp [h1]
  · simp only [mem_marks, vbRow, Option.map_eq_some_iff]
    constructor
    · rintro ⟨i, hi, v, w, ⟨rd, hrd, rfl⟩, hw, rfl⟩
      exact ⟨i, hi, rd, w, hrd, hw, rfl⟩
    · rintro ⟨i, hi, rd, w, hrd, hw, rfl⟩
      exact ⟨i, hi, rd.vb, w, ⟨rd, hrd, rfl⟩, hw, rfl⟩

example : 0 < (demo (some [0, 1, 2])).data.n2 ∧ 0 < (demo (some [0, 1, 2])).data.n0 := by
  simp [demo]

/-- The same for `plot_rv` (milliohms) and `plot_pv` (picowatts). -/
theorem drawRv_drawPv_all (o : Obj) (r : Result) :
    ∃ cr cp, drawRv o (some r) .all .all = .ok cr ∧ drawPv o (some r) .all .all = .ok cp ∧
      ∀ t < o.data.n0, ∀ c < o.data.n1, ∃ vr vp, cr[t * o.data.n1 + c]? = some vr ∧
        cp[t * o.data.n1 + c]? = some vp ∧
        (∀ mk, mk ∈ vr.marks ↔ ∃ i < o.data.n2, ∃ rd w, o.data.get t c i = some rd ∧ r.r0 t c i = some w ∧
          mk = ⟨rd.vb * 10 ^ 6, w * 10 ^ 3, (r.r0Err t c i).map (· * 10 ^ 3)⟩) ∧
        ∀ mk, mk ∈ vp.marks ↔ ∃ i < o.data.n2, ∃ rd w, o.data.get t c i = some rd ∧ r.ptes t c i = some w ∧
          mk = ⟨rd.vb * 10 ^ 6, w * 10 ^ 12, (r.ptesErr t c i).map (· * 10 ^ 12)⟩ := by
  have k1 := loops_all (o := o) (f := fun t c => (⟨tempLabel o t, c, marks o.data.n2 (10 ^ 3) (vbRow o t c)
      (r.r0 t c) (r.r0Err t c), []⟩ : Curve)) (body := fun i t c =>
      .ok ⟨tempLabel o i, c, marks o.data.n2 (10 ^ 3) (vbRow o t c) (r.r0 t c) (r.r0Err t c), []⟩)
    (fun t _ c _ => rfl)
  have k2 := loops_all (o := o) (f := fun t c => (⟨tempLabel o t, c, marks o.data.n2 (10 ^ 12) (vbRow o t c)
      (r.ptes t c) (r.ptesErr t c), []⟩ : Curve)) (body := fun i t c =>
      .ok ⟨tempLabel o i, c, marks o.data.n2 (10 ^ 12) (vbRow o t c) (r.ptes t c) (r.ptesErr t c), []⟩)
    (fun t _ c _ => rfl)
  refine ⟨_, _, k1, k2, fun t ht c hc => ⟨_, _, flatten_getElem _ _ _ t c ht hc,
    flatten_getElem _ _ _ t c ht hc, fun mk => ?_, fun mk => ?_⟩⟩ <;>
  · simp only [mem_marks, vbRow, Option.map_eq_some_iff]
    constructor
    · rintro ⟨i, hi, v, w, ⟨rd, hrd, rfl⟩, hw, rfl⟩
      exact ⟨i, hi, rd, w, hrd, hw, rfl⟩
    · rintro ⟨i, hi, rd, w, hrd, hw, rfl⟩
      exact ⟨i, hi, rd.vb, w, ⟨rd, hrd, rfl⟩, hw, rfl⟩

example : ∃ r, calcIv (demo (some [0, 1, 2])) = .ok r :=
  let ⟨res, e, _⟩ := demo_calcIv
  ⟨res, e⟩

/-- Numbers select one temperature and one channel; negative ones count from the end; others raise
IndexError, and nothing can be plotted before `calc_iv`. -/
theorem draw_one (o : Obj) (r : Result) (i j : ℤ) :
    (∀ t c : ℕ, t < o.data.n0 → c < o.data.n1 → (i = t ∨ i = (t : ℤ) - o.data.n0) →
      (j = c ∨ j = (c : ℤ) - o.data.n1) → ∃ cv, drawRv o (some r) (.one i) (.one j) = .ok [cv] ∧ cv.chan = c ∧
        cv.marks = marks o.data.n2 (10 ^ 3) (vbRow o t c) (r.r0 t c) (r.r0Err t c)) ∧
    (((i < -(o.data.n0 : ℤ) ∨ (o.data.n0 : ℤ) ≤ i) ∨ (j < -(o.data.n1 : ℤ) ∨ (o.data.n1 : ℤ) ≤ j)) →
      drawIv o (some r) (.one i) (.one j) true = .error .indexError ∧
      drawRv o (some r) (.one i) (.one j) = .error .indexError ∧
      drawPv o (some r) (.one i) (.one j) = .error .indexError) ∧
    (∀ temps chans, drawRv o none temps chans = .error .attributeError ∧
      drawPv o none temps chans = .error .attributeError ∧
      ∀ cs, drawIv o none temps chans true = .ok cs → cs = []) := by
  refine ⟨fun t c ht hc hi hj => ?_, fun h => ?_, fun temps chans => ⟨rfl, rfl, fun cs hcs => ?_⟩⟩
  · exact ⟨_, loops_one (axis_ok ht hi) (axis_ok hc hj) rfl, rfl, rfl⟩
  · have hb : axis o.data.n0 i = .error .indexError ∨ axis o.data.n1 j = .error .indexError :=
      h.imp axis_bad axis_bad
    exact ⟨loops_bad hb, loops_bad hb, loops_bad hb⟩
  · exact loops_error (fun i t c cv h => by cases h) hcs

example : ((0 : ℕ) < (demo none).data.n0 ∧ (0 : ℕ) < (demo none).data.n1) ∧
    ((-1 : ℤ) = ((0 : ℕ) : ℤ) - (demo none).data.n0) := by
  simp [demo]

/-- Partial form of the fit line of C96: without padding and with biases of one sign the line reaches from
the origin to the extreme bias, so that it covers every bias point.  Missing: padded data and biases of both
signs. -/
theorem fitLine_partial {l : List ℝ} (rfit : ℝ) :
    ((∀ v ∈ l, 0 ≤ v) → (∃ v ∈ l, 0 < v) → ∃ b ln, fitLine (l.map some) rfit = .ok ln ∧ b ∈ l ∧
      (∀ v ∈ l, v ≤ b) ∧ (0, 1 / rfit * 0) ∈ ln ∧ (b * 10 ^ 6, 1 / rfit * (b * 10 ^ 6)) ∈ ln ∧
      ∀ p ∈ ln, 0 ≤ p.1 ∧ p.1 ≤ b * 10 ^ 6) ∧
    ((∀ v ∈ l, v ≤ 0) → l ≠ [] → ∃ b ln, fitLine (l.map some) rfit = .ok ln ∧ b ∈ l ∧
      (∀ v ∈ l, b ≤ v) ∧ (0, 1 / rfit * 0) ∈ ln ∧ (b * 10 ^ 6, 1 / rfit * (b * 10 ^ 6)) ∈ ln ∧
      ∀ p ∈ ln, b * 10 ^ 6 ≤ p.1 ∧ p.1 ≤ 0) := by
  have hnone : ∀ l : List ℝ, none ∉ l.map some := by
    intro l h
    obtain ⟨_, _, h⟩ := List.mem_map.1 h
    cases h
  have hfm : ∀ l : List ℝ, (l.map some).filterMap id = l := by
    intro l
    induction l with
    | nil => rfl
    | cons a l ih => simp
  have hpos : ∀ l : List ℝ, l ≠ [] → ∃ w ∈ l, (∀ v ∈ l, |v| ≤ |w|) ∧
      (positive (l.map some) = true ↔ 0 < w) := by
    intro l hl
    obtain ⟨w, h1, h2, h3⟩ := farthest_spec l hl
    refine ⟨w, h2, h3, ?_⟩
    unfold positive
    rw [if_neg (hnone l), hfm, h1]
    simp
  constructor
  · rintro h0 ⟨v0, hv0, hp⟩
    have hl : l ≠ [] := List.ne_nil_of_mem hv0
    obtain ⟨w, hw, hmax, hiff⟩ := hpos l hl
    have hwpos : 0 < w := by
      have h1 := hmax v0 hv0
      rw [abs_of_nonneg (h0 w hw), abs_of_pos hp] at h1
      linarith
    obtain ⟨a, l', rfl⟩ := List.exists_cons_of_ne_nil hl
    obtain ⟨b, e, hab, hb, hmem⟩ := pyMax_some (l'.map some) a
    have hbl : b ∈ a :: l' := by
      rcases hmem with rfl | h
      · exact List.mem_cons_self
      · obtain ⟨x, hx, hxe⟩ := List.mem_map.1 h
        cases hxe
        exact List.mem_cons_of_mem _ hx
    have hb0 : 0 ≤ b * 10 ^ 6 := mul_nonneg (h0 b hbl) (by norm_num)
    have hv : vbfit ((a :: l').map some) = .ok (linspace 0 (b * 10 ^ 6)) := by
      have hp' := hiff.2 hwpos
      rw [List.map_cons] at hp' ⊢
      unfold vbfit
      simp only [hp', if_true, e]
    refine ⟨b, _, by unfold fitLine; rw [hv], hbl, ?_, ?_, ?_, ?_⟩
    · intro v hv
      rcases List.mem_cons.1 hv with rfl | h
      · exact hab
      · exact hb v (List.mem_map_of_mem h)
    · exact List.mem_map.2 ⟨0, (linspace_ends _ _).1, rfl⟩
    · exact List.mem_map.2 ⟨b * 10 ^ 6, (linspace_ends _ _).2, rfl⟩
    · intro p hp
      obtain ⟨x, hx, rfl⟩ := List.mem_map.1 hp
      exact mem_linspace hb0 hx
  · intro h0 hl
    obtain ⟨w, hw, hmax, hiff⟩ := hpos l hl
    obtain ⟨a, l', rfl⟩ := List.exists_cons_of_ne_nil hl
    obtain ⟨b, e, hab, hb, hmem⟩ := pyMax_some ((l'.map some).map (Option.map (-·))) (-a)
    have hbl : -b ∈ a :: l' := by
      rcases hmem with rfl | h
      · simp
      · simp only [List.map_map, List.mem_map, Function.comp_apply, Option.map_some, Option.some.injEq] at h
        obtain ⟨x, hx, hxe⟩ := h
        rw [← hxe, neg_neg]
        exact List.mem_cons_of_mem _ hx
    have hb0 : -b * 10 ^ 6 ≤ 0 := mul_nonpos_of_nonpos_of_nonneg (h0 _ hbl) (by norm_num)
    have hv : vbfit ((a :: l').map some) = .ok (linspace (-b * 10 ^ 6) 0) := by
      have hp' : ¬ positive ((a :: l').map some) = true := fun h =>
        absurd (hiff.1 h) (not_lt.2 (h0 w hw))
      rw [List.map_cons] at hp' ⊢
      unfold vbfit
      simp only [hp', Option.map_some, e]
      rfl
    refine ⟨-b, _, by unfold fitLine; rw [hv], hbl, ?_, ?_, ?_, ?_⟩
    · intro v hv
      rcases List.mem_cons.1 hv with rfl | h
      · linarith
      · have := hb (-v) (by
          simp only [List.map_map, List.mem_map, Function.comp_apply, Option.map_some, Option.some.injEq]
          exact ⟨v, h, rfl⟩)
        linarith
    · exact List.mem_map.2 ⟨0, (linspace_ends _ _).2, rfl⟩
    · exact List.mem_map.2 ⟨-b * 10 ^ 6, (linspace_ends _ _).1, rfl⟩
    · intro p hp
      obtain ⟨x, hx, rfl⟩ := List.mem_map.1 hp
      exact mem_linspace hb0 hx

example : (∀ v ∈ [(3 : ℝ), 2, 0], 0 ≤ v) ∧ ∃ v ∈ [(3 : ℝ), 2, 0], 0 < v := by
  constructor
  · intro v hv
    fin_cases hv <;> norm_num
  · exact ⟨3, by simp, by norm_num⟩

/-- A reading on the fitted line is drawn on the drawn line. -/
theorem normal_on_line {o : Obj} {res : Result} (h : calcIv o = .ok res) {t c i : ℕ}
    (ht : t < o.data.n0) (hc : c < o.data.n1) {rd : Reading} (hd : o.data.get t c i = some rd)
    (hlin : rd.dites = rd.vb / res.rfit t c + res.ioff t c) {l : List (ℝ × ℝ)} {vb : List (Option ℝ)}
    (hl : fitLine vb (res.rfit t c) = .ok l) :
    (∀ p ∈ l, p.2 * res.rfit t c = p.1) ∧
      ∃ w, res.ites t c i = some w ∧ (w * 10 ^ 6) * res.rfit t c = rd.vb * 10 ^ 6 := by
  obtain ⟨_, _, _, _, _, _, hr, _⟩ := calcIv_fit h ht hc
  constructor
  · intro p hp
    unfold fitLine at hl
    cases hv : vbfit vb with
    | error e => rw [hv] at hl; cases hl
    | ok xs =>
      rw [hv] at hl
      cases hl
      obtain ⟨x, _, rfl⟩ := List.mem_map.1 hp
      field_simp
  · refine ⟨_, calcIv_ites h hd, ?_⟩
    rw [hlin]
    field_simp
    ring

example : ∃ res rd l, calcIv (demo (some [0, 1, 2])) = .ok res ∧
    (demo (some [0, 1, 2])).data.get 0 0 1 = some rd ∧ rd.dites = rd.vb / res.rfit 0 0 + res.ioff 0 0 ∧
    fitLine ([1, 2, 3].map some) (res.rfit 0 0) = .ok l := by
  obtain ⟨res, e, h0, h1, _⟩ := demo_calcIv
  obtain ⟨_, l, hl, _⟩ := (fitLine_partial (l := [1, 2, 3]) (res.rfit 0 0)).1 (by norm_num) ⟨1, by norm_num⟩
  exact ⟨res, _, l, e, rfl, by rw [h0, h1]; norm_num, hl⟩

/-- Full C96 is false for padded data: with positive biases and a padded bias point the line ends at the
smallest bias (the superconducting end), away from the normal points which it fits. -/
theorem fitLine_padded_violated {v : ℝ} {l : List (Option ℝ)} (hpad : none ∈ l) (hv : 0 < v)
    (hl : ∀ x, some x ∈ l → 0 < x) (rfit : ℝ) :
    ∃ ln, fitLine (some v :: l) rfit = .ok ln ∧ ∀ p ∈ ln, ∀ x, some x ∈ some v :: l → p.1 ≤ x * 10 ^ 6 := by
  obtain ⟨b, e, hab, hb, hmem⟩ := pyMax_some (l.map (Option.map (-·))) (-v)
  have hvb : vbfit (some v :: l) = .ok (linspace (-b * 10 ^ 6) 0) := by
    have hp' : ¬ positive (some v :: l) = true := by
      unfold positive
      rw [if_pos (List.mem_cons_of_mem _ hpad)]
      simp
    unfold vbfit
    simp only [hp', Option.map_some, e]
    rfl
  have hmin : ∀ x, some x ∈ some v :: l → -b ≤ x := by
    intro x hx
    rcases List.mem_cons.1 hx with h | h
    · cases h
      linarith
    · have := hb (-x) (List.mem_map.2 ⟨some x, h, rfl⟩)
      linarith
  have hbpos : 0 < -b := by
    rcases hmem with rfl | h
    · linarith
    · obtain ⟨y, hy, hye⟩ := List.mem_map.1 h
      cases y with
      | none => cases hye
      | some y =>
        cases hye
        rw [neg_neg]
        exact hl y hy
  refine ⟨_, by unfold fitLine; rw [hvb], fun p hp x hx => ?_⟩
  obtain ⟨z, hz, rfl⟩ := List.mem_map.1 hp
  have hz' : z ≤ -b * 10 ^ 6 := by
    obtain ⟨i, hi, rfl⟩ := List.mem_map.1 hz
    have : 0 ≤ (i : ℝ) * ((-b) * 10 ^ 6 / 9) := by positivity
    have e2 : -b * 10 ^ 6 + (i : ℝ) * ((0 - -b * 10 ^ 6) / 9) =
        -b * 10 ^ 6 - (i : ℝ) * ((-b) * 10 ^ 6 / 9) := by ring
    rw [e2]
    linarith
  have := hmin x hx
  simp only
  nlinarith

example : none ∈ [some (2 : ℝ), some 1, none] ∧ (0 : ℝ) < 3 ∧
    ∀ x, some x ∈ [some (2 : ℝ), some 1, none] → 0 < x := by
  refine ⟨by simp, by norm_num, fun x hx => ?_⟩
  simp only [List.mem_cons, Option.some.injEq, List.not_mem_nil, or_false, reduceCtorEq] at hx
  rcases hx with rfl | rfl <;> norm_num

/-- Biases of both signs: the line covers only the side which reaches farther. -/
theorem fitLine_sides_violated {l : List ℝ} {a : ℝ} (ha : a ∈ l) (hpos : 0 < a) (hmax : ∀ v ∈ l, |v| ≤ a)
    (huniq : -a ∉ l) {v : ℝ} (hv : v ∈ l) (hneg : v < 0) (rfit : ℝ) :
    ∃ ln, fitLine (l.map some) rfit = .ok ln ∧ ∀ p ∈ ln, v * 10 ^ 6 < p.1 := by
  have hl : l ≠ [] := List.ne_nil_of_mem ha
  obtain ⟨w, h1, h2, h3⟩ := farthest_spec l hl
  have hw : w = a := by
    have e1 : |w| = a := le_antisymm (hmax w h2) (by rw [← abs_of_pos hpos]; exact h3 a ha)
    rcases abs_eq hpos.le |>.1 e1 with h | h
    · exact h
    · rw [h] at h2
      exact absurd h2 huniq
  have hp : positive (l.map some) = true := by
    have hfm : (l.map some).filterMap id = l := by
      induction l with
      | nil => rfl
      | cons a l ih => simp
    unfold positive
    rw [if_neg (by simp), hfm, h1, hw]
    simpa using hpos
  obtain ⟨c, l', rfl⟩ := List.exists_cons_of_ne_nil hl
  obtain ⟨b, e, hab, hb, hmem⟩ := pyMax_some (l'.map some) c
  have hba : 0 ≤ b := by
    rcases List.mem_cons.1 ha with rfl | h
    · linarith
    · linarith [hb a (List.mem_map_of_mem h)]
  have hvb : vbfit ((c :: l').map some) = .ok (linspace 0 (b * 10 ^ 6)) := by
    rw [List.map_cons] at hp ⊢
    unfold vbfit
    simp only [hp, if_true, e]
  refine ⟨_, by unfold fitLine; rw [hvb], fun p hp => ?_⟩
  obtain ⟨z, hz, rfl⟩ := List.mem_map.1 hp
  have := (mem_linspace (mul_nonneg hba (by norm_num)) hz).1
  simp only
  nlinarith

example : (3 : ℝ) ∈ [3, 0, -2] ∧ (∀ v ∈ [(3 : ℝ), 0, -2], |v| ≤ 3) ∧ -3 ∉ [(3 : ℝ), 0, -2] ∧
    (-2 : ℝ) ∈ [(3 : ℝ), 0, -2] := by
  refine ⟨by simp, fun v hv => ?_, by norm_num, by simp⟩
  fin_cases hv <;> norm_num

/-- Partial form of saving: without `lgcsave` the methods return the figure; `plot_all_curves` with `lgcsave`
writes the three figures.  Missing: the other methods with `lgcsave`. -/
theorem save_partial (o : Obj) (res : Option Result) (temps chans : Sel) (showfit : Bool)
    (d : Except Err (List Curve)) :
    method d false = ⟨d, []⟩ ∧
    ∀ a b c, drawIv o res temps chans showfit = .ok a → drawRv o res temps chans = .ok b →
      drawPv o res temps chans = .ok c → plotAll o res temps chans showfit true = ⟨.ok (), [a, b, c]⟩ := by
  constructor
  · cases d <;> rfl
  · intro a b c ha hb hc
    unfold plotAll
    rw [ha, hb, hc]
    rfl

example (r : Result) : ∃ a b c, drawIv (demo none) (some r) .all .all true = .ok a ∧
    drawRv (demo none) (some r) .all .all = .ok b ∧ drawPv (demo none) (some r) .all .all = .ok c := by
  obtain ⟨a, ha, _⟩ := drawIv_all (demo none) r true (by simp [demo])
  obtain ⟨b, c, hb, hc, _⟩ := drawRv_drawPv_all (demo none) r
  exact ⟨a, b, c, ha, hb, hc⟩

/-- `plot_iv`, `plot_rv` and `plot_pv` of an IV object with `lgcsave=True` never return: the file is
written, then TypeError is raised. -/
theorem save_violated (d : Except Err (List Curve)) :
    (∀ r, (method d true).ret ≠ .ok r) ∧ ∀ cs, d = .ok cs → method d true = ⟨.error .typeError, [cs]⟩ := by
  cases d with
  | error e => exact ⟨fun r h => (by cases h), fun cs h => (by cases h)⟩
  | ok cs =>
    refine ⟨fun r h => (by cases h), fun cs' h => ?_⟩
    cases h
    rfl

example (r : Result) : ∃ a, drawIv (demo none) (some r) .all .all true = .ok a :=
  let ⟨a, ha, _⟩ := drawIv_all (demo none) r true (by simp [demo])
  ⟨a, ha⟩

end Verif.IvPlot
