import Verif.NoisePlotLemmas
import Verif.NoiseProps
import Verif.NoiseObjProps

/-! C97: spectra of noise objects.  C98: correlation coefficients.  C99: comparison of noise objects. -/

namespace Verif.NoisePlot
open Verif Noise Dft

variable {m c n : ℕ} [NeZero n]

/-- A small object for the examples: two channels, two traces. -/
def demo : Src 2 2 2 := ⟨rampObj, fun i => if i = 0 then "a" else "b", some "run 1"⟩

omit [NeZero n] in
/-- Overlay: one line per channel in the order of the channels, labelled by its name, whose points are
exactly the square roots of the positive PSD values at the non-zero frequencies. -/
theorem psd_overlay (s : Src m c n) {p : Fin c → Half n → ℝ} (hp : s.o.psd = some p) (lgcsave : Bool)
    (path : Option String) :
    ∃ out fig lines, plotPsd s true lgcsave path = .ok out ∧ out.shown = [fig] ∧
      (∃ pn, fig = [pn] ∧ pn.lines = lines) ∧ lines.map Line.label = (List.finRange c).map s.channames ∧
      ∀ i : Fin c, ∃ ln, lines[(i : ℕ)]? = some ln ∧ ∀ q, q ∈ ln.pts ↔
        ∃ k : Half n, 1 ≤ (k : ℕ) ∧ 0 < p i k ∧ q = ((k : ℕ) * s.o.fs / n, Real.sqrt (p i k)) := by
  unfold plotPsd
  rw [hp]
  refine ⟨_, _, _, rfl, rfl, ⟨_, rfl, rfl⟩, ?_, fun i => ⟨⟨s.channames i, logPts s.o.fs (root (p i))⟩, ?_,
    fun q => mem_logPts_root⟩⟩
  · simp [List.map_map, Function.comp_def]
  · simp

example : ({ demo with o := calculatePsd rampObj } : Src 2 2 2).o.psd = some (psdOf rampTraces 1) := rfl

omit [NeZero n] in
/-- Subplots: every channel has a panel of its own with its name as the title and the line of its PSD; the
panels lie in different cells of a grid with two columns. -/
theorem psd_subplots (s : Src m c n) (hc : 0 < c) {p : Fin c → Half n → ℝ} (hp : s.o.psd = some p)
    (lgcsave : Bool) (path : Option String) :
    ∃ out fig, plotPsd s false lgcsave path = .ok out ∧ out.shown = [fig] ∧ fig.length = c ∧
      (fig.map Panel.cell).Nodup ∧ (∀ pn ∈ fig, pn.cell.1 < (c + 1) / 2 ∧ pn.cell.2 < 2) ∧
      ∀ i : Fin c, ∃ pn ln, fig[(i : ℕ)]? = some pn ∧ pn.title = some (s.channames i) ∧ pn.lines = [ln] ∧
        ∀ q, q ∈ ln.pts ↔
          ∃ k : Half n, 1 ≤ (k : ℕ) ∧ 0 < p i k ∧ q = ((k : ℕ) * s.o.fs / n, Real.sqrt (p i k)) := by
  unfold plotPsd
  rw [hp]
  simp only [Bool.false_eq_true, if_false, subplots_eq s _ hc.ne', done]
  refine ⟨_, _, rfl, rfl, by simp, ?_, ?_, fun i => ⟨⟨cell (rows c) i, some (s.channames i),
    [⟨"", logPts s.o.fs (root (p i))⟩]⟩, _, ?_, rfl, rfl, fun q => mem_logPts_root⟩⟩
  · rw [List.map_map]
    exact List.Nodup.map (fun i j h => Fin.ext (cell_inj h)) (List.nodup_finRange c)
  · intro pn hpn
    obtain ⟨i, _, rfl⟩ := List.mem_map.1 hpn
    exact cell_lt i.2
  · simp

example : (0 : ℕ) < 2 ∧ ({ demo with o := calculatePsd rampObj } : Src 2 2 2).o.psd =
    some (psdOf rampTraces 1) := ⟨by norm_num, rfl⟩

omit [NeZero n] in
/-- With a path and a name the shown figure is saved once, under the path, the name with underscores in the
place of its spaces, and an ending; otherwise nothing is written, and nothing is raised. -/
theorem psd_saved (s : Src m c n) (hc : 0 < c) (lgcoverlay lgcsave : Bool) (path : Option String) :
    ∃ out, plotPsd s lgcoverlay lgcsave path = .ok out ∧
      (s.o.psd = none → out.shown = [] ∧ out.files = []) ∧
      (s.o.psd ≠ none → ∃ fig, out.shown = [fig] ∧
        (out.files = [] ∨ ∃ p nm nm', path = some p ∧ s.name = some nm ∧ Underscored nm nm' ∧
          out.files = [(p ++ nm' ++ (if lgcoverlay then "_PSD_overlay.png" else "_PSD_subplot.png"), fig)]) ∧
        (out.files ≠ [] ↔ lgcsave = true ∧ path ≠ none ∧ s.name ≠ none)) := by
  have hsave : ∀ suffix (fig : Fig), (save s lgcsave path suffix fig = [] ∨
      ∃ p nm nm', path = some p ∧ s.name = some nm ∧ Underscored nm nm' ∧
        save s lgcsave path suffix fig = [(p ++ nm' ++ suffix, fig)]) ∧
      (save s lgcsave path suffix fig ≠ [] ↔ lgcsave = true ∧ path ≠ none ∧ s.name ≠ none) := by
    intro suffix fig
    unfold save
    cases lgcsave <;> cases path <;> cases hnm : s.name <;> simp
    rename_i nm
    exact underscored_under nm
  unfold plotPsd
  cases hp : s.o.psd with
  | none => exact ⟨_, rfl, fun _ => ⟨rfl, rfl⟩, fun h => absurd rfl h⟩
  | some p =>
    cases lgcoverlay with
    | true => exact ⟨_, rfl, fun h => (by cases h), fun _ => ⟨_, rfl, hsave _ _⟩⟩
    | false =>
      simp only [Bool.false_eq_true, if_false, subplots_eq s _ hc.ne', done]
      exact ⟨_, rfl, fun h => (by cases h), fun _ => ⟨_, rfl, hsave _ _⟩⟩

example : (0 : ℕ) < 2 ∧ demo.name ≠ none := ⟨by norm_num, by simp [demo]⟩

/-- Real and imaginary parts: each panel has one line for each, and at every frequency the squares of the
two heights add up to the PSD. -/
theorem reim_parts (s : Src m c n) (hc : 0 < c) (lgcsave : Bool) (path : Option String) :
    ∃ out fig, plotReimPsd { s with o := calculatePsd s.o } lgcsave path = .ok out ∧ out.shown = [fig] ∧
      ∀ i : Fin c, ∃ pn a b, fig[(i : ℕ)]? = some pn ∧ pn.title = some (s.channames i) ∧
        pn.lines = [⟨"real", logPts s.o.fs (root a)⟩, ⟨"imag", logPts s.o.fs (root b)⟩] ∧
        ∀ k, 0 ≤ s.o.fs → root a k ^ 2 + root b k ^ 2 = psdOf s.o.traces s.o.fs i k := by
  unfold plotReimPsd
  simp only [calculatePsd, subplots_eq _ _ hc.ne', done]
  refine ⟨_, _, rfl, rfl, fun i => ⟨⟨cell (rows c) i, some (s.channames i),
    [⟨"real", logPts s.o.fs (root (realPsdOf s.o.traces s.o.fs i))⟩,
      ⟨"imag", logPts s.o.fs (root (imagPsdOf s.o.traces s.o.fs i))⟩]⟩, realPsdOf s.o.traces s.o.fs i, imagPsdOf s.o.traces s.o.fs i, ?_, rfl,
    rfl, fun k hfs => ?_⟩⟩
  · simp
  · have h1 : 0 ≤ realPsdOf s.o.traces s.o.fs i k := by unfold realPsdOf avg; positivity
    have h2 : 0 ≤ imagPsdOf s.o.traces s.o.fs i k := by unfold imagPsdOf avg; positivity
    rw [root, root, Real.sq_sqrt h1, Real.sq_sqrt h2, noisePsd_parts]

example : (0 : ℕ) < 2 ∧ 0 ≤ demo.o.fs := ⟨by norm_num, by simp [demo, rampObj]⟩

omit [NeZero n] in
/-- Full C97 is false: the method `plot_reim_psd` never writes a file. -/
theorem reim_save_violated (s : Src m c n) (lgcsave : Bool) (path : Option String) {out : Out}
    (h : plotReimPsdMethod s lgcsave path = .ok out) : out.files = [] := by
  unfold plotReimPsdMethod plotReimPsd at h
  cases h1 : s.o.realPsd with
  | none =>
    rw [h1] at h
    cases h
    rfl
  | some re =>
    cases h2 : s.o.imagPsd with
    | none => rw [h1, h2] at h; cases h
    | some im =>
      rw [h1, h2] at h
      simp only at h
      unfold done at h
      split at h
      · cases h
      · cases h
        rfl

example : ∃ out, plotReimPsdMethod { demo with o := calculatePsd rampObj } true (some "/tmp/") = .ok out :=
  let ⟨out, _, h, _⟩ := reim_parts demo (by norm_num) false none
  ⟨out, h⟩

/-- After a successful `calculate_uncorr_noise` every channel has its own panel, and the line of the sum of
the two parts has the points of the line of the data. -/
theorem decorr_total (s : Src m c n) (hm : 0 < m) (hc : 0 < c) (hfs : 0 ≤ s.o.fs)
    (hcur : ∀ d, s.o.csd = some d → ∃ traces : Fin m → Fin c → ZMod n → ℝ, d = csdOf traces s.o.fs)
    {o' : Obj m c n} (h : calculateUncorrNoise s.o = (.ok (), o')) (lgcsave : Bool) (path : Option String) :
    ∃ out fig, plotDecorr { s with o := o' } false true true true true lgcsave path = .ok out ∧
      out.shown = [fig] ∧ ∀ i : Fin c, ∃ pn a b d t, fig[(i : ℕ)]? = some pn ∧
        pn.title = some (s.channames i) ∧
        pn.lines = [⟨"Data", d⟩, ⟨"Uncorrelated Noise", logPts o'.fs (root a)⟩,
          ⟨"Correlated Noise", logPts o'.fs (root b)⟩, ⟨"Total Noise", t⟩] ∧ t = d ∧
        ∀ k : Half n, 1 ≤ (k : ℕ) → ((k : ℕ) * o'.fs / n, Real.sqrt (root a k ^ 2 + root b k ^ 2)) ∈ d := by
  obtain ⟨traces, u, r, h1, h2, h3, h4⟩ := uncorr_split s.o o' hm hfs hcur h
  unfold plotDecorr
  simp only [h1, h2, h3, Bool.false_eq_true, if_false, if_true, subplots_eq _ _ hc.ne', done]
  refine ⟨_, _, rfl, rfl, fun i => ⟨⟨cell (rows c) i, some (s.channames i),
    [⟨"Data", logPts o'.fs (root ((csdOf traces s.o.fs).real i i))⟩,
      ⟨"Uncorrelated Noise", logPts o'.fs (root (u i))⟩, ⟨"Correlated Noise", logPts o'.fs (root (r i))⟩,
      ⟨"Total Noise", logPts o'.fs (root fun k => u i k + r i k)⟩]⟩, u i, r i, _, _, ?_, rfl, rfl, ?_,
    fun k hk => ?_⟩⟩
  · simp
  · congr 2
    funext k
    exact (h4 i k).1
  · obtain ⟨e1, _, h0, hle, hr⟩ := h4 i k
    rw [root, root, Real.sq_sqrt h0.le, Real.sq_sqrt hr, e1, mem_logPts_root]
    exact ⟨k, hk, lt_of_lt_of_le h0 hle, rfl⟩

theorem demo_uncorr : ∃ o', calculateUncorrNoise demo.o = (.ok (), o') := by
  have hdet : ¬ ∃ k, (csdMat (csdOf rampTraces 1) k).det = 0 := by
    rintro ⟨k, hk⟩
    rw [Matrix.det_fin_two] at hk
    simp [csdMat, ramp_csd] at hk
  simp only [demo, rampObj, calculateUncorrNoise, calculateCsd]
  rw [if_neg (by norm_num : ¬ (2 : ℕ) = 1)]
  simp only [storeUncorr]
  rw [if_neg hdet]
  exact ⟨_, rfl⟩

example : (0 : ℕ) < 2 ∧ 0 ≤ demo.o.fs ∧ demo.o.csd = none ∧ ∃ o', calculateUncorrNoise demo.o = (.ok (), o') :=
  ⟨by norm_num, by simp [demo, rampObj], rfl, demo_uncorr⟩

omit [NeZero n] in
/-- Partial form of the cross spectra: two digits draw the stored part for that pair of channels, under its
names, anything after them being ignored; an index that is too large draws nothing.  Missing: channels from
ten on, and distinct files. -/
theorem csd_digits_partial (s : Src m c n) {d : Csd c n} (hd : s.o.csd = some d) {x y : Char} {rest : List Char}
    (hx : x.isDigit = true) (hy : y.isDigit = true) (lgcreal : Bool) :
    (∀ i j : Fin c, (i : ℕ) = x.toNat - 48 → (j : ℕ) = y.toNat - 48 → ∃ pn ln,
      plotCsd s [.str (x :: y :: rest)] lgcreal false none = .ok ⟨[[pn]], []⟩ ∧
      pn.title = some (s.channames i ++ "-" ++ s.channames j) ∧ pn.lines = [ln] ∧
      ∀ q, q ∈ ln.pts ↔ ∃ k : Half n, 1 ≤ (k : ℕ) ∧
        0 < (if lgcreal then d.real i j k else d.imag i j k) ∧
        q = ((k : ℕ) * s.o.fs / n, if lgcreal then d.real i j k else d.imag i j k)) ∧
    (c ≤ x.toNat - 48 ∨ c ≤ y.toNat - 48 →
      plotCsd s [.str (x :: y :: rest)] lgcreal false none = .ok ⟨[], []⟩) := by
  constructor
  · intro i j hi hj
    have hlt : x.toNat - 48 < c ∧ y.toNat - 48 < c := ⟨hi ▸ i.2, hj ▸ j.2⟩
    unfold plotCsd
    rw [hd]
    simp only [select_digits hx hy hlt]
    refine ⟨_, _, rfl, ?_, rfl, fun q => ?_⟩
    · simp only
      rw [show (⟨x.toNat - 48, hlt.1⟩ : Fin c) = i from Fin.ext hi.symm,
        show (⟨y.toNat - 48, hlt.2⟩ : Fin c) = j from Fin.ext hj.symm]
    · rw [show (⟨x.toNat - 48, hlt.1⟩ : Fin c) = i from Fin.ext hi.symm,
        show (⟨y.toNat - 48, hlt.2⟩ : Fin c) = j from Fin.ext hj.symm, mem_logPts]
      cases lgcreal <;> simp only [rfftfreq, if_true, Bool.false_eq_true, if_false]
  · intro h
    have : select c [.str (x :: y :: rest)] = .ok none := by
      unfold select digit
      simp only [List.getElem?_cons_zero, List.getElem?_cons_succ, hx, hy, if_true]
      rw [dif_neg (by omega)]
    unfold plotCsd
    rw [hd]
    simp only [this]

example : ({ demo with o := (calculateCsd rampObj).2 } : Src 2 2 2).o.csd = some (csdOf rampTraces 1) ∧
    '0'.isDigit = true ∧ ((0 : Fin 2) : ℕ) = '0'.toNat - 48 := by
  refine ⟨?_, by decide, by decide⟩
  simp [calculateCsd, rampObj]

omit [NeZero n] in
/-- A request for several pairs shows one figure for each, in order; if it contains a label that is refused
nothing is drawn or written, and nothing is raised. -/
theorem csd_request (s : Src m c n) {d : Csd c n} (hd : s.o.csd = some d) (lgcreal lgcsave : Bool)
    (path : Option String) {ls : List Label} {ps : List (Fin c × Fin c)}
    (h : List.Forall₂ (fun l p => Asks l p.1 p.2) ls ps) :
    (∃ files, plotCsd s ls lgcreal lgcsave path = .ok ⟨ps.map (csdFig s d lgcreal), files⟩ ∧
      files.length = if lgcsave = true ∧ path ≠ none ∧ s.name ≠ none then ps.length else 0) ∧
    ∀ l rest, Refused c l → plotCsd s (ls ++ l :: rest) lgcreal lgcsave path = .ok ⟨[], []⟩ := by
  constructor
  · have : select c ls = .ok (some ps) := by
      induction h with
      | nil => rfl
      | cons h1 _ ih => rw [select_asks h1, ih]
    unfold plotCsd
    rw [hd]
    simp only [this]
    refine ⟨_, rfl, ?_⟩
    have hs : ∀ suffix (fig : Fig), (save s lgcsave path suffix fig).length =
        if lgcsave = true ∧ path ≠ none ∧ s.name ≠ none then 1 else 0 := by
      intro suffix fig
      unfold save
      cases lgcsave <;> cases path <;> cases hnm : s.name <;> simp
    rw [List.length_flatten, List.map_map]
    have : (List.length ∘ fun p : (Fin c × Fin c) × ℕ => save s lgcsave path ("_csd" ++ toString p.2 ++ ".png")
        (csdFig s d lgcreal p.1)) = fun _ => if lgcsave = true ∧ path ≠ none ∧ s.name ≠ none then 1 else 0 :=
      funext fun p => hs _ _
    rw [this, List.map_const', List.sum_replicate, List.length_zipIdx]
    split_ifs <;> simp
  · intro l rest hl
    have : select c (ls ++ l :: rest) = .ok none := by
      induction h with
      | nil => exact select_refused hl rest
      | cons h1 _ ih => rw [List.cons_append, select_asks h1, ih]
    unfold plotCsd
    rw [hd]
    simp only [this]

example : List.Forall₂ (fun l (p : Fin 2 × Fin 2) => Asks l p.1 p.2) [.str "01".toList, .str "11".toList]
    [(0, 1), (1, 1)] ∧ Refused 2 .other ∧ Refused 2 (.str "07".toList) := by
  refine ⟨.cons ⟨'0', '1', [], rfl, by decide, by decide, by decide, by decide⟩
    (.cons ⟨'1', '1', [], rfl, by decide, by decide, by decide, by decide⟩ .nil), Or.inl rfl,
    Or.inr ⟨0, 7, ⟨'0', '7', [], rfl, by decide, by decide, by decide, by decide⟩, Or.inr (by norm_num)⟩⟩

omit [NeZero n] in
/-- The cross spectrum of a channel from number ten on cannot be drawn: every figure shows a pair of
channels numbered below ten. -/
theorem csd_ten_violated (s : Src m c n) {d : Csd c n} (hd : s.o.csd = some d) (which : List Label)
    (lgcreal lgcsave : Bool) (path : Option String) {out : Out}
    (h : plotCsd s which lgcreal lgcsave path = .ok out) :
    ∀ fig ∈ out.shown, ∃ i j : Fin c, (i : ℕ) < 10 ∧ (j : ℕ) < 10 ∧ fig = csdFig s d lgcreal (i, j) := by
  unfold plotCsd at h
  rw [hd] at h
  simp only at h
  cases hs : select c which with
  | error e => rw [hs] at h; cases h
  | ok o =>
    rw [hs] at h
    cases o with
    | none =>
      cases h
      intro fig hf
      simp at hf
    | some ps =>
      cases h
      intro fig hf
      obtain ⟨p, hp, rfl⟩ := List.mem_map.1 hf
      obtain ⟨h1, h2⟩ := (select_lt _ hs).2 p hp
      exact ⟨p.1, p.2, h1, h2, rfl⟩

example : ∃ out, plotCsd { demo with o := (calculateCsd rampObj).2 } [.str ['0', '1']] true false none =
    .ok out ∧ out.shown ≠ [] := by
  obtain ⟨pn, _, h, _⟩ := (csd_digits_partial (s := { demo with o := (calculateCsd rampObj).2 })
    (d := csdOf rampTraces 1) (by simp [calculateCsd, rampObj]) (x := '0') (y := '1') (rest := []) (by decide)
    (by decide) true).1 0 1 (by decide) (by decide)
  exact ⟨_, h, by simp⟩

omit [NeZero n] in
/-- The file does not depend on the channels nor on the part: saving another pair, or the other part, of the
same object overwrites it. -/
theorem csd_file_violated (s : Src m c n) {d : Csd c n} (hd : s.o.csd = some d) (w w' : Label)
    (lgcreal lgcreal' : Bool) {path : String} {out out' : Out}
    (h : plotCsd s [w] lgcreal true (some path) = .ok out)
    (h' : plotCsd s [w'] lgcreal' true (some path) = .ok out') {f f' : String × Fig}
    (hf : f ∈ out.files) (hf' : f' ∈ out'.files) : f.1 = f'.1 := by
  have key : ∀ (w : Label) (b : Bool) (out : Out) (f : String × Fig),
      plotCsd s [w] b true (some path) = .ok out → f ∈ out.files →
      ∃ nm, s.name = some nm ∧ f.1 = path ++ under nm ++ ("_csd" ++ toString 0 ++ ".png") := by
    intro w b out f h hf
    unfold plotCsd at h
    rw [hd] at h
    simp only at h
    cases hs : select c [w] with
    | error e => rw [hs] at h; cases h
    | ok o =>
      rw [hs] at h
      cases o with
      | none =>
        cases h
        simp at hf
      | some ps =>
        cases h
        obtain ⟨hl, _⟩ := select_lt _ hs
        match ps, hl with
        | [p], _ =>
          simp only [List.zipIdx_cons, List.zipIdx_nil, List.map_cons, List.map_nil, List.flatten_cons,
            List.flatten_nil, List.append_nil, save, if_true] at hf
          cases hn : s.name with
          | none => rw [hn] at hf; simp at hf
          | some nm =>
            rw [hn] at hf
            simp only [List.mem_singleton] at hf
            exact ⟨nm, rfl, by rw [hf]⟩
  obtain ⟨nm, e1, e2⟩ := key w lgcreal out f h hf
  obtain ⟨nm', e3, e4⟩ := key w' lgcreal' out' f' h' hf'
  rw [e1] at e3
  cases e3
  rw [e2, e4]

example : ∃ out f, plotCsd { demo with o := (calculateCsd rampObj).2 } [.str ['0', '1']] true true
    (some "/tmp/") = .ok out ∧ f ∈ out.files := by
  have hs : select 2 [.str ['0', '1']] = .ok (some [(0, 1)]) := by decide
  unfold plotCsd
  have : ({ demo with o := (calculateCsd rampObj).2 } : Src 2 2 2).o.csd = some (csdOf rampTraces 1) := by
    simp [calculateCsd, rampObj]
  rw [this]
  simp only [hs]
  exact ⟨_, _, rfl, List.mem_flatten.2 ⟨_, List.mem_cons_self, List.mem_cons_self⟩⟩

end Verif.NoisePlot
