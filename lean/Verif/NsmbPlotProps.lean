import Verif.NsmbPlotLemmas
import Verif.NsmbProps

/-! C103: the plots of the multi-template fits. -/

namespace Verif.Nsmb
open Verif Verif.Dft Spec

variable {n : ℕ} [NeZero n] {nb : ℕ}

/-- The plot which `lgcplot` asks for is drawn exactly for sampling rates above 60 kHz, traces of at
least seven samples and a start time for every background template (or none at all). -/
theorem plot_defined {p : ZMod n → ℝ} {F : Filt n nb} {iP} {fs : ℝ} {window : List ℤ} {lf : ℕ}
    (hfs : 0 < fs) {r : Fit n nb} (h : ofNsmb p F iP fs window lf = .ok r) (save : Save)
    (shifts : Option (List (Option ℝ))) :
    (∃ fig, ofNsmbPlot p F iP fs window lf true save shifts = .ok (r, some fig)) ↔
      60000 < fs ∧ 7 ≤ n ∧ ∀ s, shifts = some s → nb ≤ s.length := by
  obtain ⟨hnb, -, -⟩ := ofNsmb_resid h
  have key : (∃ fig, ofNsmbPlot p F iP fs window lf true save shifts = .ok (r, some fig)) ↔
      ∃ fig, plotnsmb p fs r.tdelmin r.amps F.sbf F.psddnu (some 30e3) save "./scFit" shifts = .ok fig := by
    unfold ofNsmbPlot
    rw [h]
    cases hp : plotnsmb p fs r.tdelmin r.amps F.sbf F.psddnu (some 30e3) save "./scFit" shifts with
    | error e =>
      constructor
      · rintro ⟨fig, hf⟩
        simp only [bind, Except.bind, if_true, hp] at hf
        cases hf
      · rintro ⟨fig, hf⟩; cases hf
    | ok fig =>
      refine ⟨fun _ => ⟨fig, rfl⟩, fun _ => ⟨fig, ?_⟩⟩
      simp only [bind, Except.bind, if_true, hp]
  rw [key]
  constructor
  · rintro ⟨fig, hf⟩
    obtain ⟨w, hw, ms, hm, -⟩ := (plot_ok hnb).1 hf
    obtain ⟨-, h2, h3⟩ := (Lowpass.lowpass_defined hfs _ _).1.1 ⟨w, hw⟩
    refine ⟨by linarith, by simpa using h3, fun s hs => ?_⟩
    rcases markers_ok hm with ⟨h, -⟩ | ⟨l, h, h', -⟩
    · rw [h] at hs; cases hs
    · rw [h] at hs; cases hs; exact h'
  · rintro ⟨h1, h2, h3⟩
    obtain ⟨w, hw⟩ := (Lowpass.lowpass_defined hfs (samples p) 30e3).1.2
      ⟨by norm_num, by linarith, by simpa using h2⟩
    have hm : ∃ ms, markers nb shifts = .ok ms := by
      cases shifts with
      | none => exact ⟨_, rfl⟩
      | some s => exact ⟨_, if_neg (not_lt.2 (h3 s rfl))⟩
    obtain ⟨ms, hm⟩ := hm
    exact ⟨_, (plot_ok hnb).2 ⟨w, hw, ms, hm, rfl⟩⟩

example : ∃ r, ofNsmb exP exF (getiP exF.P) 625000 [-2, 0, 3] 500 = .ok r :=
  (exPlot (.int 1)).imp fun _ h => h.1

/-- The plot of the unconstrained fit: the label shows the returned chi2, the total curve is the data
minus the returned residual. -/
theorem plot_nsmb {T : Fin (nb + 1) → ZMod n → ℝ} {psd : ZMod n → ℝ} {fs : ℝ} {F : Filt n nb}
    (hF : setup T psd fs = .ok F) (hpsd : ∀ f, f ≠ 0 → 0 < psd f) (hfs : 0 < fs)
    {p : ZMod n → ℝ} {window : List ℤ} {lf : ℕ} {save : Save} {shifts : Option (List (Option ℝ))}
    {r : Fit n nb} {fig : NFig n}
    (h : ofNsmbPlot p F (getiP F.P) fs window lf true save shifts = .ok (r, some fig)) :
    ofNsmb p F (getiP F.P) fs window lf = .ok r ∧ fig.label = r.chi2min ∧ fig.data = p ∧
      ∀ m, fig.total m = p m - r.residT m := by
  obtain ⟨hnb, hr, hp⟩ := ofNsmbPlot_ok h
  obtain ⟨-, -, hres⟩ := ofNsmb_resid hr
  obtain ⟨w, -, ms, -, rfl⟩ := (plot_ok hnb).1 hp
  refine ⟨hr, ?_, rfl, fun m => ?_⟩
  · simp only
    rw [(nsmb_chi2_residual hF hpsd hfs hr).1, residChi2_eq, hres, (setup_ok hF).2.2.1]
  · rw [hres, ← resid_fittott]; ring

example : setup exT (fun _ => 8 / 625000) 625000 = .ok exF ∧
    ∃ r fig, ofNsmbPlot exP exF (getiP exF.P) 625000 [-2, 0, 3] 500 true (.int 1) none = .ok (r, some fig) :=
  ⟨exF_setup', (exPlot (.int 1)).imp fun _ h => h.2⟩

/-- The plot of the constrained fit likewise. -/
theorem plot_con {F : Filt n nb} {fs : ℝ} {p : ZMod n → ℝ} {c : Fin (nb + 1) → ℤ} {window : List ℤ}
    {wins : List (List ℤ)} {lf : ℕ} {save : Save} {shifts : Option (List (Option ℝ))}
    {r : ConFit n nb} {fig : NFig n}
    (h : ofNsmbConPlot p F fs c window wins lf true save shifts = .ok (r, some fig)) :
    ofNsmbCon p F fs c window wins lf = .ok r ∧ fig.label = r.chi2min ∧ fig.data = p ∧
      ∀ m, fig.total m = p m - r.residT m := by
  obtain ⟨hnb, hr, hp⟩ := ofNsmbConPlot_ok h
  obtain ⟨-, ind, -, -, -, -, hres, hx, -⟩ := ofNsmbCon_ok hr
  obtain ⟨w, -, ms, -, rfl⟩ := (plot_ok hnb).1 hp
  refine ⟨hr, by rw [hx, hres], rfl, fun m => ?_⟩
  rw [hres, ← resid_fittott]; ring

example : ∃ r fig, ofNsmbConPlot exP exF 625000 exC [3] [] 500 true (.int 1) none = .ok (r, some fig) :=
  exConPlot _

/-- The plot of the background fit: the label shows the returned chi2, the total curve is the sum of
the background templates with the returned amplitudes, and no signal is drawn. -/
theorem plot_mb {T : Fin (nb + 1) → ZMod n → ℝ} {psd : ZMod n → ℝ} {fs : ℝ} {F : Filt n nb}
    (hF : setup T psd fs = .ok F) (hfs : 0 < fs) (hnb : nb ≠ 0)
    {p : ZMod n → ℝ} {c : Fin nb → ℤ} {lf : ℕ} {save : Save} {shifts : Option (List (Option ℝ))}
    {a : Fin nb → ℝ} {x y : ℝ} {fig : NFig n}
    (h : ofMbPlot p F fs c lf true save shifts = .ok ((a, x, y), some fig)) :
    ofMb p F c lf = .ok (a, x, y) ∧ fig.label = x ∧ fig.sig = none ∧
      ∀ m, fig.total m = ∑ i, a i * T i.succ m := by
  obtain ⟨hr, hp⟩ := ofMbPlot_ok h
  obtain ⟨w, -, ms, -, rfl⟩ := (plot_ok hnb).1 hp
  obtain ⟨-, -, -, -, hx⟩ := ofMb_ok hr
  have hs : F.sbf = sbtemplatef T := (setup_ok hF).2.2.2.2.2.2.1
  have ht : F.sbt = T := (setup_ok hF).2.2.2.2.2.2.2.1
  have htot : ∀ m, fittott F.sbf fs (Fin.cons 0 a) 0 m = ∑ i, a i * T i.succ m := by
    intro m
    have := fittott_eq T hfs.ne' (Fin.cons 0 a) 0 m
    rw [tdel_zero, Int.cast_zero, delayed_at_zero, ← hs, Fin.sum_univ_succ] at this
    rw [this]
    simp
  refine ⟨hr, ?_, ?_, htot⟩
  · simp only
    rw [hx]
    congr 1
    funext m
    rw [← resid_fittott, htot, ht]
    congr 1
    exact Finset.sum_congr rfl fun i _ => mul_comm _ _
  · simp only
    rw [if_neg]
    rw [Fin.cons_zero, abs_zero]
    norm_num

example : ∃ a x y fig, ofMbPlot exP exF 625000 (fun _ => 1) 500 true (.int 1)
    (some [some 0, some 3, some 0, none]) = .ok ((a, x, y), some fig) := by
  obtain ⟨a, x, y, hr, -⟩ := mb_polarity_violated
  exact ⟨a, x, y, exMbPlot hr _⟩

/-- The curves: every background template but the last two (constant and slope) and the signal at its
fitted delay, each on top of the last two; together they add up to the total. -/
theorem plot_curves {T : Fin (nb + 1) → ZMod n → ℝ} {psd : ZMod n → ℝ} {fs : ℝ} {F : Filt n nb}
    (hF : setup T psd fs = .ok F) (hfs : 0 < fs) {p : ZMod n → ℝ} {window : List ℤ} {lf : ℕ}
    {save : Save} {shifts : Option (List (Option ℝ))} {r : Fit n nb} {fig : NFig n}
    (h : ofNsmbPlot p F (getiP F.P) fs window lf true save shifts = .ok (r, some fig)) :
    ∃ d : ℤ, r.tdelmin = tdel n fs d ∧ ∃ bl : ZMod n → ℝ,
      (bl = fun m => ∑ i : Fin (nb + 1), if nb - 1 ≤ i.val then r.amps i * T i m else 0) ∧
      fig.bkg = (List.finRange (nb - 2)).map (fun j m =>
        r.amps ⟨j.val + 1, by omega⟩ * T ⟨j.val + 1, by omega⟩ m + bl m) ∧
      (1e-20 < |r.amps 0| → fig.sig = some fun m => r.amps 0 * roll (T 0) (d : ZMod n) m + bl m) ∧
      (|r.amps 0| ≤ 1e-20 → fig.sig = none) ∧
      ∀ m, fig.total m = r.amps 0 * roll (T 0) (d : ZMod n) m + bl m +
        (fig.bkg.map fun b => b m - bl m).sum := by
  obtain ⟨hnb, hr, hp⟩ := ofNsmbPlot_ok h
  obtain ⟨-, ⟨d, hd⟩, -⟩ := ofNsmb_resid hr
  obtain ⟨w, -, ms, -, rfl⟩ := (plot_ok hnb).1 hp
  have hnb2 : 2 ≤ nb := by have := (setup_ok hF).2.1; omega
  have hs : F.sbf = sbtemplatef T := (setup_ok hF).2.2.2.2.2.2.1
  have hrow : ∀ i m, fitt F.sbf fs r.amps r.tdelmin i m = r.amps i * delayed T (d : ZMod n) i m := by
    intro i m; rw [hs, hd, fitt_eq T hfs.ne']
  have hl0 : Fin.last nb ≠ 0 := by
    intro e; have := congrArg Fin.val e; simp at this; omega
  have hl1 : (⟨nb - 1, by omega⟩ : Fin (nb + 1)) ≠ 0 := by
    intro e; have := congrArg Fin.val e; simp at this; omega
  have hbl : ∀ m, (∑ i : Fin (nb + 1), if nb - 1 ≤ i.val then r.amps i * T i m else 0) =
      r.amps (Fin.last nb) * T (Fin.last nb) m +
        r.amps ⟨nb - 1, by omega⟩ * T ⟨nb - 1, by omega⟩ m := fun m =>
    last_two hnb2 fun i => r.amps i * T i m
  have hbase : ∀ i m, base (fitt F.sbf fs r.amps r.tdelmin) i m = r.amps i * delayed T (d : ZMod n) i m +
      ∑ i : Fin (nb + 1), if nb - 1 ≤ i.val then r.amps i * T i m else 0 := by
    intro i m
    rw [base, hrow, hrow, hrow, delayed_ne _ _ hl0, delayed_ne _ _ hl1, hbl]
    ring
  have hbkg : ∀ j : Fin (nb - 2), delayed T (d : ZMod n) (⟨j.val + 1, by omega⟩ : Fin (nb + 1)) =
      T ⟨j.val + 1, by omega⟩ := fun j => delayed_ne _ _ (by
    intro e; have := congrArg Fin.val e; simp at this)
  have hB : (bkgRows nb).map (base (fitt F.sbf fs r.amps r.tdelmin)) =
      (List.finRange (nb - 2)).map (fun j m => r.amps ⟨j.val + 1, by omega⟩ * T ⟨j.val + 1, by omega⟩ m +
        ∑ i : Fin (nb + 1), if nb - 1 ≤ i.val then r.amps i * T i m else 0) := by
    rw [bkgRows_eq hnb2, List.map_map]
    refine List.map_congr_left fun j _ => ?_
    funext m
    rw [Function.comp, hbase, hbkg]
  refine ⟨d, hd, _, rfl, hB, fun h0 => ?_, fun h0 => if_neg (not_lt.2 h0), fun m => ?_⟩
  · simp only
    rw [if_pos h0]
    congr 1
    funext m
    rw [hbase, delayed_zero]
  · simp only
    rw [hB, hs, hd, fittott_eq T hfs.ne', sum_templates hnb2, delayed_zero, delayed_ne _ _ hl0,
      delayed_ne _ _ hl1, hbl, List.map_map]
    congr 2
    refine List.map_congr_left fun j _ => ?_
    rw [hbkg]
    simp only [Function.comp]
    rw [hbl]
    ring

example : ∃ r fig, ofNsmbPlot exP exF (getiP exF.P) 625000 [-2, 0, 3] 500 true (.bool false) none =
    .ok (r, some fig) := (exPlot _).imp fun _ h => h.2

/-- The filtered data drawn behind the fit stay within the range of the data at sampling rates from
120 kHz. -/
theorem plot_filtered {F : Filt n nb} {fs : ℝ} (hfs : 120000 ≤ fs) {p : ZMod n → ℝ} {iP} {window : List ℤ}
    {lf : ℕ} {save : Save} {shifts : Option (List (Option ℝ))} {r : Fit n nb} {fig : NFig n} {lo hi : ℝ}
    (h : ofNsmbPlot p F iP fs window lf true save shifts = .ok (r, some fig))
    (hp : ∀ m, lo ≤ p m ∧ p m ≤ hi) :
    ∃ w, fig.filtered = some w ∧ w.length = n ∧ ∀ v ∈ w, lo ≤ v ∧ v ≤ hi := by
  obtain ⟨hnb, -, hp'⟩ := ofNsmbPlot_ok h
  obtain ⟨w, hw, ms, -, rfl⟩ := (plot_ok hnb).1 hp'
  have hfs0 : 0 < fs := by linarith
  refine ⟨w, rfl, ?_, ?_⟩
  · rw [(Lowpass.lowpass_defined hfs0 _ _).2 w hw, samples_length]
  · refine Lowpass.range_partial (by linarith) hfs0 (fun v hv => ?_) hw
    obtain ⟨m, rfl⟩ := (mem_samples p v).1 hv
    exact hp m

example (m : ZMod 8) : 0 ≤ exP m ∧ exP m ≤ 2 := by
  change Fin 8 at m
  fin_cases m <;> norm_num [exP, tr]

/-- With one start time for each background template a line is drawn at each of them. -/
theorem plot_marks {p : ZMod n → ℝ} {F : Filt n nb} {iP} {fs : ℝ} {window : List ℤ} {lf : ℕ}
    {save : Save} {s : List (Option ℝ)} (hs : s.length = nb) {r : Fit n nb} {fig : NFig n}
    (h : ofNsmbPlot p F iP fs window lf true save (some s) = .ok (r, some fig)) (x : ℝ) :
    x ∈ fig.marks ↔ some x ∈ s := by
  obtain ⟨hnb, -, hp⟩ := ofNsmbPlot_ok h
  obtain ⟨w, -, ms, hm, rfl⟩ := (plot_ok hnb).1 hp
  rcases markers_ok hm with ⟨h2, -⟩ | ⟨l, h2, -, rfl⟩
  · cases h2
  · cases h2
    have e : s.take nb = s := by rw [← hs, List.take_length]
    change x ∈ (s.take nb).filterMap id ↔ _
    rw [e]
    simp

example : ∃ r fig, ofNsmbPlot exP exF (getiP exF.P) 625000 [3] 500 true (.int 7)
    (some [some 1, some 2, some 0, some 0]) = .ok (r, some fig) := by
  obtain ⟨r, hr, -⟩ := nsmb_defined (by norm_num) exP exF (getiP exF.P) (fs := 625000) (by norm_num)
    (window := [3]) (by simp) (by decide) 500
  obtain ⟨fig, h⟩ := (plot_defined (by norm_num) hr (.int 7) (some [some 1, some 2, some 0, some 0])).2
    ⟨by norm_num, by norm_num, fun s h => by cases h; simp⟩
  exact ⟨r, fig, h⟩

/-- Contrary to C103 asking for the plot makes every fit fail at sampling rates up to 60 kHz: the
plot filters the data with a cut-off of 30 kHz and raises. -/
theorem rate_violated {p : ZMod n → ℝ} {F : Filt n nb} {iP} {fs : ℝ} {window : List ℤ} {lf : ℕ}
    (hfs : 0 < fs) (h60 : fs ≤ 60000) {r : Fit n nb} (h : ofNsmb p F iP fs window lf = .ok r)
    (save : Save) (shifts : Option (List (Option ℝ))) :
    ofNsmbPlot p F iP fs window lf true save shifts = .error .valueError ∧
    ofNsmbPlot p F iP fs window lf false save shifts = .ok (r, none) := by
  obtain ⟨hnb, -, -⟩ := ofNsmb_resid h
  refine ⟨?_, by unfold ofNsmbPlot; rw [h]; rfl⟩
  have hl : Lowpass.lowpass (samples p) 30e3 fs = .error .valueError := by
    unfold Lowpass.lowpass Lowpass.butter1
    rw [if_neg hfs.ne', if_neg]
    rintro ⟨-, h2⟩
    rw [div_lt_one (by positivity)] at h2
    linarith
  unfold ofNsmbPlot plotnsmb
  rw [h]
  simp only [bind, Except.bind, if_true, hl]
  rfl

example : ofNsmbPlot exP exF (getiP exF.P) 8 [-2, 0, 3] 500 true (.bool false) none = .error .valueError := by
  obtain ⟨r, hr, -⟩ := nsmb_defined (by norm_num) exP exF (getiP exF.P) (fs := 8) (by norm_num)
    (window := [-2, 0, 3]) (by simp) (by decide) 500
  exact (rate_violated (by norm_num) (by norm_num) hr _ _).1

/-- Different positive numbers give different files. -/
theorem file_unique {p : ZMod n → ℝ} {F : Filt n nb} {iP} {fs : ℝ} {window : List ℤ} {lf : ℕ}
    {i j : ℕ} (hi : i ≠ 0) (hj : j ≠ 0) (hij : i ≠ j) {shifts shifts' : Option (List (Option ℝ))}
    {r r' : Fit n nb} {fig fig' : NFig n}
    (h : ofNsmbPlot p F iP fs window lf true (.int i) shifts = .ok (r, some fig))
    (h' : ofNsmbPlot p F iP fs window lf true (.int j) shifts' = .ok (r', some fig')) :
    ∃ s s', fig.file = some s ∧ fig'.file = some s' ∧ s ≠ s' := by
  obtain ⟨hnb, -, hp⟩ := ofNsmbPlot_ok h
  obtain ⟨-, -, hp'⟩ := ofNsmbPlot_ok h'
  obtain ⟨w, -, ms, -, rfl⟩ := (plot_ok hnb).1 hp
  obtain ⟨w', -, ms', -, rfl⟩ := (plot_ok hnb).1 hp'
  refine ⟨_, _, if_pos (by simpa [Save.truthy] using hi), if_pos (by simpa [Save.truthy] using hj), ?_⟩
  intro e
  apply hij
  apply toString_nat_inj
  have := congrArg String.toList e
  simp only [String.toList_append, List.append_cancel_right_eq, List.append_cancel_left_eq] at this
  exact String.toList_inj.1 this

example : (∃ r fig, ofNsmbPlot exP exF (getiP exF.P) 625000 [-2, 0, 3] 500 true (.int (1 : ℕ)) none =
    .ok (r, some fig)) ∧ ∃ r fig, ofNsmbPlot exP exF (getiP exF.P) 625000 [-2, 0, 3] 500 true
    (.int (2 : ℕ)) none = .ok (r, some fig) :=
  ⟨(exPlot _).imp fun _ h => h.2, (exPlot _).imp fun _ h => h.2⟩

/-- Contrary to C103 the number `0` saves no file. -/
theorem zero_violated {p : ZMod n → ℝ} {F : Filt n nb} {iP} {fs : ℝ} {window : List ℤ} {lf : ℕ}
    {shifts : Option (List (Option ℝ))} {r : Fit n nb} {fig : NFig n}
    (h : ofNsmbPlot p F iP fs window lf true (.int 0) shifts = .ok (r, some fig)) : fig.file = none := by
  obtain ⟨hnb, -, hp⟩ := ofNsmbPlot_ok h
  obtain ⟨w, -, ms, -, rfl⟩ := (plot_ok hnb).1 hp
  rfl

example : ∃ r fig, ofNsmbPlot exP exF (getiP exF.P) 625000 [-2, 0, 3] 500 true (.int 0) none =
    .ok (r, some fig) := (exPlot _).imp fun _ h => h.2

/-- Contrary to C103 the constrained fit writes over the plot of the unconstrained one with the same
number. -/
theorem overwrite_violated {p : ZMod n → ℝ} {F : Filt n nb} {iP} {fs : ℝ} {c : Fin (nb + 1) → ℤ}
    {window : List ℤ} {wins : List (List ℤ)} {lf : ℕ} {i : ℤ} (hi : i ≠ 0)
    {shifts : Option (List (Option ℝ))} {r : Fit n nb} {r' : ConFit n nb} {fig fig' : NFig n}
    (h : ofNsmbPlot p F iP fs window lf true (.int i) shifts = .ok (r, some fig))
    (h' : ofNsmbConPlot p F fs c window wins lf true (.int i) shifts = .ok (r', some fig')) :
    ∃ s, fig.file = some s ∧ fig'.file = some s := by
  obtain ⟨hnb, -, hp⟩ := ofNsmbPlot_ok h
  obtain ⟨-, -, hp'⟩ := ofNsmbConPlot_ok h'
  obtain ⟨w, -, ms, -, rfl⟩ := (plot_ok hnb).1 hp
  obtain ⟨w', -, ms', -, rfl⟩ := (plot_ok hnb).1 hp'
  exact ⟨_, if_pos (by simpa [Save.truthy] using hi), if_pos (by simpa [Save.truthy] using hi)⟩

example : (∃ r fig, ofNsmbPlot exP exF (getiP exF.P) 625000 [3] 500 true (.int 7) none =
    .ok (r, some fig)) ∧ ∃ r fig, ofNsmbConPlot exP exF 625000 exC [3] [] 500 true (.int 7) none =
    .ok (r, some fig) := by
  refine ⟨?_, exConPlot _⟩
  obtain ⟨r, hr, -⟩ := nsmb_defined (by norm_num) exP exF (getiP exF.P) (fs := 625000) (by norm_num)
    (window := [3]) (by simp) (by decide) 500
  obtain ⟨fig, h⟩ := (plot_defined (by norm_num) hr (.int 7) none).2
    ⟨by norm_num, by norm_num, fun s h => by cases h⟩
  exact ⟨r, fig, h⟩

end Verif.Nsmb
