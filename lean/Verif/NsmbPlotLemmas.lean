import Verif.NsmbPlot
import Verif.NsmbProps
import Verif.LowpassProps
import Verif.NsmbEx

/-! Lemmas on the plot of the multi-template fits. -/

namespace Verif.Nsmb
open Verif Verif.Dft Spec

variable {n : ℕ} [NeZero n] {nb : ℕ}

omit [NeZero n] in
theorem resid_fittott [NeZero n] (sbf : Fin (nb + 1) → ZMod n → ℂ) (fs : ℝ) (p : ZMod n → ℝ)
    (a : Fin (nb + 1) → ℝ) (td : ℝ) (m : ZMod n) :
    p m - fittott sbf fs a td m = resid sbf fs p a td m := rfl

/-- One row of the fit in the time domain. -/
theorem fitt_eq (T : Fin (nb + 1) → ZMod n → ℝ) {fs : ℝ} (hfs : fs ≠ 0) (a : Fin (nb + 1) → ℝ)
    (d : ℤ) (i : Fin (nb + 1)) (m : ZMod n) :
    fitt (sbtemplatef T) fs a (tdel n fs d) i m = a i * delayed T (d : ZMod n) i m := by
  have h : fitf (sbtemplatef T) fs a (tdel n fs d) i =
      fun f => fftR (fun τ => a i * delayed T (d : ZMod n) i τ) f / n := by
    funext f
    unfold fitf
    by_cases hi : i = 0
    · rw [if_pos hi, phase_eq fs hfs, hi, delayed_zero, fftR_smul, fftR_roll, sbtemplatef]
      ring
    · rw [if_neg hi, delayed_ne _ _ hi, fftR_smul, sbtemplatef]
      ring
  unfold fitt
  rw [h, ifft_div_n, Complex.ofReal_re]

theorem fittott_eq (T : Fin (nb + 1) → ZMod n → ℝ) {fs : ℝ} (hfs : fs ≠ 0) (a : Fin (nb + 1) → ℝ)
    (d : ℤ) (m : ZMod n) :
    fittott (sbtemplatef T) fs a (tdel n fs d) m = ∑ i, a i * delayed T (d : ZMod n) i m := by
  have h1 := resid_fittott (sbtemplatef T) fs (fun _ => 0) a (tdel n fs d) m
  rw [resid_eq T fs hfs] at h1
  simp only [resTrace] at h1
  linarith

omit [NeZero n] in
@[simp] theorem samples_length (p : ZMod n → ℝ) : (samples p).length = n := by simp [samples]

theorem mem_samples (p : ZMod n → ℝ) (v : ℝ) : v ∈ samples p ↔ ∃ m, p m = v := by
  simp only [samples, List.mem_map, List.mem_range]
  constructor
  · rintro ⟨k, -, rfl⟩; exact ⟨_, rfl⟩
  · rintro ⟨m, rfl⟩
    exact ⟨m.val, ZMod.val_lt m, by rw [ZMod.natCast_zmod_val]⟩

theorem bkgRows_eq (hnb : 2 ≤ nb) : bkgRows nb =
    (List.finRange (nb - 2)).map fun j => ⟨j.val + 1, by omega⟩ := by
  obtain ⟨k, rfl⟩ : ∃ k, nb = k + 2 := ⟨nb - 2, by omega⟩
  have hinj : Function.Injective (Fin.val : Fin (k + 2 + 1) → ℕ) := Fin.val_injective
  apply List.map_injective_iff.2 hinj
  unfold bkgRows
  have e : (fun j : Fin (k + 2 + 1) => decide (1 ≤ j.val ∧ j.val < k + 2 + 1 - 2)) =
      (fun m : ℕ => decide (1 ≤ m ∧ m < k + 2 + 1 - 2)) ∘ Fin.val := rfl
  rw [e, ← List.filter_map, List.map_map]
  have h1 : (List.finRange (k + 2 + 1)).map Fin.val = List.range (k + 2 + 1) := List.map_coe_finRange_eq_range
  have h2 : ((List.finRange (k + 2 - 2)).map (Fin.val ∘ fun j : Fin (k + 2 - 2) =>
      (⟨j.val + 1, by omega⟩ : Fin (k + 2 + 1)))) = (List.range k).map (· + 1) := by
    rw [← List.map_coe_finRange_eq_range, List.map_map]; rfl
  rw [h1, h2, show k + 2 + 1 = 1 + k + 2 by ring, List.range_add, List.range_add, List.filter_append,
    List.filter_append]
  have h3 : List.filter (fun m => decide (1 ≤ m ∧ m < 1 + k + 2 - 2)) (List.range 1) = [] := by
    rw [List.filter_eq_nil_iff]; intro m hm; simp at hm; simp [hm]
  have h4 : List.filter (fun m => decide (1 ≤ m ∧ m < 1 + k + 2 - 2))
      ((List.range 2).map (1 + k + ·)) = [] := by
    rw [List.filter_eq_nil_iff]; intro m hm
    simp only [List.mem_map, List.mem_range] at hm
    obtain ⟨j, hj, rfl⟩ := hm
    simp
  have h5 : List.filter (fun m => decide (1 ≤ m ∧ m < 1 + k + 2 - 2))
      ((List.range k).map (1 + ·)) = (List.range k).map (1 + ·) := by
    rw [List.filter_eq_self]; intro m hm
    simp only [List.mem_map, List.mem_range] at hm
    obtain ⟨j, hj, rfl⟩ := hm
    simp; omega
  rw [h3, h4, h5, List.nil_append, List.append_nil]
  exact List.map_congr_left fun m _ => add_comm _ _

omit [NeZero n] in
theorem mapM_ok {α β : Type} (f : α → Except Err β) (g : α → β) (h : ∀ x, f x = .ok (g x)) (l : List α) :
    l.mapM f = .ok (l.map g) := by
  induction l with
  | nil => rfl
  | cons x l ih => rw [List.mapM_cons, h x, ih]; rfl

/-- The curve of one template on the constant and the slope. -/
noncomputable def base (fit : Fin (nb + 1) → ZMod n → ℝ) (j : Fin (nb + 1)) (m : ZMod n) : ℝ :=
  fit j m + fit (Fin.last nb) m + fit ⟨nb - 1, by omega⟩ m

/-- What a drawn plot contains. -/
theorem plot_ok (hnb : nb ≠ 0) {p : ZMod n → ℝ} {fs td : ℝ} {a : Fin (nb + 1) → ℝ}
    {sbf : Fin (nb + 1) → ZMod n → ℂ} {J : ZMod n → ℝ} {lp : ℝ} {save : Save} {name : String}
    {shifts : Option (List (Option ℝ))} {fig : NFig n} :
    plotnsmb p fs td a sbf J (some lp) save name shifts = .ok fig ↔
      ∃ w, Lowpass.lowpass (samples p) lp fs = .ok w ∧ ∃ ms, markers nb shifts = .ok ms ∧
      fig = { filtered := some w, data := p, total := fittott sbf fs a td
              label := residChi2 J (resid sbf fs p a td)
              bkg := (bkgRows nb).map (base (fitt sbf fs a td))
              sig := if |a 0| > 1e-20 then some (base (fitt sbf fs a td) 0) else none
              marks := ms
              file := if save.truthy then some (name ++ save.str ++ ".png") else none } := by
  have hb : ∀ j, onBase (fitt sbf fs a td) j = .ok (base (fitt sbf fs a td) j) := fun j => if_neg hnb
  unfold plotnsmb
  rw [mapM_ok _ _ hb, hb]
  simp only [resid_fittott]
  cases hl : Lowpass.lowpass (samples p) lp fs with
  | error e => constructor
               · intro h; cases h
               · rintro ⟨w, hw, -⟩; cases hw
  | ok w =>
    cases hm : markers nb shifts with
    | error e =>
      constructor
      · intro h; split_ifs at h <;> cases h
      · rintro ⟨w, -, ms, hms, -⟩; cases hms
    | ok ms =>
      constructor
      · intro h
        refine ⟨w, rfl, ms, rfl, ?_⟩
        by_cases h0 : |a 0| > 1e-20
        · simp only [if_pos h0] at h ⊢; cases h; rfl
        · simp only [if_neg h0] at h ⊢; cases h; rfl
      · rintro ⟨w', hw, ms', hms, rfl⟩
        cases hw
        cases hms
        by_cases h0 : |a 0| > 1e-20
        · simp only [if_pos h0]; rfl
        · simp only [if_neg h0]; rfl

omit [NeZero n] in
theorem markers_ok {s : Option (List (Option ℝ))} {ms : List ℝ} (h : markers nb s = .ok ms) :
    (s = none ∧ ms = []) ∨ ∃ l, s = some l ∧ nb ≤ l.length ∧ ms = (l.take nb).filterMap id := by
  cases s with
  | none => cases h; exact .inl ⟨rfl, rfl⟩
  | some l =>
    unfold markers at h
    by_cases hl : l.length < nb
    · simp only [if_pos hl] at h; cases h
    · simp only [if_neg hl] at h; cases h
      exact .inr ⟨l, rfl, by omega, rfl⟩

omit [NeZero n] in
theorem tdel_zero (fs : ℝ) : tdel n fs 0 = 0 := by
  unfold tdel
  rw [if_neg (by simp; positivity)]
  simp

omit [NeZero n] in
theorem delayed_at_zero (T : Fin (nb + 1) → ZMod n → ℝ) : delayed T 0 = T := by
  funext i
  unfold delayed
  split_ifs
  · exact roll_zero _
  · rfl

theorem ofNsmb_resid {p : ZMod n → ℝ} {F : Filt n nb} {iP} {fs : ℝ} {window : List ℤ} {lf : ℕ}
    {r : Fit n nb} (h : ofNsmb p F iP fs window lf = .ok r) :
    nb ≠ 0 ∧ (∃ d : ℤ, r.tdelmin = tdel n fs d) ∧ r.residT = resid F.sbf fs p r.amps r.tdelmin := by
  unfold ofNsmb at h
  simp only at h
  by_cases hnb : nb = 0
  · rw [if_pos hnb] at h
    split_ifs at h
  rw [if_neg hnb] at h
  cases hp : pickIdx (chi2T F.psddnu F.phi iP p) (window.map (wrapIdx n)) with
  | error e => rw [hp] at h; cases h
  | ok ind => rw [hp] at h; cases h; exact ⟨hnb, ⟨ind, rfl⟩, rfl⟩

theorem ofNsmbPlot_ok {p : ZMod n → ℝ} {F : Filt n nb} {iP} {fs : ℝ} {window : List ℤ} {lf : ℕ}
    {save : Save} {shifts : Option (List (Option ℝ))} {r : Fit n nb} {fig : NFig n}
    (h : ofNsmbPlot p F iP fs window lf true save shifts = .ok (r, some fig)) :
    nb ≠ 0 ∧ ofNsmb p F iP fs window lf = .ok r ∧
      plotnsmb p fs r.tdelmin r.amps F.sbf F.psddnu (some 30e3) save "./scFit" shifts = .ok fig := by
  unfold ofNsmbPlot at h
  cases hr : ofNsmb p F iP fs window lf with
  | error e => rw [hr] at h; cases h
  | ok r' =>
    rw [hr] at h
    simp only [bind, Except.bind, if_true] at h
    cases hp : plotnsmb p fs r'.tdelmin r'.amps F.sbf F.psddnu (some 30e3) save "./scFit" shifts with
    | error e => rw [hp] at h; cases h
    | ok f =>
      rw [hp] at h
      cases h
      exact ⟨(ofNsmb_resid hr).1, rfl, hp⟩

theorem ofNsmbConPlot_ok {p : ZMod n → ℝ} {F : Filt n nb} {fs : ℝ} {c : Fin (nb + 1) → ℤ}
    {window : List ℤ} {wins : List (List ℤ)} {lf : ℕ}
    {save : Save} {shifts : Option (List (Option ℝ))} {r : ConFit n nb} {fig : NFig n}
    (h : ofNsmbConPlot p F fs c window wins lf true save shifts = .ok (r, some fig)) :
    nb ≠ 0 ∧ ofNsmbCon p F fs c window wins lf = .ok r ∧
      plotnsmb p fs r.tdelmin r.amps F.sbf F.psddnu (some 30e3) save "./scFit" shifts = .ok fig := by
  unfold ofNsmbConPlot at h
  cases hr : ofNsmbCon p F fs c window wins lf with
  | error e => rw [hr] at h; cases h
  | ok r' =>
    rw [hr] at h
    simp only [bind, Except.bind, if_true] at h
    cases hp : plotnsmb p fs r'.tdelmin r'.amps F.sbf F.psddnu (some 30e3) save "./scFit" shifts with
    | error e => rw [hp] at h; cases h
    | ok f =>
      rw [hp] at h
      cases h
      refine ⟨fun hnb => ?_, rfl, hp⟩
      have := firstErr_none (ofNsmbCon_ok hr).1 0
      unfold conStep at this
      rw [if_pos hnb] at this
      cases this

theorem ofMbPlot_ok {p : ZMod n → ℝ} {F : Filt n nb} {fs : ℝ} {c : Fin nb → ℤ} {lf : ℕ}
    {save : Save} {shifts : Option (List (Option ℝ))} {r : (Fin nb → ℝ) × ℝ × ℝ} {fig : NFig n}
    (h : ofMbPlot p F fs c lf true save shifts = .ok (r, some fig)) :
    ofMb p F c lf = .ok r ∧
      plotnsmb p fs 0 (Fin.cons 0 r.1) F.sbf F.psddnu (some 30e3) save "./bcFit" shifts = .ok fig := by
  unfold ofMbPlot at h
  cases hr : ofMb p F c lf with
  | error e => rw [hr] at h; cases h
  | ok r' =>
    rw [hr] at h
    simp only [bind, Except.bind, if_true] at h
    cases hp : plotnsmb p fs 0 (Fin.cons 0 r'.1) F.sbf F.psddnu (some 30e3) save "./bcFit" shifts with
    | error e => rw [hp] at h; cases h
    | ok f =>
      rw [hp] at h
      cases h
      exact ⟨rfl, hp⟩

/-- A sum over the templates: the signal, the last two, and the backgrounds between. -/
theorem sum_templates (hnb : 2 ≤ nb) (g : Fin (nb + 1) → ℝ) :
    ∑ i, g i = g 0 + (g (Fin.last nb) + g ⟨nb - 1, by omega⟩) +
      ((List.finRange (nb - 2)).map fun j => g ⟨j.val + 1, by omega⟩).sum := by
  obtain ⟨k, rfl⟩ : ∃ k, nb = k + 2 := ⟨nb - 2, by omega⟩
  rw [Fin.sum_univ_succ, Fin.sum_univ_castSucc, Fin.sum_univ_castSucc, ← List.ofFn_eq_map, List.sum_ofFn]
  have e : ∑ i : Fin k, g i.castSucc.castSucc.succ = ∑ i : Fin (k + 2 - 2), g ⟨i.val + 1, by omega⟩ := rfl
  rw [e]
  have e1 : (Fin.last k).castSucc.succ = (⟨k + 2 - 1, by omega⟩ : Fin (k + 2 + 1)) := rfl
  have e2 : (Fin.last (k + 1)).succ = Fin.last (k + 2) := rfl
  rw [e1, e2]
  ring

theorem last_two (hnb : 2 ≤ nb) (g : Fin (nb + 1) → ℝ) :
    ∑ i : Fin (nb + 1), (if nb - 1 ≤ i.val then g i else 0) =
      g (Fin.last nb) + g ⟨nb - 1, by omega⟩ := by
  rw [sum_templates hnb, if_neg (by simp; omega), if_pos (by simp), if_pos (by simp)]
  have : ((List.finRange (nb - 2)).map fun j : Fin (nb - 2) =>
      if nb - 1 ≤ j.val + 1 then g ⟨j.val + 1, by omega⟩ else 0).sum = 0 := by
    apply List.sum_eq_zero
    intro v hv
    obtain ⟨j, -, rfl⟩ := List.mem_map.1 hv
    rw [if_neg (by omega)]
  rw [this]
  ring

theorem toString_nat_inj {i j : ℕ} (h : toString (i : ℤ) = toString (j : ℤ)) : i = j := by
  have e : ∀ k : ℕ, toString (k : ℤ) = Nat.repr k := fun k => rfl
  rw [e, e] at h
  have h' : Nat.toDigits 10 i = Nat.toDigits 10 j := by
    have := congrArg String.toList h
    simpa [Nat.repr] using this
  have := congrArg (fun l => Nat.ofDigitChars 10 l 0) h'
  simpa using this

/-! ### The example of `NsmbEx` at a realistic sampling rate -/

theorem exF_setup' : setup exT (fun _ => 8 / 625000) 625000 = .ok exF := by
  have h : psddnu (fun _ => 8 / 625000 : ZMod 8 → ℝ) 625000 = psddnu exPsd 8 := by
    funext f
    unfold psddnu exPsd
    norm_num
  rw [← exF_setup]
  unfold setup
  rw [h]

theorem exFig (a : Fin 5 → ℝ) (td : ℝ) (save : Save) (name : String) {shifts : Option (List (Option ℝ))}
    (hs : ∀ s, shifts = some s → 4 ≤ s.length) :
    ∃ fig, plotnsmb exP 625000 td a exF.sbf exF.psddnu (some 30e3) save name shifts = .ok fig := by
  obtain ⟨w, hw⟩ := (Lowpass.lowpass_defined (by norm_num : (0 : ℝ) < 625000) (samples exP) 30e3).1.2
    ⟨by norm_num, by norm_num, by simp⟩
  have hm : ∃ ms, markers 4 shifts = .ok ms := by
    cases shifts with
    | none => exact ⟨_, rfl⟩
    | some s => exact ⟨_, if_neg (not_lt.2 (hs s rfl))⟩
  obtain ⟨ms, hm⟩ := hm
  exact ⟨_, (plot_ok (by norm_num)).2 ⟨w, hw, ms, hm, rfl⟩⟩

theorem exPlot (save : Save) : ∃ r, ofNsmb exP exF (getiP exF.P) 625000 [-2, 0, 3] 500 = .ok r ∧
    ∃ fig, ofNsmbPlot exP exF (getiP exF.P) 625000 [-2, 0, 3] 500 true save none = .ok (r, some fig) := by
  obtain ⟨r, hr, -⟩ := nsmb_defined (by norm_num) exP exF (getiP exF.P) (fs := 625000) (by norm_num)
    (window := [-2, 0, 3]) (by simp) (by decide) 500
  obtain ⟨fig, hf⟩ := exFig r.amps r.tdelmin save "./scFit" (shifts := none) (fun s h => by cases h)
  refine ⟨r, hr, fig, ?_⟩
  unfold ofNsmbPlot
  rw [hr]
  simp only [bind, Except.bind, if_true, hf]

theorem exMbPlot {a : Fin 4 → ℝ} {x y : ℝ} (h : ofMb exP exF (fun _ => 1) 500 = .ok (a, x, y))
    (save : Save) : ∃ fig, ofMbPlot exP exF 625000 (fun _ => 1) 500 true save
      (some [some 0, some 3, some 0, none]) = .ok ((a, x, y), some fig) := by
  obtain ⟨fig, hf⟩ := exFig (Fin.cons 0 a) 0 save "./bcFit" (shifts := some [some 0, some 3, some 0, none])
    (fun s h => by cases h; simp)
  refine ⟨fig, ?_⟩
  unfold ofMbPlot
  rw [h]
  simp only [bind, Except.bind, if_true, hf]

theorem exConPlot (save : Save) : ∃ r fig,
    ofNsmbConPlot exP exF 625000 exC [3] [] 500 true save none = .ok (r, some fig) := by
  have hp : ∀ chi : ZMod 8 → ℝ, pickIdx chi [3] = .ok 3 := fun chi => by
    unfold pickIdx
    rw [if_neg (by norm_num)]
    rfl
  have hi : interpchi2 3 ((List.range 8).map fun (k : ℕ) =>
      ((k : ℝ) * (1 / 625000), conChi2 exF exP (k : ZMod 8) (conAmps exF exP exC (k : ZMod 8)),
        conAmps exF exP exC (k : ZMod 8) 0)) = .error .nan := by
    have hchi : ∀ k : ℕ, conChi2 exF exP (k : ZMod 8) exA3 = conChi2 exF exP 0 exA3 := by
      intro t
      rw [conChi2, conChi2, qt_setup exF_setup, qt_setup exF_setup, ex_delayed,
        ex_delayed]
    simp only [ex_conAmps, hchi]
    generalize conChi2 exF exP 0 exA3 = y
    generalize exA3 0 = a
    have : List.range 8 = [0, 1, 2, 3, 4, 5, 6, 7] := rfl
    rw [this]
    unfold interpchi2
    simp only [List.map_cons, List.map_nil, List.length_cons, List.length_nil]
    have e1 : Np.clipIdx 8 (3 + 2) = 5 := by decide
    have e2 : Np.clipIdx 8 (3 - 1) = 2 := by decide
    simp only [e1, e2, List.take_succ_cons, List.take_zero, List.drop_succ_cons, List.drop_zero,
      Nat.reduceAdd]
    rw [if_neg (by norm_num)]
    have hz : ∀ x0 x1 x2 : ℝ, (polyfit3 (x0, y) (x1, y) (x2, y)).1 = 0 := by
      intro x0 x1 x2
      simp [polyfit3]
    rw [if_pos (hz _ _ _)]
  have hr : ∃ r, ofNsmbCon exP exF 625000 exC [3] [] 500 = .ok r := by
    unfold ofNsmbCon
    rw [ex_firstErr]
    simp only [hp, hi, winFits]
    exact ⟨_, rfl⟩
  obtain ⟨r, hr⟩ := hr
  obtain ⟨fig, hf⟩ := exFig r.amps r.tdelmin save "./scFit" (shifts := none) (fun s h => by cases h)
  refine ⟨r, fig, ?_⟩
  unfold ofNsmbConPlot
  rw [hr]
  simp only [bind, Except.bind, if_true, hf]

end Verif.Nsmb
