import Verif.NsmbSpanLemmas

/-! C128: the multi-template fit depends on the backgrounds only through their combinations. -/

namespace Verif.Nsmb
open Verif.Dft Verif.Nsmb.Spec Matrix

variable {n : ℕ} [NeZero n] {nb nb' : ℕ}

/-- Other templates for the same backgrounds, in any number, and backgrounds added to the trace: delay,
chi-squares, residual and errors are the same. -/
theorem nsmb_span {T : Fin (nb + 1) → ZMod n → ℝ} {T' : Fin (nb' + 1) → ZMod n → ℝ} {p p' : ZMod n → ℝ}
    {psd : ZMod n → ℝ} {fs : ℝ} (hnb : 2 ≤ nb) (hnb' : 2 ≤ nb') (h : Equivalent T T' p p')
    (hpsd : ∀ f, f ≠ 0 → 0 < psd f) (hfs : 0 < fs) (window : List ℤ) (lf : ℕ) :
    (runNsmb T' psd fs p' window lf).map Fit.rest = (runNsmb T psd fs p window lf).map Fit.rest := by
  unfold runNsmb
  by_cases hn : n = 1
  · unfold setup
    rw [if_pos hn, if_pos hn]
    rfl
  · obtain ⟨F, hF⟩ := setup_defined_partial T psd fs hn (by omega)
    obtain ⟨F', hF'⟩ := setup_defined_partial T' psd fs hn (by omega)
    rw [hF, hF']
    simp only [Except.bind]
    rcases h.fits hpsd hfs hF hF' (by omega) (by omega) window lf with
      ⟨e, h1, h2⟩ | ⟨r, r', d, -, h1, h2, h3, -⟩
    · rw [h1, h2]
      rfl
    · rw [h1, h2]
      exact congrArg Except.ok h3

/-- The signal amplitude too, if the signal, at the delays of the window, is not itself a combination of
backgrounds. -/
theorem nsmb_signal {T : Fin (nb + 1) → ZMod n → ℝ} {T' : Fin (nb' + 1) → ZMod n → ℝ} {p p' : ZMod n → ℝ}
    {psd : ZMod n → ℝ} {fs : ℝ} (h : Equivalent T T' p p')
    (hpsd : ∀ f, f ≠ 0 → 0 < psd f) (hfs : 0 < fs) {window : List ℤ}
    (hw : ∀ d ∈ window, ¬ Comb (backgrounds T) (roll (T 0) (d : ZMod n))) {lf : ℕ} {r : Fit n nb}
    {r' : Fit n nb'} (hr : runNsmb T psd fs p window lf = .ok r)
    (hr' : runNsmb T' psd fs p' window lf = .ok r') : r'.amps 0 = r.amps 0 := by
  obtain ⟨F, hF, hr⟩ := run_ok hr
  obtain ⟨F', hF', hr'⟩ := run_ok hr'
  rcases h.fits hpsd hfs hF hF' (nb_of_ok hr) (nb_of_ok hr') window lf with
      ⟨e, h1, h2⟩ | ⟨s, s', d, hd, h1, h2, -, h4, h5⟩
  · rw [hr] at h1
    exact nomatch h1
  · rw [hr] at h1
    rw [hr'] at h2
    cases h1
    cases h2
    have e := h.residual hpsd hfs hF hF' (d : ZMod n)
    rw [← h4, ← h5] at e
    by_contra hne
    refine hw d hd ?_
    have hk : r'.amps 0 - r.amps 0 ≠ 0 := sub_ne_zero.2 hne
    have c1 : Comb (backgrounds T) fun τ => ∑ i : Fin nb', r'.amps i.succ * T' i.succ τ :=
      (h.same _).1 ⟨fun i => r'.amps i.succ, fun _ => rfl⟩
    have c2 : Comb (backgrounds T) fun τ => ∑ i : Fin nb, r.amps i.succ * T i.succ τ :=
      ⟨fun i => r.amps i.succ, fun _ => rfl⟩
    have c3 := ((h.trace.add (c1.smul (-1))).add c2).smul (1 / (r'.amps 0 - r.amps 0))
    refine (congrArg (Comb (backgrounds T)) (funext fun τ => ?_)).mp c3
    have q := congrFun e τ
    unfold resTrace at q
    rw [Fin.sum_univ_succ, Fin.sum_univ_succ] at q
    have e1 : ∀ i : Fin nb, delayed T (d : ZMod n) i.succ = T i.succ := fun i => if_neg (Fin.succ_ne_zero i)
    have e2 : ∀ i : Fin nb', delayed T' (d : ZMod n) i.succ = T' i.succ := fun i => if_neg (Fin.succ_ne_zero i)
    simp only [e1, e2, delayed_zero, h.signal] at q
    rw [one_div, inv_mul_eq_iff_eq_mul₀ hk]
    linarith

/-- All amplitudes, for the same templates, if they are independent at the delays of the window: each
background amplitude grows by what was added. -/
theorem nsmb_added {T : Fin (nb + 1) → ZMod n → ℝ} {p : ZMod n → ℝ} (b : Fin nb → ℝ)
    {psd : ZMod n → ℝ} {fs : ℝ} (hpsd : ∀ f, f ≠ 0 → 0 < psd f) (hfs : 0 < fs) {window : List ℤ}
    (hw : ∀ d ∈ window, Indep (delayed T (d : ZMod n))) {lf : ℕ} {r : Fit n nb}
    (hr : runNsmb T psd fs p window lf = .ok r) :
    ∃ r', runNsmb T psd fs (fun τ => p τ + ∑ i, b i * T i.succ τ) window lf = .ok r' ∧ r'.rest = r.rest ∧
      r'.amps 0 = r.amps 0 ∧ ∀ i, r'.amps (Fin.succ i) = r.amps i.succ + b i := by
  have h : Equivalent T T p fun τ => p τ + ∑ i, b i * T i.succ τ :=
    ⟨rfl, fun _ => Iff.rfl, b, fun τ => by simp only [backgrounds]; ring⟩
  obtain ⟨F, hF, hr1⟩ := run_ok hr
  rcases h.fits hpsd hfs hF hF (nb_of_ok hr1) (nb_of_ok hr1) window lf with
      ⟨e, h1, h2⟩ | ⟨s, s', d, hd, h1, h2, h3, h4, h5⟩
  · rw [hr1] at h1
    exact nomatch h1
  rw [hr1] at h1
  cases h1
  refine ⟨s', ?_, h3, ?_⟩
  · unfold runNsmb
    rw [hF]
    exact h2
  have e := h.residual hpsd hfs hF hF (d : ZMod n)
  rw [← h4, ← h5] at e
  have hz := hw d hd (fun i => s'.amps i - r.amps i - (Fin.cons 0 b : Fin (nb + 1) → ℝ) i) fun τ => by
    have q := congrFun e τ
    unfold resTrace at q
    rw [Fin.sum_univ_succ, Fin.sum_univ_succ] at q
    have e1 : ∀ i : Fin nb, delayed T (d : ZMod n) i.succ = T i.succ := fun i => if_neg (Fin.succ_ne_zero i)
    simp only [e1, delayed_zero] at q
    rw [Fin.sum_univ_succ]
    simp only [Fin.cons_zero, Fin.cons_succ, e1, delayed_zero, sub_mul, Finset.sum_sub_distrib]
    linarith
  refine ⟨?_, fun i => ?_⟩
  · have := congrFun hz 0
    simp only [Fin.cons_zero, Pi.zero_apply] at this
    linarith
  · have := congrFun hz i.succ
    simp only [Fin.cons_succ, Pi.zero_apply] at this
    linarith

/-- The fit with backgrounds alone and no polarities: the same chi-squares. -/
theorem mb_span {T : Fin (nb + 1) → ZMod n → ℝ} {T' : Fin (nb' + 1) → ZMod n → ℝ} {p p' : ZMod n → ℝ}
    {psd : ZMod n → ℝ} {fs : ℝ} (h : Equivalent T T' p p')
    (hpsd : ∀ f, f ≠ 0 → 0 < psd f) (hfs : 0 < fs) {lf : ℕ} {r : (Fin nb → ℝ) × ℝ × ℝ}
    {r' : (Fin nb' → ℝ) × ℝ × ℝ} (hr : runMb T psd fs p (fun _ => 0) lf = .ok r)
    (hr' : runMb T' psd fs p' (fun _ => 0) lf = .ok r') : r'.2 = r.2 := by
  obtain ⟨F, hF, hr⟩ := run_ok hr
  obtain ⟨F', hF', hr'⟩ := run_ok hr'
  have hJ := noise_pos (setup_ok hF).1 hpsd hfs
  obtain ⟨a, x, y⟩ := r
  obtain ⟨a', x', y'⟩ := r'
  obtain ⟨h1, h2⟩ := mb_free hF hpsd hfs hr
  obtain ⟨h1', h2'⟩ := mb_free hF' hpsd hfs hr'
  have e := lsq_unique (S := backgrounds T) (S' := backgrounds T') hJ h.same h.trace h2 h2'
  obtain ⟨g1, g2⟩ := h1
  obtain ⟨g1', g2'⟩ := h1'
  simp only [Prod.mk.injEq]
  rw [g1, g2, g1', g2', e]
  exact ⟨rfl, rfl⟩

/-- Templates in other units, the first background added three times to the trace. -/
example : Equivalent exT (fun i τ => (if i = 0 then 1 else 2) * exT i τ) exP fun τ => exP τ + 3 * exT 1 τ := by
  refine ⟨?_, fun x => ⟨?_, ?_⟩, ?_⟩
  · funext τ
    simp
  · rintro ⟨b, hb⟩
    refine ⟨fun i => 2 * b i, fun τ => ?_⟩
    rw [hb]
    refine Finset.sum_congr rfl fun i _ => ?_
    simp only [backgrounds, if_neg (Fin.succ_ne_zero i)]
    ring
  · rintro ⟨b, hb⟩
    refine ⟨fun i => b i / 2, fun τ => ?_⟩
    rw [hb]
    refine Finset.sum_congr rfl fun i _ => ?_
    simp only [backgrounds, if_neg (Fin.succ_ne_zero i)]
    ring
  · refine ⟨![3, 0, 0, 0], fun τ => ?_⟩
    rw [Fin.sum_univ_four]
    have h1 : backgrounds exT 0 τ = exT 1 τ := rfl
    have h2 : (![3, 0, 0, 0] : Fin 4 → ℝ) 2 = 0 := rfl
    have h3 : (![3, 0, 0, 0] : Fin 4 → ℝ) 3 = 0 := rfl
    rw [h1, h2, h3]
    simp

/-- The templates are independent at all delays, and the fit succeeds. -/
example : (∀ d ∈ [-2, 0, 3, 11], Indep (delayed exT ((d : ℤ) : ZMod 8))) ∧
    ∃ r, runNsmb exT exPsd 8 exP [-2, 0, 3, 11] 500 = .ok r := by
  refine ⟨fun d _ => by rw [ex_delayed]; exact ex_indep, ?_⟩
  obtain ⟨r, hr, -⟩ := nsmb_defined (by norm_num) exP exF (getiP exF.P) (fs := 8) (by norm_num)
    (window := [-2, 0, 3, 11]) (by simp) (by decide) 500
  refine ⟨r, ?_⟩
  unfold runNsmb
  rw [exF_setup]
  exact hr

/-- Independent templates: the signal is no combination of backgrounds. -/
example (d : ℤ) : ¬ Comb (backgrounds exT) (roll (exT 0) (d : ZMod 8)) := by
  rintro ⟨b, hb⟩
  have h : Indep (delayed exT (d : ZMod 8)) := by rw [ex_delayed]; exact ex_indep
  have := congrFun (h (Fin.cons (-1) b) fun τ => by
    rw [Fin.sum_univ_succ]
    have e1 : ∀ i : Fin 4, delayed exT (d : ZMod 8) i.succ = exT i.succ := fun i => if_neg (Fin.succ_ne_zero i)
    simp only [Fin.cons_zero, Fin.cons_succ, e1, delayed_zero, hb]
    simp only [backgrounds]
    ring) 0
  simp at this

end Verif.Nsmb
