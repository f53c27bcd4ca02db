import Verif.NsmbOFLemmas

/-!
Property C112: the multi-template fit against `OptimumFilter` on the same trace.  Both are given the same
noise: `OptimumFilter` takes the PSD with the DC bin replaced by the first bin.
-/

namespace Verif.Nsmb
open Verif Verif.Dft Verif.Nsmb.Spec

variable {n : ℕ} [NeZero n] {nb : ℕ}

/-- **C112.**  Whatever the backgrounds, the multi-template fit is at least as good as the fit of the pulse
alone by `OptimumFilter`, for every constraint on the latter, if its delay is in the window. -/
theorem nsmb_le_withdelay {T : Fin (nb + 1) → ZMod n → ℝ} {psd : ZMod n → ℝ} {fs : ℝ} {F : Filt n nb}
    (hF : setup T psd fs = .ok F) (hpsd : ∀ f, f ≠ 0 → 0 < psd f) (hfs : 0 < fs)
    {p : ZMod n → ℝ} {window : List ℤ} {lf : ℕ} {r : Fit n nb}
    (h : ofNsmb p F (getiP F.P) fs window lf = .ok r)
    (hN : 0 < OF.traceChi2 fs (OF.weight (dcPsd psd) false) (T 0))
    {nc : Option ℤ} {o : Bool} {dir wc : ℤ} {a t c : ℝ}
    (hw : (OF.withdelay (OF.init p (T 0) (dcPsd psd) fs false false) nc o dir wc false).1 = .ok (a, t, c))
    (ht : ∃ d ∈ window, ∃ m : ℤ, t = m / fs ∧ (m : ZMod n) = (d : ZMod n)) : r.chi2min ≤ c := by
  obtain ⟨⟨d, hd, hc, -⟩, -, -⟩ := OF.withdelay_optimal p (T 0) (dcPsd psd) fs false hN nc o dir wc a t c hw
  obtain ⟨d', hd', m, hm, hmd⟩ := ht
  obtain ⟨-, -, -, -, -, hopt⟩ := nsmb_optimal hF hpsd hfs h
  have hdm : d = m := by
    rw [hd] at hm
    have := (div_left_inj' hfs.ne').1 hm
    exact_mod_cast this
  have h1 := hopt d' hd' (Fin.cons a fun _ => 0)
  rw [chi2, resTrace_single, power_eq_traceChi2 psd hfs, ← hmd, ← hdm, ← hc] at h1
  exact h1

/-- **C112.**  With null backgrounds and every delay in the window, it is the fit of `OptimumFilter`: the same
chi-square, reached by the reported signal amplitude at the reported delay. -/
theorem nsmb_null_backgrounds {T : Fin (nb + 1) → ZMod n → ℝ} {psd : ZMod n → ℝ} {fs : ℝ} {F : Filt n nb}
    (hF : setup T psd fs = .ok F) (hpsd : ∀ f, f ≠ 0 → 0 < psd f) (hfs : 0 < fs)
    {p : ZMod n → ℝ} {window : List ℤ} {lf : ℕ} {r : Fit n nb}
    (h : ofNsmb p F (getiP F.P) fs window lf = .ok r) (hwin : FullWindow n window)
    (hN : 0 < OF.traceChi2 fs (OF.weight (dcPsd psd) false) (T 0))
    (hb : ∀ i : Fin nb, T i.succ = 0) :
    ∃ a t, (OF.withdelay (OF.init p (T 0) (dcPsd psd) fs false false) none false 0 0 false).1 =
        .ok (a, t, r.chi2min) ∧
      ∃ m : ℤ, r.tdelmin = m / fs ∧
        r.chi2min = OF.traceChi2 fs (OF.weight (dcPsd psd) false) (OF.resid p (T 0) (r.amps 0) (m : ZMod n)) := by
  obtain ⟨a, d, c, hw, hc, hmin⟩ := OF.withdelay_global p (T 0) (dcPsd psd) fs false hN
  obtain ⟨d', hd', hdf⟩ := hwin (d : ZMod n)
  have h1 := nsmb_le_withdelay hF hpsd hfs h hN hw ⟨d', hd', d, rfl, hdf.symm⟩
  obtain ⟨d2, -, ⟨m, hm, hmd⟩, -, hc2, -⟩ := nsmb_optimal hF hpsd hfs h
  have hres : resTrace p (delayed T (d2 : ZMod n)) r.amps = OF.resid p (T 0) (r.amps 0) (m : ZMod n) := by
    funext j
    rw [resTrace_split, hmd]
    simp [hb, OF.resid]
  rw [chi2, hres, power_eq_traceChi2 psd hfs] at hc2
  have h2 := hmin (m : ZMod n) (r.amps 0)
  rw [← hc2] at h2
  exact ⟨a, d / fs, (le_antisymm h1 h2) ▸ hw, m, hm, hc2⟩

/-- **C112.**  With constant backgrounds that are not all null and every delay in the window, the chi-square is
that of the pulse-and-baseline fit of `OptimumFilter` without constraints. -/
theorem nsmb_constant_backgrounds {T : Fin (nb + 1) → ZMod n → ℝ} {psd : ZMod n → ℝ} {fs : ℝ}
    {F : Filt n nb} (hF : setup T psd fs = .ok F) (hpsd : ∀ f, f ≠ 0 → 0 < psd f) (hfs : 0 < fs)
    {p : ZMod n → ℝ} {window : List ℤ} {lf : ℕ} {r : Fit n nb}
    (h : ofNsmb p F (getiP F.P) fs window lf = .ok r) (hwin : FullWindow n window)
    {k : Fin nb → ℝ} (hb : BackgroundsAre T k fun _ => 1) (hk : ∃ i, k i ≠ 0)
    {ac o : Bool} {wc : ℤ} {a t c : ℝ}
    (hw : OF.baseline (OF.init p (T 0) (dcPsd psd) fs ac false) none o 0 wc false = .ok (a, t, c)) :
    r.chi2min = c := by
  have hn : n ≠ 1 := by
    rintro rfl
    simp [setup] at hF
  obtain ⟨b, -, ⟨d, -, hc, -⟩, -, -, -, hglob⟩ := OF.baseline_optimal p (T 0) (dcPsd psd) fs ac hfs
    (dcPsd_pos hn hpsd) none o 0 wc a t c hw
  obtain ⟨d2, -, ⟨m, hm, hmd⟩, -, hc2, hopt⟩ := nsmb_optimal hF hpsd hfs h
  apply le_antisymm
  · obtain ⟨d', hd', hdf⟩ := hwin (d : ZMod n)
    obtain ⟨i, hi⟩ := hk
    have h1 := hopt d' hd' (Fin.cons a (Pi.single i (b / k i)))
    have hres : resTrace p (delayed T (d' : ZMod n)) (Fin.cons a (Pi.single i (b / k i))) =
        OF.residB p (T 0) a (d : ZMod n) b := by
      funext j
      rw [resTrace_split, hdf, Finset.sum_eq_single i]
      · simp [OF.residB, hb i j, hi]
      · intro i' _ hi'
        simp [Pi.single_eq_of_ne hi']
      · simp
    rw [chi2, hres, power_eq_traceChi2 psd hfs, ← hc] at h1
    exact h1
  · have hres : resTrace p (delayed T (d2 : ZMod n)) r.amps =
        OF.residB p (T 0) (r.amps 0) (m : ZMod n) (∑ i : Fin nb, r.amps i.succ * k i) := by
      funext j
      rw [resTrace_split, hmd]
      simp [OF.residB, hb _ j]
    rw [chi2, hres, power_eq_traceChi2 psd hfs] at hc2
    rw [hc2]
    exact hglob rfl rfl _ _ _

/-! A spike as template, white noise and eight bins, with two constant or two null backgrounds. -/

example (p : ZMod 8 → ℝ) : ∃ F r a t, setup (ofExT 0) (fun _ => 1) 8 = .ok F ∧
    ofNsmb p F (getiP F.P) 8 [0, 1, 2, 3, 4, 5, 6, 7] 4 = .ok r ∧
    (OF.withdelay (OF.init p (ofExT 0 0) (dcPsd fun _ => 1) 8 false false) none false 0 0 false).1 =
      .ok (a, t, r.chi2min) := by
  obtain ⟨F, hF⟩ := setup_defined_partial (ofExT 0) (fun _ => 1) 8 (by norm_num) (by norm_num)
  obtain ⟨r, hr, -⟩ := nsmb_defined (by norm_num) p F (getiP F.P) (fs := 8) (by norm_num)
    (window := [0, 1, 2, 3, 4, 5, 6, 7]) (by simp) (by decide) 4
  obtain ⟨a, t, h, -⟩ := nsmb_null_backgrounds hF (fun _ _ => one_pos) (by norm_num) hr (by unfold FullWindow; decide)
    (ofExT_pos 0) (fun i => by funext j; simp [ofExT])
  exact ⟨F, r, a, t, hF, hr, h⟩

example (p : ZMod 8 → ℝ) : ∃ F r a t, setup (ofExT 1) (fun _ => 1) 8 = .ok F ∧
    ofNsmb p F (getiP F.P) 8 [0, 1, 2, 3, 4, 5, 6, 7] 4 = .ok r ∧
    OF.baseline (OF.init p (ofExT 1 0) (dcPsd fun _ => 1) 8 true false) none false 0 0 false =
      .ok (a, t, r.chi2min) := by
  obtain ⟨F, hF⟩ := setup_defined_partial (ofExT 1) (fun _ => 1) 8 (by norm_num) (by norm_num)
  obtain ⟨r, hr, -⟩ := nsmb_defined (by norm_num) p F (getiP F.P) (fs := 8) (by norm_num)
    (window := [0, 1, 2, 3, 4, 5, 6, 7]) (by simp) (by decide) 4
  obtain ⟨a, t, c, h⟩ := OF.baseline_defined p (ofExT 1 0) (dcPsd fun _ => 1) 8 true (by norm_num)
    (dcPsd_pos (by norm_num) fun _ _ => one_pos) (fun k => by simp [dcPsd])
    (fun b => by
      by_cases hb : b = 0
      · exact ⟨0, by simp [ofExT, hb]⟩
      · exact ⟨1, by simp [ofExT]; exact fun h => hb h.symm⟩)
    none false 0 0 (Or.inl rfl) (by norm_num) (by simp)
  have := nsmb_constant_backgrounds hF (fun _ _ => one_pos) (by norm_num) hr (by unfold FullWindow; decide)
    (k := fun _ => 1) (fun i j => by simp [ofExT]) ⟨0, by norm_num⟩ h
  exact ⟨F, r, a, t, hF, hr, this ▸ h⟩

end Verif.Nsmb
