import Verif.OFLemmas

/-!
Properties of `OptimumFilter` (C27-C32, C35, C40): amplitude and chi-square are those of the
least-squares problem stated on traces in `OFSpec.lean`.

Throughout `x` is the signal, `T` the template, `fs > 0`, every PSD bin is positive (possibly
infinite) and the template has some weight (`0 < traceChi2 ... T`), without which the code divides
by zero.  All statements are about `integralnorm=False`; `integralnorm_template` transfers them.
-/

namespace Verif.OF
open Verif Verif.Dft

variable {n : ℕ} [NeZero n]

/-! ### C28: amplitude at a fixed delay -/

/-- `ofamp_nodelay` at any `windowcenter`: the reported chi-square is the residual chi-square at the
reported amplitude, no amplitude gives less, and no other amplitude gives as little. -/
theorem nodelay_optimal (x T : ZMod n → ℝ) (psd : ZMod n → WithTop ℝ) (fs : ℝ) (ac : Bool) (wc : ℤ)
    (hfs : 0 < fs) (hN : 0 < traceChi2 fs (weight psd ac) T) (a c : ℝ)
    (h : (nodelay (init x T psd fs ac false) wc).1 = (a, c)) :
    c = traceChi2 fs (weight psd ac) (resid x T a (wc : ZMod n)) ∧
    ∀ b, b ≠ a → c < traceChi2 fs (weight psd ac) (resid x T b (wc : ZMod n)) := by
  have ha : a = readSfTd (init x T psd fs ac false) (wc : ZMod n) := by
    rw [← init_nodelay_amp x T psd fs ac hfs.ne' wc, h]
  have hc : c = readChi0 (init x T psd fs ac false) - a ^ 2 * (init x T psd fs ac false).norm := by
    have h1 : a = (nodelay (init x T psd fs ac false) wc).1.1 := by rw [h]
    have h2 : c = (nodelay (init x T psd fs ac false) wc).1.2 := by rw [h]
    rw [h1, h2]; rfl
  refine ⟨?_, fun b hb => ?_⟩
  · rw [resid_square x T psd fs ac hN.ne', ← ha, hc]; ring
  · rw [resid_square x T psd fs ac hN.ne', ← ha, hc]
    have h1 : 0 < (b - a) ^ 2 := by
      have := sub_ne_zero.2 hb
      positivity
    have h2 : 0 < (b - a) ^ 2 * (init x T psd fs ac false).norm := by
      rw [init_norm]; exact mul_pos h1 hN
    linarith

/-- The whole amplitude-vs-delay and chi2-vs-delay arrays behind `ofamp_withdelay`. -/
theorem delay_arrays_optimal (x T : ZMod n → ℝ) (psd : ZMod n → WithTop ℝ) (fs : ℝ) (ac : Bool)
    (hN : 0 < traceChi2 fs (weight psd ac) T) (d : ZMod n) :
    let a := readAmps (init x T psd fs ac false) (d + ((n / 2 : ℕ) : ZMod n))
    let c := readChi (init x T psd fs ac false) (d + ((n / 2 : ℕ) : ZMod n))
    c = traceChi2 fs (weight psd ac) (resid x T a d) ∧
    ∀ b, b ≠ a → c < traceChi2 fs (weight psd ac) (resid x T b d) := by
  intro a c
  have ha : a = readSfTd (init x T psd fs ac false) d := by
    show readAmps _ _ = _; rw [init_amps, add_sub_cancel_right]
  have hc : c = readChi0 (init x T psd fs ac false) - a ^ 2 * (init x T psd fs ac false).norm := by
    rw [ha]; show readChi _ _ = _; rw [init_chi, add_sub_cancel_right]
  clear_value a c
  refine ⟨?_, fun b hb => ?_⟩
  · rw [resid_square x T psd fs ac hN.ne', ← ha, hc]; ring
  · rw [resid_square x T psd fs ac hN.ne', ← ha, hc]
    have h1 : 0 < (b - a) ^ 2 := by
      have := sub_ne_zero.2 hb
      positivity
    have h2 : 0 < (b - a) ^ 2 * (init x T psd fs ac false).norm := by
      rw [init_norm]; exact mul_pos h1 hN
    linarith

/-- `integralnorm=True` equals `integralnorm=False` with the template divided by its integral
(`∑ T / fs`), whenever that integral is not zero. -/
theorem integralnorm_template (x T : ZMod n → ℝ) (psd : ZMod n → WithTop ℝ) (fs : ℝ) (ac : Bool)
    (hfs : fs ≠ 0) (hT : ∑ i, T i ≠ 0) :
    init x T psd fs ac true = init x (fun j => T j / ((∑ i, T i) / fs)) psd fs ac false ∧
    (init x T psd fs ac true).s 0 = 1 := by
  have h : init x T psd fs ac true = init x (fun j => T j / ((∑ i, T i) / fs)) psd fs ac false := by
    rw [init_integralnorm]
    congr 1
    funext j
    field_simp
  refine ⟨h, ?_⟩
  rw [h, init_s, fftR_zero_bin]
  have : ((∑ j, T j / ((∑ i, T i) / fs) : ℝ) : ℂ) = (fs : ℂ) := by
    rw [← Finset.sum_div]
    congr 1
    field_simp
  rw [this, div_self]
  exact_mod_cast hfs

-- the hypotheses hold for white noise and the one-bin template, for every trace length
example : 0 < traceChi2 (5 / 2) (weight white false) (delta : ZMod n → ℝ) := by
  rw [delta_norm]; norm_num

/-! ### C27, C29: the fit with a free delay -/

/-- Without interpolation `ofamp_withdelay` returns the optimum over all admissible delays and all
amplitudes of the required sign; its chi-square is the residual chi-square of what it returns, and
never above the no-pulse chi-square.  If no delay qualifies it returns amplitude and delay zero. -/
theorem withdelay_optimal (x T : ZMod n → ℝ) (psd : ZMod n → WithTop ℝ) (fs : ℝ) (ac : Bool)
    (hN : 0 < traceChi2 fs (weight psd ac) T)
    (nc : Option ℤ) (o : Bool) (dir wc : ℤ) (a t c : ℝ)
    (h : (withdelay (init x T psd fs ac false) nc o dir wc false).1 = .ok (a, t, c)) :
    (∃ d : ℤ, t = d / fs ∧ c = traceChi2 fs (weight psd ac) (resid x T a (d : ZMod n)) ∧
      (Admissible n nc o none wc (d + (n : ℤ) / 2) ∨ (a = 0 ∧ d = 0))) ∧
    c ≤ (chi2Nopulse (init x T psd fs ac false)).1 ∧
    ∀ (d : ℤ) (b : ℝ), Admissible n nc o none wc (d + (n : ℤ) / 2) →
      (dir = 1 → 0 ≤ b) → (dir = -1 → b ≤ 0) →
      c ≤ traceChi2 fs (weight psd ac) (resid x T b (d : ZMod n)) := by
  have hNn : 0 < (init x T psd fs ac false).norm := by rw [init_norm]; exact hN
  simp only [withdelay, pick] at h
  have fin : ∀ r, search (readAmps (init x T psd fs ac false)) (readChi (init x T psd fs ac false))
      nc o dir wc = .ok r →
      (r = none ∧ a = 0 ∧ c = readChi0 (init x T psd fs ac false) ∨
        ∃ i : ℤ, r = some i ∧ a = readAmps (init x T psd fs ac false) (i : ZMod n) ∧
          c = readChi (init x T psd fs ac false) (i : ZMod n)) →
      c ≤ (chi2Nopulse (init x T psd fs ac false)).1 ∧
      ∀ (d : ℤ) (b : ℝ), Admissible n nc o none wc (d + (n : ℤ) / 2) →
      (dir = 1 → 0 ≤ b) → (dir = -1 → b ≤ 0) →
      c ≤ traceChi2 fs (weight psd ac) (resid x T b (d : ZMod n)) := by
    intro r hs hr
    obtain ⟨-, -, h1, h2⟩ := search_optimum (readAmps (init x T psd fs ac false))
      (readChi (init x T psd fs ac false)) (readChi0 (init x T psd fs ac false)) _ hNn
      (fun i => rfl) nc o dir wc r hs a c hr
    refine ⟨h1, fun d b hd hb1 hb2 => ?_⟩
    have := h2 _ b hd hb1 hb2
    rw [init_amps, add_half_cast] at this
    rw [resid_square x T psd fs ac hN.ne']
    exact this
  split at h
  · simp at h
  · rename_i hs
    simp only [Except.ok.injEq, Prod.mk.injEq] at h
    obtain ⟨rfl, rfl, rfl⟩ := h
    refine ⟨⟨0, by simp, ?_, Or.inr ⟨rfl, rfl⟩⟩, fin _ hs (Or.inl ⟨rfl, rfl, rfl⟩)⟩
    rw [resid_expand x T psd fs ac hN.ne']; ring
  · rename_i i hs
    simp only [Bool.false_eq_true, if_false, Except.ok.injEq, Prod.mk.injEq] at h
    obtain ⟨rfl, rfl, rfl⟩ := h
    refine ⟨⟨i - (n : ℤ) / 2, ?_, ?_, Or.inl ?_⟩, fin _ hs (Or.inr ⟨i, rfl, rfl, rfl⟩)⟩
    · rw [show (n : ℤ) / 2 = ((n / 2 : ℕ) : ℤ) by simp]; push_cast; rfl
    · rw [resid_square x T psd fs ac hN.ne', init_amps, init_chi]
      rw [sub_half_cast]
      ring
    · rw [sub_add_cancel]
      exact (search_spec _ _ _ _ _ _ _ hs).2.1.1

/-- With no window, no direction and no interpolation the result is the global optimum over every
delay and amplitude. -/
theorem withdelay_global (x T : ZMod n → ℝ) (psd : ZMod n → WithTop ℝ) (fs : ℝ) (ac : Bool)
    (hN : 0 < traceChi2 fs (weight psd ac) T) :
    ∃ (a : ℝ) (d : ℤ) (c : ℝ), (withdelay (init x T psd fs ac false) none false 0 0 false).1 =
      .ok (a, d / fs, c) ∧
      c = traceChi2 fs (weight psd ac) (resid x T a (d : ZMod n)) ∧
      ∀ (m : ZMod n) (b : ℝ), c ≤ traceChi2 fs (weight psd ac) (resid x T b m) := by
  have hn := Nat.pos_of_ne_zero (NeZero.ne n)
  obtain ⟨r, hr⟩ := argmin_total n (asIdx (readChi (init x T psd fs ac false))) none false none 0
    (by omega) (by simp)
  have hok : ∃ a t c, (withdelay (init x T psd fs ac false) none false 0 0 false).1 = .ok (a, t, c) := by
    have hs : search (readAmps (init x T psd fs ac false)) (readChi (init x T psd fs ac false))
        none false 0 0 = .ok r := by
      rw [← hr]; simp [search, directionMask]
    simp only [withdelay, pick, hs]
    cases r <;> simp
  obtain ⟨a, t, c, h⟩ := hok
  obtain ⟨⟨d, ht, hc, -⟩, -, hopt⟩ := withdelay_optimal x T psd fs ac hN none false 0 0 a t c h
  refine ⟨a, d, c, ht ▸ h, hc, fun m b => ?_⟩
  obtain ⟨d', hd, h1, h2⟩ := exists_index m
  rw [← hd]
  exact hopt d' b ⟨h1, h2, by simp, by simp⟩ (by simp) (by simp)

/-- Sign of the returned amplitude, without interpolation: strictly positive (negative) for
direction `+1` (`-1`), or zero, and zero only when no admissible delay has an amplitude of that
sign. -/
theorem direction_sign_partial (x T : ZMod n → ℝ) (psd : ZMod n → WithTop ℝ) (fs : ℝ) (ac b : Bool)
    (nc : Option ℤ) (o : Bool) (dir wc : ℤ) (a t c : ℝ)
    (h : (withdelay (init x T psd fs ac b) nc o dir wc false).1 = .ok (a, t, c)) :
    (dir = -1 ∨ dir = 0 ∨ dir = 1) ∧
    (dir = 1 → 0 < a ∨ (a = 0 ∧ t = 0 ∧ c = (chi2Nopulse (init x T psd fs ac b)).1 ∧
      ∀ i : ℤ, Admissible n nc o none wc i → readAmps (init x T psd fs ac b) (i : ZMod n) ≤ 0)) ∧
    (dir = -1 → a < 0 ∨ (a = 0 ∧ t = 0 ∧ c = (chi2Nopulse (init x T psd fs ac b)).1 ∧
      ∀ i : ℤ, Admissible n nc o none wc i → 0 ≤ readAmps (init x T psd fs ac b) (i : ZMod n))) := by
  simp only [withdelay, pick] at h
  split at h
  · simp at h
  · rename_i hs
    simp only [Except.ok.injEq, Prod.mk.injEq] at h
    obtain ⟨rfl, rfl, rfl⟩ := h
    obtain ⟨hd, hn⟩ := search_spec _ _ _ _ _ _ _ hs
    refine ⟨hd, fun h1 => Or.inr ⟨rfl, rfl, rfl, fun i hi => ?_⟩,
      fun h1 => Or.inr ⟨rfl, rfl, rfl, fun i hi => ?_⟩⟩
    · by_contra hc
      exact hn i ⟨hi, fun _ => not_le.1 hc, fun h2 => by omega⟩
    · by_contra hc
      exact hn i ⟨hi, fun h2 => by omega, fun _ => not_le.1 hc⟩
  · rename_i i hs
    simp only [Bool.false_eq_true, if_false, Except.ok.injEq, Prod.mk.injEq] at h
    obtain ⟨rfl, rfl, rfl⟩ := h
    obtain ⟨hd, hn⟩ := search_spec _ _ _ _ _ _ _ hs
    exact ⟨hd, fun h1 => Or.inl (hn.1.2.1 h1), fun h1 => Or.inl (hn.1.2.2 h1)⟩

/-- The trace `(1, 0, -3/2)`. -/
noncomputable def badTrace : ZMod 3 → ℝ := ![1, 0, -3/2]

/-- The full claim of C27 fails with interpolation: for white noise, a one-bin template and the
trace `(1, 0, -3/2)`, a fit constrained to positive pulses returns a negative amplitude (the
parabola is put through neighbours that the constraint excluded, so its vertex can be anywhere). -/
theorem direction_interp_violated :
    ∃ a t c : ℝ, (withdelay (init badTrace delta white 1 false false) none false 1 0
      true).1 = .ok (a, t, c) ∧ a < 0 := by
  have hamp : ∀ i, readAmps (init badTrace delta white 1 false false) i =
      badTrace (i - 1) := by
    intro i; rw [init_amps, delta_sfTd _ one_ne_zero]; rfl
  have hchi : ∀ i, readChi (init badTrace delta white 1 false false) i =
      13 / 4 - badTrace (i - 1) ^ 2 := by
    intro i
    rw [init_chi, delta_sfTd _ one_ne_zero, delta_chi0, init_norm, delta_norm]
    have : ∑ j : ZMod 3, badTrace j ^ 2 = 13 / 4 := by
      have := Fin.sum_univ_three (fun j : Fin 3 => (![1, 0, -3/2] : Fin 3 → ℝ) j ^ 2)
      refine this.trans ?_
      norm_num [Matrix.cons_val_two]
    rw [this]; simp
  set st := init badTrace delta white 1 false false with hst
  have v1 : readAmps st ((1 : ℤ) : ZMod 3) = 1 := by rw [hamp]; rfl
  have v2 : readAmps st ((1 + 1 : ℤ) : ZMod 3) = 0 := by rw [hamp]; rfl
  have v0 : readAmps st ((1 - 1 : ℤ) : ZMod 3) = -3/2 := by rw [hamp]; rfl
  have v0' : readAmps st ((0 : ℤ) : ZMod 3) = -3/2 := by rw [hamp]; rfl
  have v2' : readAmps st ((2 : ℤ) : ZMod 3) = 0 := by rw [hamp]; rfl
  have c1 : readChi st ((1 : ℤ) : ZMod 3) = 9/4 := by
    rw [hchi]; rw [← hamp, v1]; norm_num
  have c2 : readChi st ((1 + 1 : ℤ) : ZMod 3) = 13/4 := by
    rw [hchi]; rw [← hamp, v2]; norm_num
  have c0 : readChi st ((1 - 1 : ℤ) : ZMod 3) = 1 := by
    rw [hchi]; rw [← hamp, v0]; norm_num
  have hs : search (readAmps st) (readChi st) none false 1 0 = .ok (some 1) := by
    have hok : ∃ r, search (readAmps st) (readChi st) none false 1 0 = .ok r := by
      obtain ⟨r, hr⟩ := argmin_total 3 (asIdx (readChi st)) none false
        (some fun i => decide (((1 : ℤ) : ℝ) * asIdx (readAmps st) i > 0)) 0 (by decide) (by simp)
      refine ⟨r, ?_⟩
      simp only [search, directionMask]
      simpa using hr
    obtain ⟨r, hr⟩ := hok
    obtain ⟨-, h2⟩ := search_spec _ _ _ _ _ _ _ hr
    cases r with
    | none =>
      exact absurd ⟨⟨by norm_num, by norm_num, by simp, by simp⟩, fun _ => by rw [v1]; norm_num,
        by norm_num⟩ (h2 1)
    | some i =>
      obtain ⟨⟨h3, h4, -, -⟩, h5, -⟩ := h2.1
      have h6 := h5 rfl
      push_cast at h4
      have : i = 0 ∨ i = 1 ∨ i = 2 := by omega
      rcases this with rfl | rfl | rfl
      · rw [v0'] at h6; norm_num at h6
      · exact hr
      · rw [v2'] at h6; norm_num at h6
  refine ⟨-497/16, 9/2, 153/32 , ?_, by norm_num⟩
  simp only [withdelay, pick, hs, interpolateOf, interpolateParabola, v0, v1, v2, c0, c1, c2]
  have : st.fs = 1 := rfl
  rw [this]
  norm_num

end Verif.OF
