import Verif.NsmbIntEx

/-!
The interpolated minimum returned by `of_nsmb_con` when the search windows are contiguous (C79).
`quad` is the parabola through three neighbouring values (`NsmbIntSpec.lean`).
-/

namespace Verif.Nsmb

open Verif.Dft Verif.Nsmb.Spec Matrix

variable {n : ℕ} [NeZero n] {nb : ℕ}

/-- **C79 (further windows).**  For a contiguous further window the interpolation always succeeds.
If the best bin `i` is at an edge of the window, the bin itself is returned.  Otherwise the
result is the minimum of the parabola through the chi2 of the three bins around `i`, at most half a
bin away, with a chi2 that is not larger, and the amplitude is read off the parabola through the
three amplitudes. -/
theorem windows_interp {T : Fin (nb + 1) → ZMod n → ℝ} {psd : ZMod n → ℝ} {fs : ℝ} {F : Filt n nb}
    (hF : setup T psd fs = .ok F) (hpsd : ∀ f, f ≠ 0 → 0 < psd f) (hfs : 0 < fs)
    {p : ZMod n → ℝ} {c : Fin (nb + 1) → ℤ} {window : List ℤ} {wins : List (List ℤ)} {lf : ℕ}
    {r : ConFit n nb} (h : ofNsmbCon p F fs c window wins lf = .ok r) :
    ∃ A : ZMod n → Fin (nb + 1) → ℝ, (∀ t, conStep F p c t = .ok (A t)) ∧
    List.Forall₂ (fun (win : List ℤ) (w : WinFit) => ∀ lo hi, win = OF.arange lo hi →
      ∃ i, lo ≤ i ∧ i < hi ∧ w.tdel = i / fs ∧
        let chi (k : ℤ) : ℝ := chi2 (noise psd fs) p T ((k : ZMod n) - (n / 2 : ℕ))
          (A ((k : ZMod n) - (n / 2 : ℕ)))
        let amp (k : ℤ) : ℝ := A ((k : ZMod n) - (n / 2 : ℕ)) 0
        ((i = lo ∨ i = hi - 1) ∧ w.interp = .ok (i / fs, chi i, amp i)) ∨
        ((lo < i ∧ i < hi - 1) ∧ ∃ s, |s| ≤ 1 / 2 ∧
          (∀ u, quad (chi (i - 1)) (chi i) (chi (i + 1)) s ≤
            quad (chi (i - 1)) (chi i) (chi (i + 1)) u) ∧
          quad (chi (i - 1)) (chi i) (chi (i + 1)) s ≤ w.chi2 ∧
          w.interp = .ok (i / fs + s / fs, quad (chi (i - 1)) (chi i) (chi (i + 1)) s,
            quad (amp (i - 1)) (amp i) (amp (i + 1)) s))) wins r.wins := by
  obtain ⟨hf, ind, -, hw, -⟩ := ofNsmbCon_ok h
  have hcon : ∀ t : ZMod n, conChi2 F p t (conAmps F p c t) =
      chi2 (noise psd fs) p T t (conAmps F p c t) := by
    intro t
    obtain ⟨m, hm⟩ := conStep_mask (firstErr_none hf t)
    exact (maskFit_spec hF hpsd hfs hm).2.1
  refine ⟨conAmps F p c, firstErr_none hf, (winFits_each hw).imp ?_⟩
  rintro win w hw lo hi rfl
  obtain ⟨i, h1, h2, h3, h4, h5, h6⟩ := winFit_interp hfs hw
  refine ⟨i, h1, h2, h3, ?_⟩
  dsimp only
  simp only [← hcon]
  rw [← h4]
  rcases h6 with ⟨he, h6⟩ | ⟨he, y0, y2, g0, g2, rfl, rfl, h6⟩
  · left
    refine ⟨he, ?_⟩
    rw [h6, h3, h5]
  · right
    refine ⟨he, _, (vertex_min g0 g2).1, (vertex_min g0 g2).2, ?_, ?_⟩
    · refine ((vertex_min g0 g2).2 0).trans_eq (quad_pts _ _ _).2.1
    · rw [h6, h3, h5]
      simp only [mul_one_div]

example : ∃ F, setup inT inPsd 4 = .ok F ∧ (∀ f, f ≠ 0 → 0 < inPsd f) ∧ ∃ r,
    ofNsmbCon inP F 4 (fun _ => 0) (OF.arange 0 (4 : ℕ)) [OF.arange (-1) 2] 500 = .ok r ∧
      r.tdelmin ≠ -1 / 4 := by
  obtain ⟨F, hF⟩ := in_setup
  exact ⟨F, hF, inPsd_pos, in_call hF⟩

/-- **C79 (search over the whole trace).**  If `of_nsmb_con` searches all delays, its interpolated
minimum is at most half a bin from the returned delay up to a multiple of the trace length, it lies
within half a trace length of zero, and its chi2 is not larger than the returned one.  Not covered:
the last bin (delay `-1` bin), which has no right neighbour; for delay `0` the call raises
(`con_zero_delay_violated`). -/
theorem con_interp_partial {T : Fin (nb + 1) → ZMod n → ℝ} {psd : ZMod n → ℝ} {fs : ℝ}
    {F : Filt n nb} (hF : setup T psd fs = .ok F) (hpsd : ∀ f, f ≠ 0 → 0 < psd f) (hfs : 0 < fs)
    {p : ZMod n → ℝ} {c : Fin (nb + 1) → ℤ} {wins : List (List ℤ)} {lf : ℕ} {r : ConFit n nb}
    (h : ofNsmbCon p F fs c (OF.arange 0 n) wins lf = .ok r) (hn : 3 ≤ n)
    (hlast : r.tdelmin ≠ -1 / fs) :
    ∃ t x a, r.interp = .ok (t, x, a) ∧ |t| ≤ n / (2 * fs) ∧
      (∃ k : ℤ, |t - r.tdelmin + k * (n / fs)| ≤ 1 / (2 * fs)) ∧ x ≤ r.chi2min := by
  obtain ⟨hf, ind, hp, -, ha, ht, hr, hx, -⟩ := ofNsmbCon_ok h
  have hcon : ∀ t : ZMod n, conChi2 F p t (conAmps F p c t) =
      chi2 (noise psd fs) p T t (conAmps F p c t) := by
    intro t
    obtain ⟨m, hm⟩ := conStep_mask (firstErr_none hf t)
    exact (maskFit_spec hF hpsd hfs hm).2.1
  have hchi : r.chi2min = conChi2 F p (ind : ZMod n) (conAmps F p c (ind : ZMod n)) := by
    rw [hx, residChi2_eq, hr, ht, (setup_ok hF).2.2.2.2.2.2.1, resid_eq T fs hfs.ne',
      (setup_ok hF).2.2.1, hcon, ha]
    rfl
  obtain ⟨h1, h2, h3, h4⟩ := pick_arange hp
  have h0 : ind ≠ 0 := by
    rintro rfl
    have := con_zero hn p F fs c (OF.arange 0 n) wins lf hf hp
    rw [this] at h
    cases h
  have hl : ind ≠ n - 1 := by
    rintro rfl
    apply hlast
    rw [ht]
    unfold tdel
    have hn' : (3 : ℝ) ≤ n := by exact_mod_cast hn
    simp only
    push_cast
    rw [if_pos (by linarith)]
    ring
  obtain ⟨k, hk⟩ : ∃ k : ℕ, ind = k + 1 := ⟨(ind - 1).toNat, by omega⟩
  subst hk
  have g0 := h4 (k : ℤ) (by omega) (by omega)
  have g2 := h3 ((k : ℤ) + 2) (by omega) (by omega)
  push_cast at g0 g2 hchi
  have hi := interp_value (k := k) (x := ((k : ℝ) + 1) * (1 / fs))
    (pts := (List.range n).map fun (k : ℕ) =>
          ((k : ℝ) * (1 / fs), conChi2 F p (k : ZMod n) (conAmps F p c (k : ZMod n)),
            conAmps F p c (k : ZMod n) 0)) (one_div_pos.2 hfs)
    (a0 := conAmps F p c (k : ZMod n) 0) (a1 := conAmps F p c ((k : ZMod n) + 1) 0)
    (a2 := conAmps F p c ((k : ZMod n) + 2) 0) (by
      rw [take_drop_range _ (by omega)]
      push_cast
      rw [show ((k : ℝ) + 1) * (1 / fs) - 1 / fs = k * (1 / fs) by ring,
        show ((k : ℝ) + 1) * (1 / fs) + 1 / fs = (k + 2) * (1 / fs) by ring]) g0 g2
  have hint := ofNsmbCon_interp h hp hi
  have hv := vertex_min g0 g2
  refine ⟨_, _, _, hint, ?_, ?_, ?_⟩
  · have hb := abs_le.1 hv.1
    generalize vertex _ _ _ = s at hb ⊢
    have hk2 : (k : ℝ) + 2 ≤ n := by exact_mod_cast (by omega : k + 2 ≤ n)
    have hk0 : (0 : ℝ) ≤ k := Nat.cast_nonneg k
    have hf' : 0 < 1 / fs := one_div_pos.2 hfs
    have e1 : ((k : ℝ) + 1) * (1 / fs) + s * (1 / fs) = (k + 1 + s) * (1 / fs) := by ring
    have e2 : (n : ℝ) * (1 / fs) / 2 = n / 2 * (1 / fs) := by ring
    have e3 : (n : ℝ) / (2 * fs) = n / 2 * (1 / fs) := by field_simp
    rw [e1, e2, e3]
    split_ifs with hc
    · have hc' := lt_of_mul_lt_mul_right hc hf'.le
      rw [show (k + 1 + s) * (1 / fs) - n * (1 / fs) * 1 = (k + 1 + s - n) * (1 / fs) by ring,
        abs_mul, abs_of_pos hf']
      refine mul_le_mul_of_nonneg_right (abs_le.2 ⟨?_, ?_⟩) hf'.le <;> linarith
    · have hc' := le_of_mul_le_mul_right (not_lt.1 hc) hf'
      rw [mul_zero, sub_zero, abs_mul, abs_of_pos hf']
      refine mul_le_mul_of_nonneg_right (abs_le.2 ⟨?_, ?_⟩) hf'.le <;> linarith
  · have hb := hv.1
    generalize vertex _ _ _ = s at hb ⊢
    have hf' : 0 < 1 / fs := one_div_pos.2 hfs
    refine ⟨(if ((k : ℝ) + 1) * (1 / fs) + s * (1 / fs) > n * (1 / fs) / 2 then 1 else 0) -
      (if (((k + 1 : ℤ) : ℝ)) > (n : ℝ) / 2 then 1 else 0), ?_⟩
    rw [ht]
    unfold tdel
    simp only
    have e : ∀ (P Q : Prop) [Decidable P] [Decidable Q],
        ((k : ℝ) + 1) * (1 / fs) + s * (1 / fs) - n * (1 / fs) * (if P then 1 else 0) -
        ((((k + 1 : ℤ) : ℝ)) - n * (if Q then 1 else 0)) * (1 / fs) +
        (((if P then 1 else 0) - (if Q then 1 else 0) : ℤ) : ℝ) * (n / fs) = s * (1 / fs) := by
      intro P Q _ _
      push_cast
      ring
    rw [e, abs_mul, abs_of_pos hf', show (1 : ℝ) / (2 * fs) = 1 / 2 * (1 / fs) by field_simp]
    exact mul_le_mul_of_nonneg_right hb hf'.le
  · rw [hchi]
    exact (hv.2 0).trans_eq (quad_pts _ _ _).2.1

end Verif.Nsmb
