import Verif.OFRecConLemmas

/-! C118: noise-free events in the background-only fit and in the fit with polarity constraints. -/

namespace Verif.OF
open Verif Verif.Dft Verif.Nsmb Verif.Nsmb.Spec Matrix

variable {n : ℕ} [NeZero n] {nb : ℕ}

/-- **C118.**  The background-only fit of an event without signal: if the backgrounds are independent and their
amplitudes are not zero and have the demanded signs, they are returned, with chi2 zero. -/
theorem mb_recovers {T : Fin (nb + 1) → ZMod n → ℝ} {psd : ZMod n → ℝ} {fs : ℝ} {F : Filt n nb}
    (hF : setup T psd fs = .ok F) (hpsd : ∀ f, f ≠ 0 → 0 < psd f) (hfs : 0 < fs) {B : Fin nb → ℝ} {c : Fin nb → ℤ}
    (hind : ∀ b : Fin nb → ℝ, (∀ j, ∑ i, b i * T i.succ j = 0) → b = 0)
    (hB : ∀ i, Obeys (c i) (B i) ∧ B i ≠ 0) (lf : ℕ) :
    ofMb (fun j => ∑ i, B i * T i.succ j) F c lf = .ok (B, 0, 0) := by
  obtain ⟨hn1, hnb, hJ, -, -, -, -, hT, hBm, hiB⟩ := setup_ok hF
  have hpos := noise_pos hn1 hpsd hfs
  set p : ZMod n → ℝ := fun j => ∑ i, B i * T i.succ j with hp
  have hz : resTrace p (fun i : Fin nb => T i.succ) B = fun _ => 0 := by funext j; simp [resTrace, hp]
  have huniq : ∀ a : Fin nb → ℝ, power (noise psd fs) (resTrace p (fun i : Fin nb => T i.succ) a) ≤ 0 → a = B := by
    intro a ha
    have h0 := power_eq_zero hpos (le_antisymm ha (power_nonneg hpos _))
    have := hind (fun i => B i - a i) (fun j => by
      have e := h0 j
      simp only [resTrace, hp] at e
      simp only [sub_mul, Finset.sum_sub_distrib]
      exact e)
    funext i
    have := congrFun this i
    simp only [Pi.zero_apply] at this
    linarith
  have ha0 : (F.iB *ᵥ fun i => (∑ f, qf F.phi p i.succ f).re) = B := by
    refine huniq _ ?_
    rw [hiB, hBm, bsum_eq hF p]
    have := (gram_lsq hpos p (fun i : Fin nb => T i.succ)).2.2 B
    rwa [power_zero _ hz] at this
  have hd : ∀ i, disallowed B c i = false := by
    intro i
    refine disallowed_false ?_
    rintro (⟨h1, h2⟩ | ⟨h1, h2⟩ | h1)
    · exact absurd ((hB i).1.1 h2) (not_le.2 h1)
    · exact absurd ((hB i).1.2 h2) (not_le.2 h1)
    · exact (hB i).2 h1
  have hok : ∃ a x y, ofMb p F c lf = .ok (a, x, y) := by
    unfold ofMb
    simp only [ha0, hd, Bool.not_false]
    rw [if_neg (by simpa [ones] using hnb)]
    exact ⟨_, _, _, rfl⟩
  obtain ⟨a, x, y, h⟩ := hok
  obtain ⟨hx, -⟩ := mb_optimal_partial hF hpsd hfs h
  obtain ⟨m, -, hm, ha, -⟩ := ofMb_ok h
  have haB : a = B := by
    refine huniq a ?_
    have key := (mask_lsq hpos p (fun i : Fin nb => T i.succ) m).2 B (fun i hi => by
      rw [hm, ha0] at hi
      simp [hd] at hi)
    rw [power_zero _ hz] at key
    have hbs' : ∀ i : Fin nb, (∑ f, qf F.phi p i.succ f).re = ipR (noise psd fs) (T i.succ) p :=
      fun i => congrFun (bsum_eq hF p) i
    have ha' : a = expand m (pinv (Matrix.of fun i j => ipR (noise psd fs) (T i.1.succ) (T j.1.succ)) *ᵥ
        fun i => ipR (noise psd fs) (T i.1.succ) p) := by
      rw [ha, hBm]
      simp only [hbs']
      rfl
    rw [ha']
    exact key
  rw [haB, power_zero _ hz] at hx
  have hy : y = 0 := by
    rw [ofMb_lf h, haB, hT]
    refine lf_zero _ ?_ _
    funext τ
    simp only [hp, mul_comm (T _ τ), sub_self]
  rw [h, haB, hx, hy]

/-- **C118.**  The fit with polarity constraints, whenever it returns: amplitudes that obey the constraints and are not
zero are found, at the true delay, and the residual vanishes. -/
theorem con_exact {T : Fin (nb + 1) → ZMod n → ℝ} {psd : ZMod n → ℝ} {fs : ℝ} {F : Filt n nb}
    (hF : setup T psd fs = .ok F) (hnb : nb ≠ 0) (hpsd : ∀ f, f ≠ 0 → 0 < psd f) (hfs : 0 < fs) {k : ℤ}
    {A : Fin (nb + 1) → ℝ} {c : Fin (nb + 1) → ℤ} {window : List ℤ} (hk : k ∈ window) {wins : List (List ℤ)} {lf : ℕ}
    (hind : ∀ (s : ZMod n → ℝ) (b : Fin nb → ℝ), {d | s d ≠ 0}.ncard ≤ 2 →
      (∀ j, pulses (T 0) s 0 j + ∑ i, b i * T i.succ j = 0) → s = 0 ∧ b = 0)
    (hA : ∀ i, Obeys (c i) (A i) ∧ A i ≠ 0) {r : ConFit n nb}
    (h : ofNsmbCon (fun j => ∑ i, A i * delayed T (k : ZMod n) i j) F fs c window wins lf = .ok r) :
    r.amps = A ∧ r.chi2min = 0 ∧ (∀ j, r.residT j = 0) ∧ ∃ m : ℤ, r.tdelmin = m / fs ∧ (m : ZMod n) = (k : ZMod n) := by
  have hJ := noise_pos (setup_ok hF).1 hpsd hfs
  obtain ⟨d, -, ⟨m, hm, hmd⟩, hres, hchi, -, hopt⟩ := con_reported hF hpsd hfs h
  obtain ⟨a, ha, hle⟩ := hopt k hk
  rw [conStep_true hF hnb hpsd hfs hind hA] at ha
  cases ha
  have h0 : chi2 (noise psd fs) (fun j => ∑ i, A i * delayed T (k : ZMod n) i j) T (k : ZMod n) A = 0 :=
    power_zero _ (by funext j; simp [resTrace])
  rw [h0] at hle
  have hc : r.chi2min = 0 := le_antisymm hle (by rw [hchi]; exact power_nonneg hJ _)
  have hr : ∀ j, r.residT j = 0 := by
    rw [hres]
    exact power_eq_zero hJ (by rw [hc] at hchi; exact hchi.symm)
  rw [hres] at hr
  obtain ⟨e1, e2⟩ := indep_same hind (hA 0).2 hr
  exact ⟨e1, hc, by rw [hres]; exact hr, m, hm, hmd.trans e2⟩

/-- **C118.**  The fit with polarity constraints returns if every delay can be fitted (C59: at no delay is a single
template left) and the true delay is not the first bin (C78). -/
theorem con_recovers {T : Fin (nb + 1) → ZMod n → ℝ} {psd : ZMod n → ℝ} {fs : ℝ} {F : Filt n nb}
    (hF : setup T psd fs = .ok F) (hnb : nb ≠ 0) (hpsd : ∀ f, f ≠ 0 → 0 < psd f) (hfs : 0 < fs) {k : ℤ}
    {A : Fin (nb + 1) → ℝ} {c : Fin (nb + 1) → ℤ} {window : List ℤ} (hk : k ∈ window) (hk1 : 1 ≤ k)
    (hw : ∀ i ∈ window, 0 ≤ i ∧ i < n) (lf : ℕ)
    (hind : ∀ (s : ZMod n → ℝ) (b : Fin nb → ℝ), {d | s d ≠ 0}.ncard ≤ 2 →
      (∀ j, pulses (T 0) s 0 j + ∑ i, b i * T i.succ j = 0) → s = 0 ∧ b = 0)
    (hA : ∀ i, Obeys (c i) (A i) ∧ A i ≠ 0)
    (hs : ∀ t, ∃ a, conStep F (fun j => ∑ i, A i * delayed T (k : ZMod n) i j) c t = .ok a) :
    ∃ r, ofNsmbCon (fun j => ∑ i, A i * delayed T (k : ZMod n) i j) F fs c window [] lf = .ok r ∧
      r.amps = A ∧ r.chi2min = 0 ∧ (∀ j, r.residT j = 0) ∧
      ∃ m : ℤ, r.tdelmin = m / fs ∧ (m : ZMod n) = (k : ZMod n) := by
  have hJ := noise_pos (setup_ok hF).1 hpsd hfs
  set p : ZMod n → ℝ := fun j => ∑ i, A i * delayed T (k : ZMod n) i j with hp
  have hst : ∀ t, conStep F p c t = .ok (conAmps F p c t) := by
    intro t
    obtain ⟨a, ha⟩ := hs t
    unfold conAmps
    rw [ha]
  have hcon : ∀ t : ZMod n, conChi2 F p t (conAmps F p c t) = chi2 (noise psd fs) p T t (conAmps F p c t) := by
    intro t
    obtain ⟨m, hm⟩ := conStep_mask (hst t)
    exact (maskFit_spec hF hpsd hfs hm).2.1
  obtain ⟨ind, hi⟩ := pickIdx_defined (n := n) (chi := fun t => conChi2 F p t (conAmps F p c t)) (win := window)
    (List.ne_nil_of_mem hk) (fun i hi => by have := hw i hi; omega)
  obtain ⟨hmem, hmin, -⟩ := pickIdx_ok hi
  have hkA : conAmps F p c (k : ZMod n) = A := by
    have := hst (k : ZMod n)
    rw [conStep_true hF hnb hpsd hfs hind hA] at this
    exact (Except.ok.inj this).symm
  have h0 : chi2 (noise psd fs) p T (k : ZMod n) A = 0 := power_zero _ (by funext j; simp [resTrace, hp])
  have hle : chi2 (noise psd fs) p T (ind : ZMod n) (conAmps F p c (ind : ZMod n)) ≤ 0 := by
    have := hmin k hk
    rwa [hcon, hcon, hkA, h0] at this
  obtain ⟨-, e⟩ := indep_same hind (hA 0).2 (power_eq_zero hJ (le_antisymm hle (power_nonneg hJ _)))
  have hik : ind = k := by
    have h1 := hw ind hmem
    have h2 := hw k hk
    rw [ZMod.intCast_eq_intCast_iff'] at e
    rwa [Int.emod_eq_of_lt h1.1 h1.2, Int.emod_eq_of_lt h2.1 h2.2] at e
  obtain ⟨r, hr⟩ := ofNsmbCon_returns (fs := fs) (lf := lf) hs hi (by omega) (hw ind hmem).2
  exact ⟨r, hr, con_exact hF hnb hpsd hfs hk hind hA hr⟩

/-- The signal of height 2 at delay 3 of the example above, with the constraints that it and the constant background
are positive and the alternating one negative: every delay can be fitted. -/
example : ∃ F, setup exT (fun _ => 1) 8 = .ok F ∧
    ∃ r, ofNsmbCon (fun j => ∑ i, ![2, 7, -4] i * delayed exT ((3 : ℤ) : ZMod 8) i j) F 8 ![1, 1, -1]
      [0, 1, 2, 3, 4, 5, 6, 7] [] 500 = .ok r ∧ r.amps = ![2, 7, -4] ∧ r.chi2min = 0 := by
  obtain ⟨F, hF⟩ := setup_defined_partial exT (fun _ => 1) 8 (by norm_num) (by norm_num)
  obtain ⟨r, h, h1, h2, -⟩ := con_recovers hF (by norm_num) (fun _ _ => one_pos) (by norm_num) (k := 3)
    (A := ![2, 7, -4]) (c := ![1, 1, -1]) (window := [0, 1, 2, 3, 4, 5, 6, 7]) (by simp) (by norm_num) (by simp) 500
    (fun s b hs h => indep_ex s b hs fun j => by
      have := h j
      simpa [Fin.sum_univ_two, exT] using this)
    (fun i => by fin_cases i <;> norm_num [Obeys, v2]) (ex_fitted hF)
  exact ⟨F, hF, r, h, h1, h2⟩

/-- The same backgrounds without the signal. -/
example : ∃ F, setup exT (fun _ => 1) 8 = .ok F ∧
    ofMb (fun j => ∑ i : Fin 2, ![7, -4] i * exT i.succ j) F ![1, 0] 500 = .ok (![7, -4], 0, 0) := by
  obtain ⟨F, hF⟩ := setup_defined_partial exT (fun _ => 1) 8 (by norm_num) (by norm_num)
  refine ⟨F, hF, mb_recovers hF (fun _ _ => one_pos) (by norm_num) (fun b h => ?_) (fun i => ?_) 500⟩
  · refine (indep_ex 0 b (by simp) fun j => ?_).2
    have := h j
    simpa [Fin.sum_univ_two, exT, pulses] using this
  · fin_cases i <;> norm_num [Obeys]

end Verif.OF
