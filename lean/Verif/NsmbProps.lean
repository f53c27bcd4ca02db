import Verif.NsmbIntLemmas

/-!
Properties of the multi-template optimum filter (C57, C58, C59, C77-C80).
`Spec.chi2 (noise psd fs) p T t a` is the noise-weighted residual of amplitudes `a` at signal delay
`t` (`NsmbSpec.lean`).
-/

namespace Verif.Nsmb

open Verif.Dft Verif.Nsmb.Spec Matrix

variable {n : ℕ} [NeZero n] {nb : ℕ}

/-! ### C77: which template sets are accepted -/

/-- **C77 (partial).**  The setup succeeds for every trace of at least two bins and any number of
backgrounds other than one. -/
theorem setup_defined_partial (T : Fin (nb + 1) → ZMod n → ℝ) (psd : ZMod n → ℝ) (fs : ℝ)
    (hn : n ≠ 1) (hnb : nb ≠ 1) : ∃ F, setup T psd fs = .ok F := by
  unfold setup
  rw [if_neg hn, if_neg hnb]
  exact ⟨_, rfl⟩

example : ∃ F, setup exT exPsd 8 = .ok F := setup_defined_partial _ _ _ (by norm_num) (by norm_num)

/-- **C77 is violated**: with a single background template `of_nsmb_setup` always raises. -/
theorem setup_single_violated (T : Fin 2 → ZMod n → ℝ) (psd : ZMod n → ℝ) (fs : ℝ) (hn : n ≠ 1) :
    setup (nb := 1) T psd fs = .error .linAlgError := by
  unfold setup
  rw [if_neg hn, if_pos rfl]

example : setup (n := 8) (nb := 1) (fun _ _ => 1) (fun _ => 1) 1 = .error .linAlgError :=
  setup_single_violated _ _ _ (by norm_num)

/-- **C77 is violated**: without backgrounds the setup succeeds but the fit always raises. -/
theorem no_background_violated (p : ZMod n → ℝ) (F : Filt n 0) (iP) (fs : ℝ) (window : List ℤ)
    (lf : ℕ) : ∃ e, ofNsmb p F iP fs window lf = .error e := by
  unfold ofNsmb
  simp only [if_true]
  by_cases h : window = []
  · exact ⟨_, if_pos h⟩
  · exact ⟨_, if_neg h⟩

/-! ### C57: the unconstrained fit -/

/-- **C57.**  Whenever `of_nsmb` returns, for templates that may be linearly dependent: the reported
delay is that of an index in the window, the residual is the trace minus the fitted templates, the
reported chi2 is the chi2 of the reported amplitudes, and no amplitudes at any delay in the window
have a smaller one. -/
theorem nsmb_optimal {T : Fin (nb + 1) → ZMod n → ℝ} {psd : ZMod n → ℝ} {fs : ℝ} {F : Filt n nb}
    (hF : setup T psd fs = .ok F) (hpsd : ∀ f, f ≠ 0 → 0 < psd f) (hfs : 0 < fs)
    {p : ZMod n → ℝ} {window : List ℤ} {lf : ℕ} {r : Fit n nb}
    (h : ofNsmb p F (getiP F.P) fs window lf = .ok r) :
    ∃ d ∈ window, (∃ m : ℤ, r.tdelmin = m / fs ∧ (m : ZMod n) = (d : ZMod n)) ∧
      r.residT = resTrace p (delayed T (d : ZMod n)) r.amps ∧
      r.chi2min = chi2 (noise psd fs) p T (d : ZMod n) r.amps ∧
      ∀ j ∈ window, ∀ a, r.chi2min ≤ chi2 (noise psd fs) p T (j : ZMod n) a := by
  unfold ofNsmb at h
  simp only at h
  by_cases hnb : nb = 0
  · rw [if_pos hnb] at h
    split_ifs at h
  rw [if_neg hnb] at h
  cases hp : pickIdx (chi2T F.psddnu F.phi (getiP F.P) p) (window.map (wrapIdx n)) with
  | error e => rw [hp] at h; cases h
  | ok ind =>
    rw [hp] at h
    cases h
    obtain ⟨h1, h2, -⟩ := pickIdx_ok hp
    obtain ⟨d, hd, rfl⟩ := List.mem_map.1 h1
    obtain ⟨m, hm1, hm2⟩ := tdel_int (n := n) fs (wrapIdx n d)
    rw [wrapIdx_cast] at hm2
    have hs := (setup_ok hF).2.2.2.2.2.2.1
    refine ⟨d, hd, ⟨m, hm1, hm2⟩, ?_, ?_, ?_⟩
    · simp only [hs]
      rw [resid_eq T fs hfs.ne', wrapIdx_cast]
    · simp only [wrapIdx_cast]
      exact (delay_fit hF hpsd hfs p _).1
    · intro j hj a
      have h3 := h2 (wrapIdx n j) (List.mem_map.2 ⟨j, hj, rfl⟩)
      rw [wrapIdx_cast, wrapIdx_cast] at h3
      obtain ⟨h4, h5⟩ := delay_fit hF hpsd hfs p (j : ZMod n)
      simp only [wrapIdx_cast]
      exact h3.trans (h4.le.trans (h5 a))

/-- **C57.**  The reported chi2 is the noise-weighted power of the returned residual; the
low-frequency chi2 is its part below the cut-off. -/
theorem nsmb_chi2_residual {T : Fin (nb + 1) → ZMod n → ℝ} {psd : ZMod n → ℝ} {fs : ℝ}
    {F : Filt n nb} (hF : setup T psd fs = .ok F) (hpsd : ∀ f, f ≠ 0 → 0 < psd f) (hfs : 0 < fs)
    {p : ZMod n → ℝ} {window : List ℤ} {lf : ℕ} {r : Fit n nb}
    (h : ofNsmb p F (getiP F.P) fs window lf = .ok r) :
    r.chi2min = power (noise psd fs) r.residT ∧
    r.chi2minlf = ∑ f with f.val < lf, ‖fftR r.residT f / n‖ ^ 2 / noise psd fs f := by
  obtain ⟨d, -, -, h1, h2, -⟩ := nsmb_optimal hF hpsd hfs h
  refine ⟨by rw [h2, h1]; rfl, ?_⟩
  have hlf : r.chi2minlf = residChi2Lf F.psddnu r.residT lf := by
    unfold ofNsmb at h
    simp only at h
    by_cases hnb : nb = 0
    · rw [if_pos hnb] at h
      split_ifs at h
    rw [if_neg hnb] at h
    cases hp : pickIdx (chi2T F.psddnu F.phi (getiP F.P) p) (window.map (wrapIdx n)) with
    | error e => rw [hp] at h; cases h
    | ok ind => rw [hp] at h; cases h; rfl
  rw [hlf, residChi2Lf, (setup_ok hF).2.2.1, re_sum_div]
  refine Finset.sum_congr rfl fun f _ => ?_
  rw [mul_comm, Complex.mul_conj, Complex.ofReal_re, Complex.normSq_eq_norm_sq]

/-- **C57.**  `of_nsmb` returns for every non-empty window of indices not below `-nt`, and the
reported delay then lies within half a trace. -/
theorem nsmb_defined (hnb : nb ≠ 0) (p : ZMod n → ℝ) (F : Filt n nb) (iP) {fs : ℝ} (hfs : 0 < fs)
    {window : List ℤ} (h0 : window ≠ []) (hw : ∀ i ∈ window, -(n : ℤ) ≤ i) (lf : ℕ) :
    ∃ r, ofNsmb p F iP fs window lf = .ok r ∧ |r.tdelmin| ≤ n / 2 / fs := by
  have hr : ∀ i ∈ window.map (wrapIdx n), -(n : ℤ) ≤ i ∧ i < n := by
    intro i hi
    obtain ⟨d, hd, rfl⟩ := List.mem_map.1 hi
    obtain ⟨h1, h2⟩ := wrapIdx_range (n := n) (hw d hd)
    exact ⟨by omega, h2⟩
  obtain ⟨ind, hind⟩ := pickIdx_defined (chi := chi2T F.psddnu F.phi iP p)
    (by simpa using h0 : window.map (wrapIdx n) ≠ []) hr
  unfold ofNsmb
  simp only
  rw [if_neg hnb, hind]
  refine ⟨_, rfl, ?_⟩
  obtain ⟨h1, -, -⟩ := pickIdx_ok hind
  obtain ⟨d, hd, rfl⟩ := List.mem_map.1 h1
  obtain ⟨h2, h3⟩ := wrapIdx_range (n := n) (hw d hd)
  have h2' : (0 : ℝ) ≤ (wrapIdx n d : ℤ) := by exact_mod_cast h2
  have h3' : ((wrapIdx n d : ℤ) : ℝ) < n := by exact_mod_cast h3
  simp only [tdel]
  rw [mul_one_div, abs_div, abs_of_pos hfs]
  refine div_le_div_of_nonneg_right ?_ hfs.le
  rw [abs_le]
  split_ifs with h4 <;> constructor <;> linarith

example : ∃ r, ofNsmb exP exF (getiP exF.P) 8 [-2, 0, 3, 11] 500 = .ok r ∧
    r.chi2min = power (noise exPsd 8) r.residT := by
  obtain ⟨r, hr, -⟩ := nsmb_defined (by norm_num) exP exF (getiP exF.P) (fs := 8) (by norm_num)
    (window := [-2, 0, 3, 11]) (by simp) (by decide) 500
  exact ⟨r, hr, (nsmb_chi2_residual exF_setup exPsd_pos (by norm_num) hr).1⟩

/-! ### C80: the caller's window -/

/-- **C80 is violated**: `of_nsmb` overwrites the caller's window. -/
theorem window_mutated_violated :
    ∃ r, ofNsmb exP exF (getiP exF.P) 8 [-2] 500 = .ok r ∧ r.window = [6] := by
  obtain ⟨r, hr, -⟩ := nsmb_defined (by norm_num) exP exF (getiP exF.P) (fs := 8) (by norm_num)
    (window := [-2]) (by simp) (by decide) 500
  refine ⟨r, hr, ?_⟩
  unfold ofNsmb at hr
  simp only at hr
  rw [if_neg (by norm_num)] at hr
  cases hp : pickIdx (chi2T exF.psddnu exF.phi (getiP exF.P) exP) ([-2].map (wrapIdx 8)) with
  | error e => rw [hp] at hr; cases hr
  | ok ind =>
    rw [hp] at hr; cases hr
    change [-2].map (wrapIdx 8) = [6]
    decide

/-- **C80 (partial).**  A window inside the trace is left alone; any window not reaching below `-nt`
can be reused: the second fit gives the same result. -/
theorem window_reuse_partial {p : ZMod n → ℝ} {F : Filt n nb} {iP} {fs : ℝ} {window : List ℤ}
    {lf : ℕ} {r : Fit n nb} (h : ofNsmb p F iP fs window lf = .ok r) :
    ((∀ i ∈ window, 0 ≤ i ∧ i < n) → r.window = window) ∧
    ((∀ i ∈ window, -(n : ℤ) ≤ i) → ofNsmb p F iP fs r.window lf = .ok r) := by
  rw [ofNsmb_window h]
  refine ⟨fun hw => ?_, fun hw => ?_⟩
  · conv_rhs => rw [← List.map_id window]
    exact List.map_congr_left fun i hi => wrapIdx_id (hw i hi).1 (hw i hi).2
  · have e : (window.map (wrapIdx n)).map (wrapIdx n) = window.map (wrapIdx n) := by
      rw [List.map_map]
      refine List.map_congr_left fun i hi => ?_
      obtain ⟨h1, h2⟩ := wrapIdx_range (n := n) (hw i hi)
      exact wrapIdx_id h1 h2
    have hnil : window.map (wrapIdx n) = [] ↔ window = [] := by simp
    unfold ofNsmb at h ⊢
    simp only [e, hnil]
    exact h

/-! ### C59: masks -/

/-- **C59 (partial).**  For every mask that does not have exactly one active template,
`of_nsmb_getPt` returns the matrix of noise-weighted correlations of the active templates, with the
signal at the requested delay. -/
theorem getPt_gram_partial {T : Fin (nb + 1) → ZMod n → ℝ} {psd : ZMod n → ℝ} {fs : ℝ}
    {F : Filt n nb} (hF : setup T psd fs = .ok F) (t : ZMod n) (m : Fin (nb + 1) → Bool)
    (hm : ones m ≠ 1) :
    getPt F.Pfs F.P t m = .ok (of fun i j =>
      ∑ f, (starRingEnd ℂ (fftR (delayed T t i.1) f / n) * (fftR (delayed T t j.1) f / n)).re /
        noise psd fs f) := by
  obtain ⟨-, -, -, -, hPfs, hP, -⟩ := setup_ok hF
  unfold getPt
  rw [if_neg hm]
  simp only [hPfs, hP, ptEntry_eq]
  rfl

example : ones (![true, false, true, false, false] : Fin 5 → Bool) ≠ 1 := by decide

omit [NeZero n] in
/-- **C59 is violated**: every mask with exactly one active template raises `IndexError`. -/
theorem getPt_single_violated (F : Filt n nb) (t : ZMod n) (m : Fin (nb + 1) → Bool)
    (hm : ones m = 1) : getPt F.Pfs F.P t m = .error .indexError := if_pos hm

example : getPt exF.Pfs exF.P 3 ![true, false, false, false, false] = .error .indexError :=
  getPt_single_violated _ _ _ (by decide)

/-- **C59 is violated** for `of_mb`: if exactly one background amplitude of the unconstrained fit is
allowed, the function raises `ValueError`. -/
theorem mb_single_violated (p : ZMod n → ℝ) (F : Filt n nb) (c : Fin nb → ℤ) (lf : ℕ)
    (h : ones (fun i => !disallowed (F.iB *ᵥ fun i => (∑ f, qf F.phi p i.succ f).re) c i) = 1) :
    ofMb p F c lf = .error .valueError := by
  unfold ofMb
  exact if_pos h

/-! ### C58: polarity constraints -/

/-- **C58 (partial).**  `of_mb` reports the chi2 of its amplitudes; backgrounds whose unconstrained
amplitude is disallowed get amplitude zero, and the others minimise the chi2 given that. -/
theorem mb_optimal_partial {T : Fin (nb + 1) → ZMod n → ℝ} {psd : ZMod n → ℝ} {fs : ℝ}
    {F : Filt n nb} (hF : setup T psd fs = .ok F) (hpsd : ∀ f, f ≠ 0 → 0 < psd f) (hfs : 0 < fs)
    {p : ZMod n → ℝ} {c : Fin nb → ℤ} {lf : ℕ} {a : Fin nb → ℝ} {x y : ℝ}
    (h : ofMb p F c lf = .ok (a, x, y)) :
    x = power (noise psd fs) (resTrace p (fun i : Fin nb => T i.succ) a) ∧
    ∃ a0 : Fin nb → ℝ,
      (∀ b, power (noise psd fs) (resTrace p (fun i : Fin nb => T i.succ) a0) ≤
        power (noise psd fs) (resTrace p (fun i : Fin nb => T i.succ) b)) ∧
      (∀ i, ¬ Obeys (c i) (a0 i) → a i = 0) ∧
      ∀ b : Fin nb → ℝ, (∀ i, ¬ Obeys (c i) (a0 i) ∨ a0 i = 0 → b i = 0) →
        x ≤ power (noise psd fs) (resTrace p (fun i : Fin nb => T i.succ) b) := by
  obtain ⟨h1, -, hJ, -, -, -, -, hT, hB, hiB⟩ := setup_ok hF
  have hpos := noise_pos h1 hpsd hfs
  obtain ⟨m, -, hm, ha, hx⟩ := ofMb_ok h
  have hbs := bsum_eq hF p
  have hbs' : ∀ i : Fin nb, (∑ f, qf F.phi p i.succ f).re = ipR (noise psd fs) (T i.succ) p :=
    fun i => congrFun hbs i
  have key := mask_lsq hpos p (fun i : Fin nb => T i.succ) m
  have ha' : a = expand m (pinv (of fun i j => ipR (noise psd fs) (T i.1.succ) (T j.1.succ)) *ᵥ
      fun i => ipR (noise psd fs) (T i.1.succ) p) := by
    rw [ha, hB]
    simp only [hbs']
    rfl
  simp only [← ha'] at key
  have hx' : x = power (noise psd fs) (resTrace p (fun i : Fin nb => T i.succ) a) := by
    rw [hx, residChi2_eq, hJ, hT]
    congr 1
    funext τ
    unfold resTrace
    congr 1
    exact Finset.sum_congr rfl fun i _ => mul_comm _ _
  refine ⟨hx', F.iB *ᵥ fun i => (∑ f, qf F.phi p i.succ f).re, ?_, ?_, ?_⟩
  · rw [hiB, hB, hbs]
    exact (gram_lsq hpos p (fun i : Fin nb => T i.succ)).2.2
  · intro i hi
    rw [ha]
    refine expand_off ?_
    rw [hm]
    simp only [Bool.not_eq_false']
    rw [disallowed_iff]
    unfold Obeys at hi
    by_contra hc
    apply hi
    push Not at hc
    refine ⟨fun hc1 => ?_, fun hc1 => ?_⟩
    · by_contra hlt
      exact hc.1 (not_le.1 hlt) hc1
    · by_contra hlt
      exact hc.2.1 (not_le.1 hlt) hc1
  · intro b hb
    rw [hx']
    refine key.2 b fun i hi => hb i ?_
    rw [hm] at hi
    simp only [Bool.not_eq_false'] at hi
    rcases (disallowed_iff _ _ _).1 hi with ⟨h2, h3⟩ | ⟨h2, h3⟩ | h2
    · exact Or.inl fun ho => absurd (ho.1 h3) (not_le.2 h2)
    · exact Or.inl fun ho => absurd (ho.2 h3) (not_le.2 h2)
    · exact Or.inr h2

/-- **C58 (partial).**  With two backgrounds every fit that `of_mb` returns obeys the
constraints. -/
theorem mb_two_partial {T : Fin (2 + 1) → ZMod n → ℝ} {psd : ZMod n → ℝ} {fs : ℝ} {F : Filt n 2}
    (hF : setup T psd fs = .ok F) {p : ZMod n → ℝ} {c : Fin 2 → ℤ} {lf : ℕ} {a : Fin 2 → ℝ} {x y : ℝ}
    (h : ofMb p F c lf = .ok (a, x, y)) (i : Fin 2) : Obeys (c i) (a i) := by
  obtain ⟨h1, -, hJ, -, -, -, -, hT, hB, hiB⟩ := setup_ok hF
  obtain ⟨m, hm1, hm, ha, -⟩ := ofMb_ok h
  have hcases : (∀ i, m i = true) ∨ (∀ i, m i = false) := by
    clear ha hm h
    revert hm1
    have : ∀ m : Fin 2 → Bool, ones m ≠ 1 → (∀ i, m i = true) ∨ (∀ i, m i = false) := by decide
    exact this m
  rcases hcases with hall | hnone
  · -- the refit is the unconstrained fit
    have e : a = F.iB *ᵥ fun i => (∑ f, qf F.phi p i.succ f).re := by
      rw [ha, hiB]
      have hsym : F.Bᵀ = F.B := by rw [hB]; exact gram_symm _ _
      funext j
      rw [expand, dif_pos (hall j)]
      exact congrFun (pinv_submatrix_full hsym m hall
        (fun i => (∑ f, qf F.phi p i.succ f).re)) j
    have hnd : disallowed a c i = false := by
      have := hall i
      rw [hm, ← e] at this
      simpa using this
    have hnd' : ¬ disallowed a c i = true := by rw [hnd]; simp
    rw [disallowed_iff] at hnd'
    push Not at hnd'
    refine ⟨fun hc1 => ?_, fun hc1 => ?_⟩
    · by_contra hlt
      exact hnd'.1 (not_le.1 hlt) hc1
    · by_contra hlt
      exact hnd'.2.1 (not_le.1 hlt) hc1
  · have : a i = 0 := by rw [ha]; exact expand_off (hnone i)
    rw [this]
    exact ⟨fun _ => le_rfl, fun _ => le_rfl⟩

/-- **C58 is violated** for `of_mb`: four positive backgrounds, all constrained to be positive, and
the returned amplitude of the second is `-1`. -/
theorem mb_polarity_violated :
    ∃ a x y, ofMb exP exF (fun _ => 1) 500 = .ok (a, x, y) ∧ a = ![0, -1, 1, 1] ∧
      ¬ ∀ i, Obeys 1 (a i) := by
  have hm : (fun i => !disallowed (![-1, 1, 1, 1] : Fin 4 → ℝ) (fun _ => 1) i) =
      ![false, true, true, true] := by
    funext i
    fin_cases i
    · exact congrArg not (disallowed_true (by left; norm_num))
    · exact congrArg not (disallowed_false (by norm_num))
    · exact congrArg not (disallowed_false (by norm_num [w2]))
    · exact congrArg not (disallowed_false (by norm_num [w3]))
  obtain ⟨-, -, -, -, -, -, -, -, hB, -⟩ := setup_ok exF_setup
  have hbs : ∀ i : Fin 4, (∑ f, qf exF.phi exP i.succ f).re =
      ipR (noise exPsd 8) (exT i.succ) exP := fun i => congrFun (bsum_eq exF_setup exP) i
  have ha : expand ![false, true, true, true] (pinv (exF.B.submatrix (·.1) (·.1)) *ᵥ
      fun i => (∑ f, qf exF.phi exP i.1.succ f).re) = (![0, -1, 1, 1] : Fin 4 → ℝ) := by
    rw [hB]
    simp only [hbs]
    refine mask_explicit (S := fun i : Fin 4 => exT i.succ)
      (noise_pos (by norm_num) exPsd_pos (by norm_num)) exMb_indep (fun i => ?_) (fun i => ?_)
    · fin_cases i <;> norm_num
    · rw [exMb_corr]
      fin_cases i <;> norm_num [w2, w3, v2, v3, v4]
  have hr : ∃ x y, ofMb exP exF (fun _ => 1) 500 = .ok (![0, -1, 1, 1], x, y) := by
    have hm' : (fun i => !disallowed (exF.iB *ᵥ fun i => (∑ f, qf exF.phi exP i.succ f).re)
        (fun _ => 1) i) = ![false, true, true, true] := by rw [exMb_a0]; exact hm
    have ha' : ∀ m : Fin 4 → Bool, m = ![false, true, true, true] →
        expand m (pinv (exF.B.submatrix (·.1) (·.1)) *ᵥ
          fun i => (∑ f, qf exF.phi exP i.1.succ f).re) = (![0, -1, 1, 1] : Fin 4 → ℝ) := by
      rintro m rfl; exact ha
    unfold ofMb
    simp only
    rw [if_neg (by rw [hm']; decide), ha' _ hm']
    exact ⟨_, _, rfl⟩
  obtain ⟨x, y, hr⟩ := hr
  refine ⟨_, x, y, hr, rfl, fun h => ?_⟩
  have := (h 1).1 rfl
  norm_num at this

/-- **C58 is violated** for `of_nsmb_con`: one free signal and four backgrounds constrained to be
positive, and the returned amplitude of the last background is `-1`. -/
theorem con_polarity_violated :
    ∃ r, ofNsmbCon exP exF 8 exC [3] [] 500 = .ok r ∧ r.amps = ![1, 0, 0, 0, -1] ∧
      ¬ ∀ i, Obeys (exC i) (r.amps i) := by
  obtain ⟨it, hit⟩ := ex_interp
  have hfe := ex_firstErr
  unfold ofNsmbCon
  rw [hfe]
  have hp : ∀ chi : ZMod 8 → ℝ, pickIdx chi [3] = .ok 3 := fun chi => by
    unfold pickIdx
    rw [if_neg (by norm_num)]
    rfl
  simp only [hp, hit, winFits]
  have hc : conAmps exF exP exC ((3 : ℤ) : ZMod 8) = ![1, 0, 0, 0, -1] := by
    rw [ex_conAmps]; rfl
  refine ⟨_, rfl, hc, fun h => ?_⟩
  have h4 := (h 4).1 rfl
  change 0 ≤ conAmps exF exP exC ((3 : ℤ) : ZMod 8) 4 at h4
  rw [hc] at h4
  have : (![1, 0, 0, 0, -1] : Fin 5 → ℝ) 4 = -1 := rfl
  rw [this] at h4
  norm_num at h4

/-- **C58 (partial).**  At a delay where the unconstrained optimum is strictly inside the allowed
region (and nowhere zero), the constrained fit returns exactly that optimum. -/
theorem con_allowed_partial {T : Fin (nb + 1) → ZMod n → ℝ} {psd : ZMod n → ℝ} {fs : ℝ}
    {F : Filt n nb} (hF : setup T psd fs = .ok F) (hnb : nb ≠ 0) (p : ZMod n → ℝ)
    (c : Fin (nb + 1) → ℤ) (t : ZMod n)
    (hok : ∀ i, Obeys (c i) (aT F.phi (getiP F.P) p t i) ∧ aT F.phi (getiP F.P) p t i ≠ 0) :
    conStep F p c t = .ok (aT F.phi (getiP F.P) p t) := by
  have hM : slice F.P t = fullPt F t := by
    rw [fullPt_eq hF, (setup_ok hF).2.2.2.2.2.1, slice_P_eq]
  have ha : aT F.phi (getiP F.P) p t = pinv (fullPt F t) *ᵥ qt F.phi p t := by
    rw [aT, getiP, hM]
  set a0 := aT F.phi (getiP F.P) p t with ha0
  have hd : ∀ i, disallowed a0 c i = false := by
    intro i
    refine disallowed_false ?_
    rintro (⟨h1, h2⟩ | ⟨h1, h2⟩ | h1)
    · exact absurd ((hok i).1.1 h2) (not_le.2 h1)
    · exact absurd ((hok i).1.2 h2) (not_le.2 h1)
    · exact (hok i).2 h1
  have hk : keep (fullPt F t) c a0 a0 = fun _ => true := by
    funext i
    unfold keep
    simp only [hd i, Bool.false_and, Bool.not_false]
  have hsym : (fullPt F t)ᵀ = fullPt F t := by rw [fullPt_eq hF]; exact gram_symm _ _
  have hones : ones (fun _ : Fin (nb + 1) => true) ≠ 1 := by
    simp [ones]; exact hnb
  have hfit : maskFit F p t (fun _ => true) = .ok a0 := by
    unfold maskFit getPt
    rw [if_neg hones]
    simp only
    congr 1
    rw [ha, ← pinv_submatrix_full hsym (fun _ => true) (fun _ => rfl)]
    funext i
    rw [expand, dif_pos rfl]
    rfl
  unfold conStep
  rw [if_neg hnb]
  simp only [← ha, hk, hfit, if_true]
  have h3 : (fun i => !disallowed a0 c i) = fun _ => true := by funext i; rw [hd i]; rfl
  rw [h3]
  exact if_pos rfl

/-- The unconstrained optimum `(1,-1,1,1,1)` of the example, with the matching constraints. -/
example (t : ZMod 8) : conStep exF exP ![0, -1, 1, 1, 1] t = .ok (aT exF.phi (getiP exF.P) exP t) := by
  refine con_allowed_partial exF_setup (by norm_num) exP _ t fun i => ?_
  have ha : aT exF.phi (getiP exF.P) exP t = exA0 := by
    rw [aT, getiP, (setup_ok exF_setup).2.2.2.2.2.1, slice_P_eq, ← fullPt_eq exF_setup]
    exact ex_a0 t
  rw [ha]
  fin_cases i <;> norm_num [exA0, Obeys, v2, v3, v4]

/-- **C58 / C57 for the constrained fit.**  Whenever `of_nsmb_con` returns: the residual is the
trace minus the fitted templates at the reported delay, the reported chi2 is the chi2 of the
reported amplitudes at that delay, and it is never below the unconstrained minimum there. -/
theorem con_reported {T : Fin (nb + 1) → ZMod n → ℝ} {psd : ZMod n → ℝ} {fs : ℝ} {F : Filt n nb}
    (hF : setup T psd fs = .ok F) (hpsd : ∀ f, f ≠ 0 → 0 < psd f) (hfs : 0 < fs)
    {p : ZMod n → ℝ} {c : Fin (nb + 1) → ℤ} {window : List ℤ} {wins : List (List ℤ)} {lf : ℕ}
    {r : ConFit n nb} (h : ofNsmbCon p F fs c window wins lf = .ok r) :
    ∃ d ∈ window, (∃ m : ℤ, r.tdelmin = m / fs ∧ (m : ZMod n) = (d : ZMod n)) ∧
      r.residT = resTrace p (delayed T (d : ZMod n)) r.amps ∧
      r.chi2min = chi2 (noise psd fs) p T (d : ZMod n) r.amps ∧
      (∀ a, chi2 (noise psd fs) p T (d : ZMod n) (aT F.phi (getiP F.P) p (d : ZMod n)) ≤
        chi2 (noise psd fs) p T (d : ZMod n) a) ∧
      ∀ j ∈ window, ∃ a, conStep F p c (j : ZMod n) = .ok a ∧
        r.chi2min ≤ chi2 (noise psd fs) p T (j : ZMod n) a := by
  obtain ⟨hf, ind, hp, -, ha, ht, hr, hx, -⟩ := ofNsmbCon_ok h
  obtain ⟨h1, h2, -⟩ := pickIdx_ok hp
  have hres : r.residT = resTrace p (delayed T (ind : ZMod n)) r.amps := by
    rw [hr, ht, (setup_ok hF).2.2.2.2.2.2.1, resid_eq T fs hfs.ne']
  have hchi : r.chi2min = chi2 (noise psd fs) p T (ind : ZMod n) r.amps := by
    rw [hx, residChi2_eq, hres, (setup_ok hF).2.2.1]; rfl
  have hcon : ∀ t : ZMod n, conChi2 F p t (conAmps F p c t) =
      chi2 (noise psd fs) p T t (conAmps F p c t) := by
    intro t
    obtain ⟨m, hm⟩ := conStep_mask (firstErr_none hf t)
    exact (maskFit_spec hF hpsd hfs hm).2.1
  refine ⟨ind, h1, ?_, hres, hchi, (delay_fit hF hpsd hfs p _).2, fun j hj => ?_⟩
  · rw [ht]; exact tdel_int fs ind
  · refine ⟨_, firstErr_none hf _, ?_⟩
    rw [hchi, ha, ← hcon, ← hcon]
    exact h2 j hj

/-! ### C78: the most common delay -/

/-- **C78 is violated**: if the minimum is at delay index `0` (the pulse sits where the template
says), `of_nsmb_con` raises `TypeError`, for every trace of at least three bins. -/
theorem con_zero_delay_violated (hn : 3 ≤ n) (p : ZMod n → ℝ) (F : Filt n nb) (fs : ℝ)
    (c : Fin (nb + 1) → ℤ) (window : List ℤ) (wins : List (List ℤ)) (lf : ℕ)
    (hf : firstErr F p c = none)
    (h0 : pickIdx (fun t => conChi2 F p t (conAmps F p c t)) window = .ok 0) :
    ofNsmbCon p F fs c window wins lf = .error .typeError :=
  con_zero hn p F fs c window wins lf hf h0

example : ofNsmbCon exP exF 8 exC [0] [] 500 = .error .typeError :=
  con_zero_delay_violated (by norm_num) exP exF 8 exC [0] [] 500 ex_firstErr (by
    unfold pickIdx
    rw [if_neg (by norm_num)]
    rfl)

/-! ### C79: interpolation -/

/-- **C79 (partial).**  If the bin minimum is a local minimum of the chi2 over its two neighbours
(equally spaced by `h`, not all three equal), the interpolated time is within half a bin and the
interpolated chi2 is not larger. -/
theorem interp_local_partial {pts : List (ℝ × ℝ × ℝ)} {k : ℕ} {x h y0 y1 y2 a0 a1 a2 : ℝ}
    (hh : 0 < h) (hk : (pts.take (k + 3)).drop k = [(x - h, y0, a0), (x, y1, a1), (x + h, y2, a2)])
    (h0 : y1 ≤ y0) (h2 : y1 ≤ y2) (hne : y0 + y2 ≠ 2 * y1) :
    ∃ t chi a, interpchi2 (k + 1) pts = .ok (t, chi, a) ∧ |t - x| ≤ h / 2 ∧ chi ≤ y1 := by
  have hlen : k + 3 ≤ pts.length := by
    have := congrArg List.length hk
    rw [List.length_drop, List.length_take] at this
    simp at this
    omega
  have e1 : Np.clipIdx pts.length (((k : ℤ) + 1) + 2) = k + 3 := by
    unfold Np.clipIdx
    rw [if_pos (by omega)]
    omega
  have e2 : Np.clipIdx pts.length (((k : ℤ) + 1) - 1) = k := by
    unfold Np.clipIdx
    rw [if_pos (by omega)]
    omega
  have hpos : 0 < y0 + y2 - 2 * y1 := by
    rcases lt_or_eq_of_le (by linarith : 0 ≤ y0 + y2 - 2 * y1) with h | h
    · exact h
    · exact absurd (by linarith) hne
  have hz0 : (polyfit3 (x - h, y0) (x, y1) (x + h, y2)).1 = (y0 + y2 - 2 * y1) / (2 * h ^ 2) := by
    unfold polyfit3
    simp only
    rw [show x - (x - h) = h by ring, show x + h - x = h by ring,
      show x + h - (x - h) = 2 * h by ring]
    field_simp
    ring
  have hz1 : (polyfit3 (x - h, y0) (x, y1) (x + h, y2)).2.1 =
      (y2 - y0) / (2 * h) - 2 * ((y0 + y2 - 2 * y1) / (2 * h ^ 2)) * x := by
    unfold polyfit3
    simp only
    rw [show x - (x - h) = h by ring, show x + h - x = h by ring,
      show x + h - (x - h) = 2 * h by ring]
    field_simp
    ring
  have hz2 : (polyfit3 (x - h, y0) (x, y1) (x + h, y2)).2.2 =
      y1 - (y2 - y0) / (2 * h) * x + ((y0 + y2 - 2 * y1) / (2 * h ^ 2)) * x ^ 2 := by
    unfold polyfit3
    simp only
    rw [show x - (x - h) = h by ring, show x + h - x = h by ring,
      show x + h - (x - h) = 2 * h by ring]
    field_simp
    ring
  unfold interpchi2
  rw [e1, e2, hk]
  simp only
  have hz0' : (polyfit3 (x - h, y0) (x, y1) (x + h, y2)).1 ≠ 0 := by
    rw [hz0]; exact (div_pos hpos (by positivity)).ne'
  rw [if_neg (by
    rintro (h | h | h)
    · linarith
    · linarith
    · linarith), if_neg hz0']
  refine ⟨_, _, _, rfl, ?_, ?_⟩
  · rw [hz1, hz0]
    have e : -((y2 - y0) / (2 * h) - 2 * ((y0 + y2 - 2 * y1) / (2 * h ^ 2)) * x) /
        (2 * ((y0 + y2 - 2 * y1) / (2 * h ^ 2))) - x =
        (y0 - y2) / (y0 + y2 - 2 * y1) * (h / 2) := by
      have := hpos.ne'
      field_simp
      ring
    rw [e, abs_mul, abs_of_pos (half_pos hh)]
    refine mul_le_of_le_one_left (half_pos hh).le ?_
    rw [abs_div, abs_of_pos hpos, div_le_one hpos, abs_le]
    constructor <;> linarith
  · rw [hz2, hz1, hz0]
    have e : (y0 + y2 - 2 * y1) / (2 * h ^ 2) *
        (-((y2 - y0) / (2 * h) - 2 * ((y0 + y2 - 2 * y1) / (2 * h ^ 2)) * x) /
          (2 * ((y0 + y2 - 2 * y1) / (2 * h ^ 2)))) ^ 2 +
        ((y2 - y0) / (2 * h) - 2 * ((y0 + y2 - 2 * y1) / (2 * h ^ 2)) * x) *
        (-((y2 - y0) / (2 * h) - 2 * ((y0 + y2 - 2 * y1) / (2 * h ^ 2)) * x) /
          (2 * ((y0 + y2 - 2 * y1) / (2 * h ^ 2)))) +
        (y1 - (y2 - y0) / (2 * h) * x + ((y0 + y2 - 2 * y1) / (2 * h ^ 2)) * x ^ 2) =
        y1 - (y2 - y0) ^ 2 / (8 * (y0 + y2 - 2 * y1)) := by
      have := hpos.ne'
      field_simp
      ring
    rw [e]
    have : 0 ≤ (y2 - y0) ^ 2 / (8 * (y0 + y2 - 2 * y1)) := by positivity
    linarith

example : (([((0 : ℝ), (5 : ℝ), (1 : ℝ)), (1, 2, 1), (2, 3, 1)].take (0 + 3)).drop 0) =
    [(1 - 1, 5, 1), (1, 2, 1), (1 + 1, 3, 1)] := by norm_num

/-- **C79 is violated** when the window ends at a falling edge: the chi2 to the left of the window
is lower, the parabola opens downwards and the "interpolated minimum" is larger than the chi2 of
the chosen bin. -/
theorem interp_edge_violated :
    ∃ t chi a, interpchi2 1 [(0, 0, 1), (1, 4, 1), (2, 5, 1)] = .ok (t, chi, a) ∧ 4 < chi := by
  refine ⟨11 / 6, 121 / 24, 1, ?_, by norm_num⟩
  unfold interpchi2
  have e1 : Np.clipIdx 3 (1 + 2) = 3 := by decide
  have e2 : Np.clipIdx 3 (1 - 1) = 0 := by decide
  simp only [List.length_cons, List.length_nil, Nat.reduceAdd, e1, e2, List.take_succ_cons,
    List.take_zero, List.drop_zero]
  norm_num [polyfit3]

/-! ### C81: the further search windows -/

/-- **C81 (partial).**  Each further window of at least two bins (counted from the start of the
trace, so index `i` is the delay `i - n/2`) reports the smallest chi2 of the window, and the signal
amplitude and time of that same bin. -/
theorem windows_partial {T : Fin (nb + 1) → ZMod n → ℝ} {psd : ZMod n → ℝ} {fs : ℝ} {F : Filt n nb}
    (hF : setup T psd fs = .ok F) (hpsd : ∀ f, f ≠ 0 → 0 < psd f) (hfs : 0 < fs)
    {p : ZMod n → ℝ} {c : Fin (nb + 1) → ℤ} {window : List ℤ} {wins : List (List ℤ)} {lf : ℕ}
    {r : ConFit n nb} (h : ofNsmbCon p F fs c window wins lf = .ok r) :
    List.Forall₂ (fun (win : List ℤ) (w : WinFit) => ∃ i ∈ win, w.tdel = i / fs ∧
      (∃ a, conStep F p c ((i : ZMod n) - (n / 2 : ℕ)) = .ok a ∧ w.asig = a 0 ∧
        w.chi2 = chi2 (noise psd fs) p T ((i : ZMod n) - (n / 2 : ℕ)) a) ∧
      ∀ j ∈ win, ∃ a, conStep F p c ((j : ZMod n) - (n / 2 : ℕ)) = .ok a ∧
        w.chi2 ≤ chi2 (noise psd fs) p T ((j : ZMod n) - (n / 2 : ℕ)) a) wins r.wins := by
  obtain ⟨hf, ind, -, hw, -⟩ := ofNsmbCon_ok h
  have hcon : ∀ t : ZMod n, conChi2 F p t (conAmps F p c t) =
      chi2 (noise psd fs) p T t (conAmps F p c t) := by
    intro t
    obtain ⟨m, hm⟩ := conStep_mask (firstErr_none hf t)
    exact (maskFit_spec hF hpsd hfs hm).2.1
  refine (winFits_ok hw).imp ?_
  rintro win w ⟨i, hi, h1, h2, h3, h4⟩
  refine ⟨i, hi, h1, ⟨_, firstErr_none hf _, h2, ?_⟩, fun j hj => ⟨_, firstErr_none hf _, ?_⟩⟩
  · rw [h3, hcon]
  · rw [← hcon]; exact h4 j hj

omit [NeZero n] in
/-- **C81 is violated**: a further window of a single bin raises `IndexError`. -/
theorem window_single_violated (chi2 asig : ZMod n → ℝ) (fs : ℝ) (i : ℤ) (h0 : -(n : ℤ) ≤ i)
    (h1 : i < n) : winFit chi2 asig fs [i] = .error .indexError := by
  unfold winFit
  obtain ⟨k, hk⟩ := pickIdx_defined (chi := roll chi2 ((n / 2 : ℕ) : ZMod n)) (win := [i]) (by simp)
    (by simpa using ⟨h0, h1⟩)
  simp only [hk, List.length_singleton, if_true]

end Verif.Nsmb
