import Verif.OFRecOkLemmas

/-! Helper lemmas for C118: the background-only fit and the fit with polarity constraints. -/

namespace Verif.OF
open Verif Verif.Dft Verif.Nsmb Verif.Nsmb.Spec Matrix

variable {n : ℕ} [NeZero n] {nb : ℕ}

theorem power_zero (J : ZMod n → ℝ) {r : ZMod n → ℝ} (h : r = fun _ => 0) : power J r = 0 := by
  subst h
  have hz : fftR (fun _ : ZMod n => (0 : ℝ)) = 0 := by
    funext f
    rw [fftR_apply]
    simp
  simp [power, hz]

/-- The independence assumption, applied to two sets of amplitudes that give the same trace. -/
theorem indep_same {T : Fin (nb + 1) → ZMod n → ℝ}
    (hind : ∀ (s : ZMod n → ℝ) (b : Fin nb → ℝ), {d | s d ≠ 0}.ncard ≤ 2 →
      (∀ j, pulses (T 0) s 0 j + ∑ i, b i * T i.succ j = 0) → s = 0 ∧ b = 0)
    {A a : Fin (nb + 1) → ℝ} {k d : ZMod n} (hA : A 0 ≠ 0)
    (h : ∀ j, resTrace (fun j => ∑ i, A i * delayed T k i j) (delayed T d) a j = 0) : a = A ∧ d = k := by
  have hd0 : ∀ t, delayed T t 0 = roll (T 0) t := fun t => if_pos rfl
  have hds : ∀ t i, delayed T t (Fin.succ i) = T i.succ := fun t i => if_neg (Fin.succ_ne_zero i)
  obtain ⟨hs, hb⟩ := hind (Pi.single k (A 0) - Pi.single d (a 0)) (fun i => A i.succ - a i.succ)
    (ncard_le {k, d} (fun x hx => by
      by_contra hn
      simp only [Finset.mem_insert, Finset.mem_singleton, not_or] at hn
      exact hx (by simp [Pi.single_eq_of_ne hn.1, Pi.single_eq_of_ne hn.2])) Finset.card_le_two)
    (fun j => by
      have e := h j
      simp only [resTrace, Fin.sum_univ_succ, hd0, hds] at e
      have e2 := congrFun (pulses_sub (T 0) (Pi.single k (A 0)) (Pi.single d (a 0)) 0 0) j
      simp only [pulses_single, sub_self, add_zero] at e2
      rw [e2]
      simp only [sub_mul, Finset.sum_sub_distrib]
      linear_combination e)
  have e1 := congrFun hs k
  simp only [Pi.sub_apply, Pi.single_eq_same, Pi.zero_apply] at e1
  have hdk : d = k := by
    by_contra hne
    rw [Pi.single_eq_of_ne (Ne.symm hne)] at e1
    exact hA (by linarith)
  rw [hdk, Pi.single_eq_same] at e1
  refine ⟨?_, hdk⟩
  funext i
  refine Fin.cases (by linarith) (fun i => ?_) i
  have := congrFun hb i
  simp only [Pi.zero_apply] at this
  linarith

/-- At the true delay the constrained fit of a noise-free event is the truth. -/
theorem conStep_true {T : Fin (nb + 1) → ZMod n → ℝ} {psd : ZMod n → ℝ} {fs : ℝ} {F : Filt n nb}
    (hF : setup T psd fs = .ok F) (hnb : nb ≠ 0) (hpsd : ∀ f, f ≠ 0 → 0 < psd f) (hfs : 0 < fs) {k : ZMod n}
    {A : Fin (nb + 1) → ℝ} {c : Fin (nb + 1) → ℤ}
    (hind : ∀ (s : ZMod n → ℝ) (b : Fin nb → ℝ), {d | s d ≠ 0}.ncard ≤ 2 →
      (∀ j, pulses (T 0) s 0 j + ∑ i, b i * T i.succ j = 0) → s = 0 ∧ b = 0)
    (hA : ∀ i, Obeys (c i) (A i) ∧ A i ≠ 0) :
    conStep F (fun j => ∑ i, A i * delayed T k i j) c k = .ok A := by
  have hJ := noise_pos (setup_ok hF).1 hpsd hfs
  have h1 := (delay_fit hF hpsd hfs (fun j => ∑ i, A i * delayed T k i j) k).2 A
  have h0 : chi2 (noise psd fs) (fun j => ∑ i, A i * delayed T k i j) T k A = 0 :=
    power_zero _ (by funext j; simp [resTrace])
  rw [h0] at h1
  have h2 := power_eq_zero hJ (le_antisymm h1 (power_nonneg hJ _))
  obtain ⟨e, -⟩ := indep_same hind (hA 0).2 h2
  rw [con_allowed_partial hF hnb _ c k (by rw [e]; exact hA), e]

omit [NeZero n] in
/-- The interpolation of the minimum finds points away from the first bin. -/
theorem interp_points {k : ℤ} (h1 : 1 ≤ k) (h2 : k < n) (f : ℕ → ℝ × ℝ × ℝ) :
    interpchi2 k ((List.range n).map f) ≠ .error .typeError := by
  have hlen : (((((List.range n).map f).take (Np.clipIdx ((List.range n).map f).length (k + 2))).drop
      (Np.clipIdx ((List.range n).map f).length (k - 1)))).length ≠ 0 := by
    simp only [List.length_drop, List.length_take, List.length_map, List.length_range, Np.clipIdx]
    rw [if_pos (by omega), if_pos (by omega)]
    omega
  unfold interpchi2
  split
  · rename_i h
    rw [h] at hlen
    exact absurd rfl hlen
  · dsimp only
    split_ifs <;> simp
  · simp

/-- The constrained fit returns if every delay has been fitted and its minimum is not at the first bin. -/
theorem ofNsmbCon_returns {F : Filt n nb} {p : ZMod n → ℝ} {fs : ℝ} {c : Fin (nb + 1) → ℤ} {window : List ℤ} {lf : ℕ}
    (hs : ∀ t, ∃ a, conStep F p c t = .ok a) {ind : ℤ}
    (hp : pickIdx (fun t => conChi2 F p t (conAmps F p c t)) window = .ok ind) (h1 : 1 ≤ ind) (h2 : ind < n) :
    ∃ r, ofNsmbCon p F fs c window [] lf = .ok r := by
  have hf : firstErr F p c = none := by
    unfold firstErr
    rw [List.findSome?_eq_none_iff]
    intro i _
    obtain ⟨a, ha⟩ := hs (i : ZMod n)
    rw [ha]
  unfold ofNsmbCon
  rw [hf]
  simp only [hp, winFits]
  split
  · rename_i h
    exact absurd h (interp_points h1 h2 _)
  · exact ⟨_, rfl⟩

theorem ofMb_lf {p : ZMod n → ℝ} {F : Filt n nb} {c : Fin nb → ℤ} {lf : ℕ} {a : Fin nb → ℝ} {x y : ℝ}
    (h : ofMb p F c lf = .ok (a, x, y)) :
    y = residChi2Lf F.psddnu (fun τ => p τ - ∑ i, F.sbt i.succ τ * a i) lf := by
  unfold ofMb at h
  simp only at h
  split_ifs at h
  cases h
  rfl

theorem lf_zero (J : ZMod n → ℝ) {r : ZMod n → ℝ} (h : r = fun _ => 0) (lf : ℕ) : residChi2Lf J r lf = 0 := by
  subst h
  have hz : fftR (fun _ : ZMod n => (0 : ℝ)) = 0 := by
    funext f
    rw [fftR_apply]
    simp
  simp [residChi2Lf, hz]

/-- If two backgrounds keep allowed amplitudes in every fit they take part in, the constrained fit of one delay
returns. -/
theorem conStep_returns {F : Filt n nb} (hnb : nb ≠ 0) {p : ZMod n → ℝ} {c : Fin (nb + 1) → ℤ} {t : ZMod n}
    {i j : Fin (nb + 1)} (hij : i ≠ j)
    (h0 : ∀ k, k = i ∨ k = j → disallowed (pinv (fullPt F t) *ᵥ qt F.phi p t) c k = false)
    (h : ∀ m a, m i = true → m j = true → maskFit F p t m = .ok a → ∀ k, k = i ∨ k = j → disallowed a c k = false) :
    ∃ a, conStep F p c t = .ok a := by
  have hfit : ∀ m, m i = true → m j = true → ∃ a, maskFit F p t m = .ok a := by
    intro m hi hj
    have : ones m ≠ 1 := by
      unfold ones
      intro e
      obtain ⟨x, hx⟩ := Finset.card_eq_one.1 e
      have h1 : i ∈ Finset.univ.filter fun i => m i = true := by simp [hi]
      have h2 : j ∈ Finset.univ.filter fun i => m i = true := by simp [hj]
      rw [hx, Finset.mem_singleton] at h1 h2
      exact hij (h1.trans h2.symm)
    unfold maskFit getPt
    rw [if_neg this]
    exact ⟨_, rfl⟩
  have hkeep : ∀ a0 a, (∀ k, k = i ∨ k = j → disallowed a c k = false) →
      ∀ k, k = i ∨ k = j → keep (fullPt F t) c a0 a k = true := by
    intro a0 a ha k hk
    simp [keep, ha k hk]
  unfold conStep
  rw [if_neg hnb]
  dsimp only
  have k1 := hkeep (pinv (fullPt F t) *ᵥ qt F.phi p t) _ h0
  obtain ⟨a1, e1⟩ := hfit _ (k1 i (.inl rfl)) (k1 j (.inr rfl))
  rw [e1]
  dsimp only
  have d1 := h _ _ (k1 i (.inl rfl)) (k1 j (.inr rfl)) e1
  have k2 := hkeep (pinv (fullPt F t) *ᵥ qt F.phi p t) a1 d1
  have last : ∀ a2 m2, (∀ k, k = i ∨ k = j → disallowed a2 c k = false) →
      ∃ a, (if m2 = (fun i => !disallowed a2 c i) then Except.ok a2 else
        maskFit F p t (fun i => !disallowed a2 c i)) = .ok a := by
    intro a2 m2 d2
    split_ifs
    · exact ⟨_, rfl⟩
    · exact hfit _ (by simp [d2 i (.inl rfl)]) (by simp [d2 j (.inr rfl)])
  split_ifs with hm
  · dsimp only
    exact last a1 _ d1
  · obtain ⟨a2, e2⟩ := hfit _ (k2 i (.inl rfl)) (k2 j (.inr rfl))
    rw [e2]
    dsimp only
    exact last a2 _ (h _ _ (k2 i (.inl rfl)) (k2 j (.inr rfl)) e2)

/-! The example: a signal of one bin, a constant and an alternating background. -/

def exT : Fin 3 → ZMod 8 → ℝ := ![delta, fun _ => 1, fun j => if Even j.val then 1 else -1]

theorem v2 {α : Type*} (a b c : α) : (![a, b, c] : Fin 3 → α) 2 = c := rfl

theorem ex_power (r : ZMod 8 → ℝ) : power (noise (fun _ => 1) 8) r = (∑ j, r j ^ 2) / 8 := by
  have e : noise (fun _ : ZMod 8 => (1 : ℝ)) 8 = fun _ => 1 := by
    funext f
    simp [noise]
  rw [power_eq_ip, e]
  have h := ipR_flat (n := 8) 1 one_ne_zero r r
  rw [ipR] at h
  rw [h]
  simp [sq]

theorem ex_fitted {F : Filt 8 2} (hF : setup exT (fun _ => 1) 8 = .ok F) (t : ZMod 8) :
    ∃ a, conStep F (fun j => ∑ i, ![2, 7, -4] i * delayed exT ((3 : ℤ) : ZMod 8) i j) ![1, 1, -1] t = .ok a := by
  set p : ZMod 8 → ℝ := fun j => ∑ i, ![2, 7, -4] i * delayed exT ((3 : ℤ) : ZMod 8) i j with hp
  have key : ∀ a : Fin 3 → ℝ, chi2 (noise (fun _ => 1) 8) p exT t a ≤ chi2 (noise (fun _ => 1) 8) p exT t ![0, 29 / 4, -17 / 4] →
      ∀ k : Fin 3, k = 1 ∨ k = 2 → disallowed a ![1, 1, -1] k = false := by
    intro a ha
    have hbins : ∀ j, p j = ![3, 11, 3, 13, 3, 11, 3, 11] j := by
      intro j
      rw [hp]
      fin_cases j <;> simp +decide [Fin.sum_univ_three, delayed, exT, roll, delta, v2] <;> norm_num
    have hres : ∀ (a : Fin 3 → ℝ) j, resTrace p (delayed exT t) a j =
        p j - a 0 * (if j = t then 1 else 0) - a 1 - a 2 * (if Even j.val then 1 else -1) := by
      intro a j
      have e : ∀ f : Fin (2 + 1) → ℝ, ∑ i, f i = f 0 + f 1 + f 2 := Fin.sum_univ_three
      have e2 : roll (delta : ZMod 8 → ℝ) t j = if j = t then 1 else 0 := by simp [roll, delta, sub_eq_zero]
      simp only [resTrace, e, delayed, exT]
      simp [e2]
      ring
    have h3 : ∑ j, resTrace p (delayed exT t) a j ^ 2 ≤ 3 := by
      unfold chi2 at ha
      rw [ex_power, ex_power] at ha
      have : ∑ j, resTrace p (delayed exT t) ![0, 29 / 4, -17 / 4] j ^ 2 = 3 := by
        simp only [hres, hbins]
        rw [show (Finset.univ : Finset (ZMod 8)) = {0, 1, 2, 3, 4, 5, 6, 7} by decide]
        simp +decide [v2]
        norm_num
      rw [this] at ha
      linarith
    have two : ∀ e o : ZMod 8, e ≠ o → resTrace p (delayed exT t) a e ^ 2 + resTrace p (delayed exT t) a o ^ 2 ≤ 3 := by
      intro e o heo
      refine le_trans ?_ h3
      rw [← Finset.sum_pair (f := fun j => resTrace p (delayed exT t) a j ^ 2) heo]
      exact Finset.sum_le_sum_of_subset_of_nonneg (Finset.subset_univ _) fun _ _ _ => sq_nonneg _
    have bound : 0 < a 1 ∧ a 2 < 0 := by
      have hb : ∀ e o : ZMod 8, e ≠ o → e ≠ t → o ≠ t → p e = 3 → p o = 11 → Even e.val → ¬ Even o.val →
          0 < a 1 ∧ a 2 < 0 := by
        intro e o h1 h2 h3 h4 h5 h6 h7
        have := two e o h1
        rw [hres, hres, h4, h5, if_neg h2, if_neg h3, if_pos h6, if_neg h7] at this
        have u1 : 1 < a 1 + a 2 := by
          nlinarith [sq_nonneg (11 - a 1 + a 2)]
        have u2 : a 1 + a 2 < 5 := by
          nlinarith [sq_nonneg (11 - a 1 + a 2)]
        have u3 : 9 < a 1 - a 2 := by
          nlinarith [sq_nonneg (3 - a 1 - a 2)]
        constructor <;> linarith
      by_cases t0 : t = 0
      · exact hb 2 1 (by decide) (by rw [t0]; decide) (by rw [t0]; decide) (hbins 2) (hbins 1) (by decide) (by decide)
      · by_cases t1 : t = 1
        · exact hb 0 5 (by decide) (Ne.symm t0) (by rw [t1]; decide) (hbins 0) (hbins 5) (by decide) (by decide)
        · exact hb 0 1 (by decide) (Ne.symm t0) (Ne.symm t1) (hbins 0) (hbins 1) (by decide) (by decide)
    rintro k (rfl | rfl)
    · simp [disallowed, bound.1.le, bound.1.ne']
    · simp [disallowed, v2, bound.2.le, bound.2.ne]
  refine conStep_returns (by norm_num) (i := 1) (j := 2) (by decide) (fun k hk => ?_) (fun m a h1 h2 h k hk => ?_)
  · refine key _ ?_ k hk
    have := (delay_fit hF (fun _ _ => one_pos) (by norm_num) p t).2 ![0, 29 / 4, -17 / 4]
    rwa [aT, getiP, (setup_ok hF).2.2.2.2.2.1, slice_P_eq, ← fullPt_eq hF] at this
  · refine key _ ?_ k hk
    refine (maskFit_spec hF (fun _ _ => one_pos) (by norm_num) h).2.2 _ fun i hi => ?_
    fin_cases i
    · rfl
    · exact absurd (h1.symm.trans hi) (by decide)
    · exact absurd (h2.symm.trans hi) (by decide)

end Verif.OF
