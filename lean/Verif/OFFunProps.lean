import Verif.OFFunLemmas
import Verif.OFPairLemmas

/-!
C34: the stand-alone functions and the class compute the same fits.
-/

namespace Verif.OF.Fun
open Verif Verif.Dft Verif.OF

variable {n : ℕ} [NeZero n]

/-- Whatever `ofamp` returns for an array of traces is, row by row, what the class returns. -/
theorem ofamp_agrees (xs : List (ZMod n → ℝ)) (T : ZMod n → ℝ) (psd : ZMod n → WithTop ℝ)
    (fs : ℝ) (ac b : Bool) (nc : Option ℤ) (o : Bool) (rs : List (ℝ × ℝ × ℝ))
    (h : ofamp xs T psd fs true ac nc o b = .ok rs) :
    List.Forall₂ (fun x r => (withdelay (init x T psd fs ac b) nc o 0 0 false).1 = .ok r) xs rs := by
  rcases ofamp_cases xs T psd fs ac b nc o with ⟨h1, _⟩ | ⟨h1, _⟩ | ⟨f, h1, h2⟩
  · rw [h1] at h; cases h
  · rw [h1] at h; cases h
  · rw [h2] at h
    cases h
    rw [List.forall₂_map_right_iff, List.forall₂_same]
    intro x _
    rw [withdelay_eq, h1]

/-- `ofamp` succeeds for every legal window that contains at least one bin. -/
theorem ofamp_total_partial (xs : List (ZMod n → ℝ)) (T : ZMod n → ℝ) (psd : ZMod n → WithTop ℝ)
    (fs : ℝ) (ac b : Bool) (nc : Option ℤ) (o : Bool) (hk : ∀ k, nc = some k → 0 < k)
    (hne : ∃ j, Admissible n nc o none 0 j) :
    ∃ rs, ofamp xs T psd fs true ac nc o b = .ok rs := by
  rcases ofamp_cases xs T psd fs ac b nc o with ⟨_, k, h1, h2⟩ | ⟨_, h1⟩ | ⟨f, _, h2⟩
  · have := hk k h1; omega
  · obtain ⟨j, hj⟩ := hne
    exact absurd hj ((argmin_none_iff _ _ _ _ _ _ _ (h1 0)).1 rfl j)
  · exact ⟨_, h2⟩

/-- `ofamp` raises ValueError exactly when the class does. -/
theorem ofamp_valueError_iff (xs : List (ZMod n → ℝ)) (x T : ZMod n → ℝ) (psd : ZMod n → WithTop ℝ)
    (fs : ℝ) (ac b : Bool) (nc : Option ℤ) (o : Bool) :
    ofamp xs T psd fs true ac nc o b = .error .valueError ↔
      (withdelay (init x T psd fs ac b) nc o 0 0 false).1 = .error .valueError := by
  rw [withdelay_eq]
  rcases ofamp_cases xs T psd fs ac b nc o with ⟨h1, h2⟩ | ⟨h1, h2⟩ | ⟨f, h1, h2⟩
  · rw [h1, (argmin_error_iff n _ nc o none 0).2 (Or.inr h2)]; simp
  · rw [h1, h2]; simp
  · rw [h2, h1]; simp

/-- The two implementations disagree on an empty window: looking outside a window that covers the
whole trace raises IndexError in `ofamp` and returns a null fit from the class. -/
theorem ofamp_emptyWindow_violated (x T : ZMod n → ℝ) (psd : ZMod n → WithTop ℝ)
    (fs : ℝ) (ac b : Bool) :
    ofamp [x] T psd fs true ac (some n) true b = .error .indexError ∧
    (withdelay (init x T psd fs ac b) (some n) true 0 0 false).1 =
      .ok (0, 0, (chi2Nopulse x psd fs ac)) := by
  have hn := NeZero.pos n
  have hno : ∀ i, ¬ Admissible n (some (n : ℤ)) true none 0 i := by
    rintro i ⟨h0, h1, h2, _⟩
    have := h2 n rfl
    simp only [if_true, InWindow, min_self] at this
    omega
  have hchi : chi2Nopulse x psd fs ac = readChi0 (init x T psd fs ac b) := by
    rw [init_chi0]
    unfold chi2Nopulse traceChi2
    rw [Finset.mul_sum]
    refine Finset.sum_congr rfl fun k _ => ?_
    rw [toFreq_eq, ← init_w x T psd fs ac b k]
    change _ * (_ * (init x T psd fs ac b).w k) = _
    ring
  rw [withdelay_eq, hchi]
  rcases ofamp_cases [x] T psd fs ac b (some n) true with ⟨_, k, h2, h3⟩ | ⟨h1, h2⟩ | ⟨f, h1, _⟩
  · cases h2; omega
  · rw [h1, h2]; exact ⟨rfl, rfl⟩
  · exact absurd (argmin_ok_admissible _ _ _ _ _ _ _ (h1 0)).1 (hno _)

/-- Without delay, the amplitude and chi-square of the class, and the expected resolution. -/
theorem ofamp_nodelay_agrees (xs : List (ZMod n → ℝ)) (T : ZMod n → ℝ) (psd : ZMod n → WithTop ℝ)
    (fs : ℝ) (ac b : Bool) (nc : Option ℤ) (o : Bool) :
    ofamp xs T psd fs false ac nc o b = .ok (xs.map fun x =>
      ((nodelay (init x T psd fs ac b) 0).1.1, 0, (nodelay (init x T psd fs ac b) 0).1.2)) := by
  unfold ofamp
  simp only [Bool.false_eq_true, if_false, List.map_map, Except.ok.injEq, List.map_inj_left]
  intro x _
  have hamp : (∑ k, phi (tmpl T fs b) (acPsd psd ac) k * toFreq fs x k /
      (norm (tmpl T fs b) (acPsd psd ac) fs : ℂ)).re * (fs / n) =
      (nodelay (init x T psd fs ac b) 0).1.1 := by
    rw [phi_init x T psd fs ac b, norm_init x T psd fs ac b]
    simp only [nodelay, ne_eq, not_true_eq_false, if_false]
    rfl
  have hchi : (nodelay (init x T psd fs ac b) 0).1.2 = readChi0 (init x T psd fs ac b) -
    (nodelay (init x T psd fs ac b) 0).1.1 ^ 2 * (init x T psd fs ac b).norm := rfl
  simp only [Function.comp_apply]
  rw [hamp, hchi, chi0_init x T psd fs ac b, norm_init x T psd fs ac b]

theorem ofampSigma_agrees (x T : ZMod n → ℝ) (psd : ZMod n → WithTop ℝ) (fs : ℝ) (ac b : Bool) :
    ofampSigma T psd fs ac b = energyResolution (init x T psd fs ac b) := by
  unfold ofampSigma energyResolution
  rw [← norm_init x T psd fs ac b]
  rfl

/-- With both first-pulse parameters given, `ofamp_pileup` returns them and the class's second
pulse, whenever the window for the second pulse is not empty. -/
theorem ofampPileup_agrees_partial (x T : ZMod n → ℝ) (psd : ZMod n → WithTop ℝ) (fs a1 t1 : ℝ)
    (ac : Bool) (nc1 nc2 : Option ℤ) (o : Bool) (hne : ∃ j, Admissible n nc2 o none 0 j) :
    ofampPileup x T psd fs (some a1) (some t1) ac nc1 nc2 o =
      match (pileupIterative (init x T psd fs ac false) a1 t1 nc2 o 0 0 false).1 with
      | .error e => .error e
      | .ok (a2, t2, c) => .ok (a1, t1, a2, t2, c) := by
  unfold ofampPileup
  simp only [firstPulse]
  set st := init x T psd fs ac false with hst
  have htf : (fun m => (ifft (fun k => Complex.exp (-1 * Complex.I *
      ((2 * Real.pi * fftfreq fs k : ℝ) : ℂ) * t1) *
      phi (tmpl T fs false) (acPsd psd ac) k * tmpl T fs false k * (n : ℂ)) m).re * (fs / n)) =
      tfTdAt st t1 := by
    funext m
    unfold tfTdAt
    rw [phi_init x T psd fs ac false, tmpl_init x T psd fs ac false]
    congr 3
    funext k
    rw [show readFreqs st k = fftfreq fs k from rfl]
    congr 4
    push_cast
    ring
  have hind : (if t1 < 0 then trunc (t1 * fs + n) else trunc (t1 * fs)) = t1Index st t1 := rfl
  have ha2 : (fun m => filt (tmpl T fs false) (toFreq fs x) (acPsd psd ac) fs m -
      a1 * tfTdAt st t1 m / norm (tmpl T fs false) (acPsd psd ac) fs) = pileupA2 st a1 t1 := by
    rw [filt_init x T psd fs ac false, norm_init x T psd fs ac false]; rfl
  have hchi : (fun m => chi0 (toFreq fs x) (acPsd psd ac) fs +
      ((a1 ^ 2 + pileupA2 st a1 t1 m ^ 2) * norm (tmpl T fs false) (acPsd psd ac) fs +
        2 * a1 * pileupA2 st a1 t1 m * tfTdAt st t1 m) -
      (2 * a1 * filt (tmpl T fs false) (toFreq fs x) (acPsd psd ac) fs (t1Index st t1 : ZMod n) *
        norm (tmpl T fs false) (acPsd psd ac) fs +
        2 * pileupA2 st a1 t1 m * filt (tmpl T fs false) (toFreq fs x) (acPsd psd ac) fs m *
        norm (tmpl T fs false) (acPsd psd ac) fs)) = pileupChi st a1 t1 := by
    funext m
    rw [filt_init x T psd fs ac false, norm_init x T psd fs ac false,
      chi0_init x T psd fs ac false]
    unfold pileupChi pileupChit
    ring
  simp only [fun m => congrFun htf m, hind, fun m => congrFun ha2 m, fun m => congrFun hchi m]
  unfold pileupIterative
  simp only
  by_cases hi : -(n : ℤ) ≤ t1Index st t1 ∧ t1Index st t1 < n
  · simp only [if_neg (not_not.2 hi), search_zero]
    cases hr : argminChi2 n (asIdx (roll (pileupChi st a1 t1) ((n / 2 : ℕ) : ZMod n))) nc2 o none 0 with
    | error e => rfl
    | ok r =>
      cases r with
      | none =>
        obtain ⟨j, hj⟩ := hne
        exact absurd hj ((argmin_none_iff _ _ _ _ _ _ _ hr).1 rfl j)
      | some i => rfl
  · simp only [if_pos hi]

/-- With either first-pulse parameter missing, the first pulse is the class's delay fit with the
window `nconstrain1`, and the second is the class's iterative fit to it. -/
theorem ofampPileup_auto_partial (x T : ZMod n → ℝ) (psd : ZMod n → WithTop ℝ) (fs : ℝ)
    (a1 t1 : Option ℝ) (ac : Bool) (nc1 nc2 : Option ℤ) (o : Bool) (hn : a1 = none ∨ t1 = none)
    (hne1 : ∃ j, Admissible n nc1 false none 0 j) :
    ofampPileup x T psd fs a1 t1 ac nc1 nc2 o =
      match (withdelay (init x T psd fs ac false) nc1 false 0 0 false).1 with
      | .error e => .error e
      | .ok (a, t, _) => ofampPileup x T psd fs (some a) (some t) ac nc1 nc2 o := by
  have hfp : firstPulse x T psd fs a1 t1 ac nc1 =
      match (withdelay (init x T psd fs ac false) nc1 false 0 0 false).1 with
      | .error e => .error e
      | .ok (a, t, _) => .ok (a, t) := by
    have : firstPulse x T psd fs a1 t1 ac nc1 =
      match ofamp [x] T psd fs true ac nc1 false false with
      | .error e => .error e
      | .ok l => .ok ((l.headD (0, 0, 0)).1, (l.headD (0, 0, 0)).2.1) := by
      unfold firstPulse
      rcases hn with rfl | rfl
      · rfl
      · cases a1 <;> rfl
    rw [this, withdelay_eq]
    rcases ofamp_cases [x] T psd fs ac false nc1 false with ⟨h1, h2⟩ | ⟨h1, h2⟩ | ⟨f, h1, h2⟩
    · rw [h1, (argmin_error_iff n _ nc1 false none 0).2 (Or.inr h2)]
    · obtain ⟨j, hj⟩ := hne1
      exact absurd hj ((argmin_none_iff _ _ _ _ _ _ _ (h2 0)).1 rfl j)
    · rw [h2, h1]; rfl
  unfold ofampPileup
  rw [hfp]
  cases (withdelay (init x T psd fs ac false) nc1 false 0 0 false).1 with
  | error e => rfl
  | ok r => rfl

/-- `ofamp_pileup_stationary` and the class method agree on every input with a non-zero template. -/
theorem ofampPileupStationary_agrees (x T : ZMod n → ℝ) (psd : ZMod n → WithTop ℝ) (fs : ℝ)
    (ac : Bool) (nc : Option ℤ) (o : Bool) (hN : traceChi2 fs (weight psd ac) T ≠ 0) :
    ofampPileupStationary x T psd fs ac nc o =
      (pileupStationary (init x T psd fs ac false) nc o 0).1 := by
  unfold ofampPileupStationary pileupStationary
  rw [← init_norm x] at hN
  have e1 := filt_init x T psd fs ac false
  have e2 := norm_init x T psd fs ac false
  have e3 := chi0_init x T psd fs ac false
  have e4 := phi_init x T psd fs ac false
  have e5 := tmpl_init x T psd fs ac false
  set st := init x T psd fs ac false with hst
  have htf : (fun m => (ifft (fun k => st.phi k * st.s k * (n : ℂ)) m).re * (fs / n)) = tfTd st := rfl
  simp only [e1, e2, e3, e4]
  simp only [e5]
  have htf' : ∀ m, (ifft (fun k => st.phi k * st.s k * (n : ℂ)) m).re * (fs / n) = tfTd st m :=
    fun m => rfl
  simp only [htf']
  have ha1 : (fun m => if m = 0 then readSfTd st 0 * st.norm / (2 * st.norm ^ 2) else
      (readSfTd st 0 * st.norm * st.norm - readSfTd st m * st.norm * tfTd st m) /
        (st.norm ^ 2 - tfTd st m ^ 2)) = statA1 st := by
    funext m
    unfold statA1
    split_ifs
    · field_simp
    · ring_nf
  have ha2 : (fun m => if m = 0 then readSfTd st 0 * st.norm / (2 * st.norm ^ 2) else
      (readSfTd st m * st.norm * st.norm - readSfTd st 0 * st.norm * tfTd st m) /
        (st.norm ^ 2 - tfTd st m ^ 2)) = statA2 st := by
    funext m
    unfold statA2
    split_ifs
    · field_simp
    · ring_nf
  have ha1' := fun m => congrFun ha1 m
  have ha2' := fun m => congrFun ha2 m
  have hchi : (fun m => readChi0 st + ((statA1 st m ^ 2 + statA2 st m ^ 2) * st.norm +
      2 * statA1 st m * statA2 st m * tfTd st m) - (2 * statA1 st m * (readSfTd st 0 * st.norm) +
      2 * statA2 st m * (readSfTd st m * st.norm))) = statChi st := by
    funext m
    unfold statChi
    ring
  simp only [ha1', ha2', hchi]
  rfl

/-- `chi2lowfreq` with one amplitude and delay per trace is the class method on each trace. -/
theorem chi2lowfreq_agrees (xs : List (ZMod n → ℝ)) (T : ZMod n → ℝ) (ats : List (ℝ × ℝ))
    (psd : ZMod n → WithTop ℝ) (fs fcutoff : ℝ) (ac : Bool) (hl : xs.length = ats.length) :
    chi2lowfreq xs T ats psd fs fcutoff ac = .ok (List.zipWith (fun x at' =>
      (OF.chi2Lowfreq (init x T psd fs ac false) at'.1 at'.2 fcutoff).1) xs ats) := by
  have hb : bcast xs ats = .ok (xs.zip ats) := by
    match xs, ats, hl with
    | [], [], _ => rfl
    | [a], [b], _ => rfl
    | a :: a' :: as, b :: b' :: bs, hl => simp only [bcast]; rw [if_pos hl]
  unfold chi2lowfreq
  simp only [hb, Except.ok.injEq]
  rw [← List.map_uncurry_zip_eq_zipWith]
  refine List.map_congr_left fun q _ => ?_
  rfl

/-- `chi2_nopulse` is the class method. -/
theorem chi2Nopulse_agrees (x T : ZMod n → ℝ) (psd : ZMod n → WithTop ℝ) (fs : ℝ) (ac b : Bool) :
    chi2Nopulse x psd fs ac = (OF.chi2Nopulse (init x T psd fs ac b)).1 := by
  have h := (ofamp_emptyWindow_violated x T psd fs ac b).2
  have h' := (withdelay_eq x T psd fs ac b (some n) true).symm.trans h
  rcases ofamp_cases [x] T psd fs ac b (some n) true with ⟨_, k, h2, h3⟩ | ⟨h1, h2⟩ | ⟨f, h1, h2⟩
  · have := NeZero.pos n; cases h2; omega
  · rw [h2] at h'
    simp only [Except.ok.injEq, Prod.mk.injEq, true_and] at h'
    exact h'.symm
  · have := (ofamp_emptyWindow_violated x T psd fs ac b).1
    rw [h2] at this; cases this

/-- Non-vacuity: white noise, a one-bin template, two traces of three samples. -/
example : ∃ rs, ofamp [(fun _ => 1 : ZMod 3 → ℝ), delta] delta white 1 true false (some 1) true false
    = .ok rs ∧ rs.length = 2 := by
  obtain ⟨rs, h⟩ := ofamp_total_partial [(fun _ => 1 : ZMod 3 → ℝ), delta] delta white 1 false false
    (some 1) true (by intro k hk; cases hk; norm_num) ⟨0, by
      refine ⟨le_rfl, by norm_num, ?_, by simp⟩
      intro k hk; cases hk
      simp [InWindow]⟩
  exact ⟨rs, h, (ofamp_agrees _ _ _ _ _ _ _ _ _ h).length_eq.symm⟩

/-- An unconstrained window always has an admissible bin. -/
example : ∃ j, Admissible 5 none false none 0 j := ⟨2, by norm_num, by norm_num, by simp, by simp⟩

/-- A template the stationary fit accepts. -/
example : traceChi2 2 (weight white false) (delta : ZMod 5 → ℝ) ≠ 0 := by
  rw [delta_norm]; norm_num

end Verif.OF.Fun
