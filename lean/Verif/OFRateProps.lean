import Verif.OFRateLemmas

/-!
Property C141: how often noise looks like a pulse and how often a pulse is missed, when the fit searches among
several delays.
-/

namespace Verif.OF
open Verif Verif.Dft MeasureTheory ProbabilityTheory

variable {n : ℕ} [NeZero n]

omit [NeZero n] in
/-- A window of `k` bins has at most `k` delays, and there are at most as many as bins. -/
theorem delays_card (nc : Option ℤ) (o : Bool) (wc : ℤ) : (Delays n nc o wc).ncard ≤ n ∧
    ∀ k : ℕ, nc = some (k : ℤ) → o = false → (Delays n nc o wc).ncard ≤ k := by
  constructor
  · have : Delays n nc o wc ⊆ (Finset.Ico (-((n : ℤ) / 2)) (n - (n : ℤ) / 2) : Finset ℤ) := by
      rintro d ⟨h1, h2, -⟩
      rw [Finset.mem_coe, Finset.mem_Ico]
      exact ⟨by omega, by omega⟩
    refine (Set.ncard_le_ncard this (Finset.finite_toSet _)).trans ?_
    rw [Set.ncard_coe_finset, Int.card_Ico]
    omega
  · rintro k rfl rfl
    have : Delays n (some (k : ℤ)) false wc ⊆
        (Finset.Ico (wc - min (k : ℤ) n / 2) (wc + min (k : ℤ) n / 2 + min (k : ℤ) n % 2) : Finset ℤ) := by
      rintro d ⟨-, -, h, -⟩
      have := h _ rfl
      simp only [Bool.false_eq_true, if_false, InWindow] at this
      rw [Finset.mem_coe, Finset.mem_Ico]
      exact ⟨by omega, by omega⟩
    refine (Set.ncard_le_ncard this (Finset.finite_toSet _)).trans ?_
    rw [Set.ncard_coe_finset, Int.card_Ico]
    omega

section Any
variable {Ω : Type*} [MeasurableSpace Ω] {μ : Measure Ω} {noise : Ω → ZMod n → ℝ} {R : ZMod n → ℝ}
  {psd : ZMod n → WithTop ℝ} {fs : ℝ} {ac : Bool} {T : ZMod n → ℝ} {nc : Option ℤ} {o : Bool} {dir wc : ℤ}
  {A t c : Ω → ℝ}

/-- On noise, the fit finds an amplitude of `l` resolutions with a probability of at most the number of delays over
`l²`. -/
theorem false_triggers [IsFiniteMeasure μ] (h : Stationary μ noise R) (hR : HasPsd R fs psd) (hpsd : ∀ k, 0 < psd k)
    (hs : ∀ k, psd (-k) = psd k) (hfs : 0 < fs) (hN : 0 < traceChi2 fs (weight psd ac) T)
    (hfit : ∀ ω, (withdelay (init (noise ω) T psd fs ac false) nc o dir wc false).1 = .ok (A ω, t ω, c ω))
    (x : ZMod n → ℝ) {l : ℝ} (hl : 0 < l) :
    μ.real {ω | l * energyResolution (init x T psd fs ac false) ≤ |A ω|} ≤ (Delays n nc o wc).ncard / l ^ 2 := by
  have hσ := (resolution_sq (x := x) hN).1
  refine (measureReal_mono (trigger_set hfit (mul_pos hl hσ)) (measure_ne_top _ _)).trans ((measureReal_biUnion_finset_le _ _).trans ?_)
  rw [Set.ncard_eq_toFinset_card _ (delays_finite nc o wc), div_eq_mul_one_div, ← nsmul_eq_mul]
  refine Finset.sum_le_card_nsmul _ _ _ fun d _ => le_trans (measureReal_mono ?_ (measure_ne_top _ _)) (err_tail h hR hpsd hs hfs hN d x hl)
  rintro ω (⟨-, h⟩ | ⟨-, h⟩)
  · exact h.trans (le_abs_self _)
  · exact h.trans (neg_le_abs _)

/-- A pulse at one of the delays is found with an amplitude short of the true one by `l` resolutions with a probability
of at most `1/l²`, whatever the number of delays. -/
theorem missed_pulses [IsFiniteMeasure μ] (h : Stationary μ noise R) (hR : HasPsd R fs psd) (hpsd : ∀ k, 0 < psd k)
    (hs : ∀ k, psd (-k) = psd k) (hfs : 0 < fs) (hN : 0 < traceChi2 fs (weight psd ac) T) {a : ℝ} {m : ℤ}
    (hm : m ∈ Delays n nc o wc) (h1 : dir = 1 → 0 < a) (h2 : dir = -1 → a < 0)
    (hfit : ∀ ω, (withdelay (init (pulse T a m (noise ω)) T psd fs ac false) nc o dir wc false).1 =
      .ok (A ω, t ω, c ω)) (x : ZMod n → ℝ) {l : ℝ} (hl : 0 < l) :
    μ.real {ω | |A ω| ≤ |a| - l * energyResolution (init x T psd fs ac false)} ≤ 1 / l ^ 2 := by
  have hσ := (resolution_sq (x := x) hN).1
  refine (measureReal_mono (missed_set hN hfit hm h1 h2 (mul_pos hl hσ)) (measure_ne_top _ _)).trans
    (le_trans (measureReal_mono ?_ (measure_ne_top _ _)) (err_tail h hR hpsd hs hfs hN m x hl))
  rintro ω (⟨-, h⟩ | ⟨-, h⟩)
  · exact h.trans (neg_le_abs _)
  · exact h.trans (le_abs_self _)

/-- The freedom of the delay makes amplitudes larger and chi-squares smaller on average, the more so the more delays
there are. -/
theorem search_means [IsFiniteMeasure μ] (h : Stationary μ noise R) (hR : HasPsd R fs psd) (hpsd : ∀ k, 0 < psd k)
    (hs : ∀ k, psd (-k) = psd k) (hfs : 0 < fs) (hN : 0 < traceChi2 fs (weight psd ac) T)
    (hne : (Delays n nc o wc).Nonempty)
    (hfit : ∀ ω, (withdelay (init (noise ω) T psd fs ac false) nc o 0 wc false).1 = .ok (A ω, t ω, c ω))
    (x : ZMod n → ℝ) :
    (Integrable (fun ω => A ω ^ 2) μ ∧ Integrable c μ) ∧
    (energyResolution (init x T psd fs ac false) ^ 2 ≤ ∫ ω, A ω ^ 2 ∂μ ∧
      ∫ ω, A ω ^ 2 ∂μ ≤ (Delays n nc o wc).ncard * energyResolution (init x T psd fs ac false) ^ 2) ∧
    nUsed psd ac - ((Delays n nc o wc).ncard : ℝ) ≤ ∫ ω, c ω ∂μ ∧ ∫ ω, c ω ∂μ ≤ nUsed psd ac - 1 := by
  set D := (delays_finite (n := n) nc o wc).toFinset with hD
  have hDne : D.Nonempty := by
    obtain ⟨d, hd⟩ := hne
    exact ⟨d, (delays_finite nc o wc).mem_toFinset.2 hd⟩
  have hlow : ∀ d ∈ D, ∀ ω, err fs psd ac T d (noise ω) ^ 2 ≤ A ω ^ 2 := fun d hd ω => by
    have := withdelay_dominates hN (hfit ω) ((delays_finite nc o wc).mem_toFinset.1 hd) (by simp) (by simp)
    rwa [sfTd_noise] at this
  have hex : ∀ ω, ∃ d ∈ D, A ω ^ 2 = err fs psd ac T d (noise ω) ^ 2 := fun ω => by
    rcases (withdelay_cases (hfit ω)).2 with e | ⟨d, hd, e⟩
    · obtain ⟨d, hd⟩ := hDne
      refine ⟨d, hd, le_antisymm ?_ (hlow d hd ω)⟩
      rw [e, zero_pow two_ne_zero]
      exact sq_nonneg _
    · exact ⟨d, (delays_finite nc o wc).mem_toFinset.2 hd, by rw [e, sfTd_noise]; rfl⟩
  have hsup : (fun ω => A ω ^ 2) = D.sup' hDne fun d ω => err fs psd ac T d (noise ω) ^ 2 := by
    funext ω
    rw [Finset.sup'_apply]
    obtain ⟨d, hd, e⟩ := hex ω
    refine le_antisymm ?_ (Finset.sup'_le _ _ fun d hd => hlow d hd ω)
    rw [e]
    exact Finset.le_sup' (fun d : ℤ => err fs psd ac T d (noise ω) ^ 2) hd
  have hint : Integrable (fun ω => A ω ^ 2) μ := by
    rw [hsup]
    exact Finset.sup'_induction _ _ (p := fun f => Integrable f μ) (fun f hf g hg => hf.sup hg)
      fun d _ => err_int h hs d
  have hc : c = fun ω => traceChi2 fs (weight psd ac) (noise ω) - A ω ^ 2 * traceChi2 fs (weight psd ac) T := by
    funext ω
    rw [(withdelay_cases (hfit ω)).1, init_chi0, init_norm]
  have hicc : Integrable c μ := by
    rw [hc]
    exact (h.int_chi _ _).sub (hint.mul_const _)
  have hA1 : energyResolution (init x T psd fs ac false) ^ 2 ≤ ∫ ω, A ω ^ 2 ∂μ := by
    obtain ⟨d, hd⟩ := hDne
    rw [← err_sq h hR hpsd hs hfs hN d x]
    exact integral_mono (err_int h hs d) hint fun ω => hlow d hd ω
  have hA2 : ∫ ω, A ω ^ 2 ∂μ ≤ (Delays n nc o wc).ncard * energyResolution (init x T psd fs ac false) ^ 2 := by
    have : ∫ ω, ∑ d ∈ D, err fs psd ac T d (noise ω) ^ 2 ∂μ =
        (Delays n nc o wc).ncard * energyResolution (init x T psd fs ac false) ^ 2 := by
      rw [integral_finsetSum D (f := fun (d : ℤ) ω => err fs psd ac T d (noise ω) ^ 2) fun d _ => err_int h hs (d : ZMod n), Set.ncard_eq_toFinset_card _ (delays_finite nc o wc)]
      simp only [err_sq h hR hpsd hs hfs hN _ x, Finset.sum_const, nsmul_eq_mul, hD]
    rw [← this]
    refine integral_mono hint (integrable_finsetSum _ fun d _ => err_int h hs d) fun ω => ?_
    obtain ⟨d, hd, e⟩ := hex ω
    simp only
    rw [e]
    exact Finset.single_le_sum (f := fun d : ℤ => err fs psd ac T d (noise ω) ^ 2) (fun _ _ => sq_nonneg _) hd
  have hchi : ∫ ω, c ω ∂μ = nUsed psd ac - (∫ ω, A ω ^ 2 ∂μ) * traceChi2 fs (weight psd ac) T := by
    rw [hc, integral_sub (h.int_chi _ _) (hint.mul_const _), integral_mul_const,
      ← chi2_nopulse_mean h hR hpsd hfs ac false T]
    simp only [chi2Nopulse, init_chi0]
  rw [(resolution_sq hN).2] at hA1 hA2 ⊢
  refine ⟨⟨hint, hicc⟩, ⟨hA1, hA2⟩, ?_, ?_⟩
  · rw [hchi]
    have := mul_le_mul_of_nonneg_right hA2 hN.le
    rw [mul_assoc, one_div_mul_cancel hN.ne', mul_one] at this
    linarith
  · rw [hchi]
    have := mul_le_mul_of_nonneg_right hA1 hN.le
    rw [one_div_mul_cancel hN.ne'] at this
    linarith

end Any

section Normal
variable {psd : ZMod n → ℝ} {fs : ℝ} {ac : Bool} {T : ZMod n → ℝ} {nc : Option ℤ} {o : Bool} {dir wc : ℤ}
  {A t c : (ZMod n → ℝ) → ℝ}

/-- On noise made by `gen_noise` large amplitudes are exponentially rare; half as many if the direction of the pulse is
given. -/
theorem false_triggers_normal (hpsd : ∀ k, 0 < psd k) (hs : ∀ k, psd (-k) = psd k) (hfs : 0 < fs)
    (hN : 0 < traceChi2 fs (weight (fun k => (psd k : WithTop ℝ)) ac) T)
    (hfit : ∀ ω, (withdelay (init (Noise.genNoise psd fs ω) T (fun k => psd k) fs ac false) nc o dir wc false).1 =
      .ok (A ω, t ω, c ω)) (x : ZMod n → ℝ) {l : ℝ} (hl : 0 < l) :
    (normalDraws n).real {ω | l * energyResolution (init x T (fun k => psd k) fs ac false) ≤ |A ω|} ≤
      (Delays n nc o wc).ncard * ((if dir = 0 then 2 else 1) * Real.exp (-l ^ 2 / 2)) := by
  have hσ := (resolution_sq (x := x) hN).1
  refine (measureReal_mono (trigger_set hfit (mul_pos hl hσ)) (measure_ne_top _ _)).trans ((measureReal_biUnion_finset_le _ _).trans ?_)
  rw [Set.ncard_eq_toFinset_card _ (delays_finite nc o wc), ← nsmul_eq_mul]
  refine Finset.sum_le_card_nsmul _ _ _ fun d _ => ?_
  obtain ⟨b1, b2⟩ := err_normal_tail (T := T) hpsd hs hfs hN (d : ZMod n) x hl.le
  have hdir := (direction_sign_partial _ _ _ _ _ _ _ _ _ _ _ _ _ (hfit 0)).1
  have hpos := Real.exp_pos (-l ^ 2 / 2)
  rcases hdir with e | e | e
  · rw [if_neg (by rw [e]; decide), one_mul]
    refine le_trans (measureReal_mono ?_ (measure_ne_top _ _)) b2
    rintro ω (⟨h, -⟩ | ⟨-, h⟩)
    · exact absurd e h
    · exact h
  · rw [if_pos e, two_mul]
    refine le_trans (measureReal_mono ?_ (measure_ne_top _ _)) ((measureReal_union_le _ _).trans (add_le_add b1 b2))
    rintro ω (⟨-, h⟩ | ⟨-, h⟩)
    · exact .inl h
    · exact .inr h
  · rw [if_neg (by rw [e]; decide), one_mul]
    refine le_trans (measureReal_mono ?_ (measure_ne_top _ _)) b1
    rintro ω (⟨-, h⟩ | ⟨h, -⟩)
    · exact h
    · exact absurd e h

/-- So are pulses found with too small an amplitude. -/
theorem missed_pulses_normal (hpsd : ∀ k, 0 < psd k) (hs : ∀ k, psd (-k) = psd k) (hfs : 0 < fs)
    (hN : 0 < traceChi2 fs (weight (fun k => (psd k : WithTop ℝ)) ac) T) {a : ℝ} {m : ℤ}
    (hm : m ∈ Delays n nc o wc) (h1 : dir = 1 → 0 < a) (h2 : dir = -1 → a < 0)
    (hfit : ∀ ω, (withdelay (init (pulse T a m (Noise.genNoise psd fs ω)) T (fun k => psd k) fs ac false) nc o dir wc
      false).1 = .ok (A ω, t ω, c ω)) (x : ZMod n → ℝ) {l : ℝ} (hl : 0 < l) :
    (normalDraws n).real {ω | |A ω| ≤ |a| - l * energyResolution (init x T (fun k => psd k) fs ac false)} ≤
      Real.exp (-l ^ 2 / 2) := by
  have hσ := (resolution_sq (x := x) hN).1
  obtain ⟨b1, b2⟩ := err_normal_tail (T := T) hpsd hs hfs hN (m : ZMod n) x hl.le
  refine (measureReal_mono (missed_set hN hfit hm h1 h2 (mul_pos hl hσ)) (measure_ne_top _ _)).trans ?_
  rcases lt_or_ge a 0 with ha | ha
  · refine le_trans (measureReal_mono ?_ (measure_ne_top _ _)) b1
    rintro ω (⟨h, -⟩ | ⟨-, h⟩)
    · exact absurd h (not_lt.2 ha.le)
    · exact h
  · refine le_trans (measureReal_mono ?_ (measure_ne_top _ _)) b2
    rintro ω (⟨-, h⟩ | ⟨h, -⟩)
    · exact h
    · exact absurd h (not_lt.2 ha)

end Normal

/-- The fits of these theorems finish for every trace, whichever the direction, if the window is not empty and its
centre lies in the trace. -/
theorem search_finishes (x T : ZMod n → ℝ) (psd : ZMod n → WithTop ℝ) (fs : ℝ) (ac : Bool) {nc : Option ℤ} (o : Bool)
    {dir wc : ℤ} (hdir : dir = -1 ∨ dir = 0 ∨ dir = 1) (hwc : 0 ≤ (n : ℤ) / 2 + wc ∧ (n : ℤ) / 2 + wc < n)
    (hk : ∀ k, nc = some k → 0 < k) :
    ∃ a t c, (withdelay (init x T psd fs ac false) nc o dir wc false).1 = .ok (a, t, c) := by
  have hmask : ∃ m, directionMask (asIdx (readAmps (init x T psd fs ac false))) dir = .ok m := by
    unfold directionMask
    rcases hdir with rfl | rfl | rfl <;> exact ⟨_, rfl⟩
  obtain ⟨m, hm⟩ := hmask
  obtain ⟨r, hr⟩ := argmin_total n (asIdx (readChi (init x T psd fs ac false))) nc o m wc hwc hk
  have hsr : search (readAmps (init x T psd fs ac false)) (readChi (init x T psd fs ac false)) nc o dir wc = .ok r := by
    unfold search
    rw [hm]
    exact hr
  simp only [withdelay, pick, hsr]
  cases r <;> simp

/-- The hypotheses hold for generated white noise and the one-bin template, for every trace length; the window is the
central bin, or everything. -/
example (nc : Option ℤ) (hnc : nc = none ∨ nc = some 1) (dir : ℤ) (hdir : dir = -1 ∨ dir = 0 ∨ dir = 1) :
    ∃ A t c : (ZMod n → ℝ) → ℝ, (∃ R, Stationary (normalDraws n) (fun ω => Noise.genNoise (fun _ : ZMod n => (1 : ℝ)) 1 ω) R ∧
      HasPsd R 1 fun _ => ((1 : ℝ) : WithTop ℝ)) ∧
    0 < traceChi2 1 (weight (fun _ => ((1 : ℝ) : WithTop ℝ)) false) (delta : ZMod n → ℝ) ∧
    (0 : ℤ) ∈ Delays n nc false 0 ∧
    ∀ ω, (withdelay (init (Noise.genNoise (fun _ => (1 : ℝ)) 1 ω) delta (fun _ => ((1 : ℝ) : WithTop ℝ)) 1 false false)
      nc false dir 0 false).1 = .ok (A ω, t ω, c ω) := by
  have hn := Nat.pos_of_ne_zero (NeZero.ne n)
  have h : ∀ ω : ZMod n → ℝ, ∃ a t c, (withdelay (init (Noise.genNoise (fun _ => (1 : ℝ)) 1 ω) delta
      (fun _ => ((1 : ℝ) : WithTop ℝ)) 1 false false) nc false dir 0 false).1 = .ok (a, t, c) := fun ω =>
    search_finishes _ _ _ _ _ _ hdir (by omega) (by rcases hnc with rfl | rfl <;> simp)
  choose A t c hAtc using h
  refine ⟨A, t, c, genNoise_stationary _ (fun _ => rfl) (fun _ => zero_le_one) zero_le_one normalDraws_stationary, ?_, ?_,
    hAtc⟩
  · have := delta_norm (n := n) 1
    rw [one_div_one] at this
    exact this.symm ▸ one_pos
  · refine ⟨by omega, by omega, ?_, by simp⟩
    rcases hnc with rfl | rfl
    · simp
    · intro k hk
      cases hk
      simp only [Bool.false_eq_true, if_false, InWindow]
      have : min (1 : ℤ) n = 1 := by omega
      rw [this]
      omega

end Verif.OF
