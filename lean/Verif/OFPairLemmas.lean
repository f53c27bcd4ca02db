import Verif.OFEquivLemmas

/-! Helper lemmas for the two-parameter fits (pile-up and baseline). -/

namespace Verif.OF
open Verif Verif.Dft

variable {n : ℕ} [NeZero n]

/-- Solutions of the normal equations minimise the chi-square. -/
theorem normal_eq_min (fs : ℝ) (wt x y z : ZMod n → ℝ) (hfs : 0 ≤ fs) (hw : ∀ k, 0 ≤ wt k)
    (a b : ℝ) (h1 : a * traceChi2 fs wt y + b * ip fs wt y z = ip fs wt y x)
    (h2 : a * ip fs wt y z + b * traceChi2 fs wt z = ip fs wt z x) (a' b' : ℝ) :
    traceChi2 fs wt (fun j => x j - a * y j - b * z j) ≤
      traceChi2 fs wt (fun j => x j - a' * y j - b' * z j) := by
  have h3 := ip_nonneg fs wt (fun j => (0 : ℝ) - (a' - a) * y j - (b' - b) * z j) hfs hw
  rw [traceChi2_expand fs wt (fun _ => (0 : ℝ)) y z] at h3
  have z0 : ∀ u : ZMod n → ℝ, ip fs wt u (fun _ => (0 : ℝ)) = 0 := by
    intro u
    have := ip_smul_right fs wt u u 0
    simpa using this
  have z1 : traceChi2 fs wt (fun _ : ZMod n => (0 : ℝ)) = 0 := by rw [← ip_self]; exact z0 _
  rw [z0, z0, z1] at h3
  rw [traceChi2_expand, traceChi2_expand, ← h1, ← h2]
  nlinarith [h3]

/-- For fixed `b` the amplitude `(⟨y,x⟩ - b ⟨y,z⟩)/⟨y,y⟩` minimises. -/
theorem fixed_b_expand (fs : ℝ) (wt x y z : ZMod n → ℝ) (hN : traceChi2 fs wt y ≠ 0) (a b : ℝ) :
    traceChi2 fs wt (fun j => x j - a * y j - b * z j) =
      (traceChi2 fs wt x - 2 * b * ip fs wt z x + b ^ 2 * traceChi2 fs wt z)
      - ((ip fs wt y x - b * ip fs wt y z) / traceChi2 fs wt y) ^ 2 * traceChi2 fs wt y
      + (a - (ip fs wt y x - b * ip fs wt y z) / traceChi2 fs wt y) ^ 2 * traceChi2 fs wt y := by
  rw [traceChi2_expand]
  field_simp
  ring

/-! ### Pile-up -/

section
variable (x T : ZMod n → ℝ) (psd : ZMod n → WithTop ℝ) (fs : ℝ) (ac : Bool)

theorem trunc_int (m : ℤ) : trunc (m : ℝ) = m := by
  unfold trunc; split_ifs <;> simp

theorem t1Index_int (b : Bool) (hfs : 0 < fs) (m1 : ℤ) (t1 : ℝ) (ht : t1 = m1 / fs) :
    (t1Index (init x T psd fs ac b) t1 : ZMod n) = (m1 : ZMod n) ∧
    (-(n : ℤ) ≤ t1Index (init x T psd fs ac b) t1 ∧ t1Index (init x T psd fs ac b) t1 < n ↔
      -(2 * n : ℤ) ≤ m1 ∧ m1 < n) := by
  have h1 : t1 * (init x T psd fs ac b).fs = m1 := by
    show t1 * fs = m1; rw [ht]; field_simp
  have h2 : t1 < 0 ↔ m1 < 0 := by
    rw [ht, div_neg_iff]
    constructor
    · rintro (⟨_, h⟩ | ⟨h, _⟩)
      · linarith
      · exact_mod_cast h
    · intro h; right; exact ⟨by exact_mod_cast h, hfs⟩
  unfold t1Index
  rw [h1]
  split_ifs with h
  · rw [h2] at h
    have : trunc ((m1 : ℝ) + (n : ℝ)) = m1 + n := by
      rw [← trunc_int (m1 + n)]; push_cast; rfl
    rw [this]
    refine ⟨by push_cast; simp, by omega⟩
  · rw [h2] at h
    rw [trunc_int]
    refine ⟨rfl, by omega⟩

/-- Two-pulse residual, completed square in the second amplitude. -/
theorem pile_square (hfs : 0 < fs) (hN : traceChi2 fs (weight psd ac) T ≠ 0) (a1 : ℝ) (m1 : ℤ)
    (t1 : ℝ) (ht : t1 = m1 / fs) (b : ℝ) (m : ZMod n) :
    traceChi2 fs (weight psd ac) (resid2 x T a1 (m1 : ZMod n) b m) =
      (readChi0 (init x T psd fs ac false) + pileupChit (init x T psd fs ac false) a1 t1)
      - pileupA2 (init x T psd fs ac false) a1 t1 m ^ 2 * (init x T psd fs ac false).norm
      + (b - pileupA2 (init x T psd fs ac false) a1 t1 m) ^ 2 * (init x T psd fs ac false).norm := by
  have hN' : (init x T psd fs ac false).norm ≠ 0 := by rw [init_norm]; exact hN
  rw [resid_expand2 x T psd fs ac hN]
  unfold pileupA2 pileupChit
  rw [(t1Index_int x T psd fs ac false hfs m1 t1 ht).1, init_tfTdAt x T psd fs ac hfs.ne' m m1 t1 ht]
  field_simp
  ring

theorem pile_chi (st : State n) (hN : st.norm ≠ 0) (a1 t1 : ℝ) (m : ZMod n) :
    pileupChi st a1 t1 m = (readChi0 st + pileupChit st a1 t1) - pileupA2 st a1 t1 m ^ 2 * st.norm := by
  unfold pileupChi
  have : tfTdAt st t1 m * a1 = (readSfTd st m - pileupA2 st a1 t1 m) * st.norm := by
    unfold pileupA2; field_simp; ring
  simp only
  linear_combination 2 * pileupA2 st a1 t1 m * this

omit [NeZero n] in
theorem resid2_zero (a1 : ℝ) (m1 m : ZMod n) : resid2 x T a1 m1 0 m = resid x T a1 m1 := by
  funext j; simp [resid2, resid]

/-! ### Stationary pile-up -/

theorem stat_normal (hN : traceChi2 fs (weight psd ac) T ≠ 0) (m : ZMod n) (hm : m ≠ 0)
    (hd : (init x T psd fs ac false).norm ^ 2 - tfTd (init x T psd fs ac false) m ^ 2 ≠ 0) :
    statA1 (init x T psd fs ac false) m * traceChi2 fs (weight psd ac) T
      + statA2 (init x T psd fs ac false) m * ip fs (weight psd ac) T (roll T m)
      = ip fs (weight psd ac) T x ∧
    statA1 (init x T psd fs ac false) m * ip fs (weight psd ac) T (roll T m)
      + statA2 (init x T psd fs ac false) m * traceChi2 fs (weight psd ac) (roll T m)
      = ip fs (weight psd ac) (roll T m) x := by
  have hroll0 : roll T 0 = T := by funext j; simp [roll]
  have hN' : (init x T psd fs ac false).norm ≠ 0 := by rw [init_norm]; exact hN
  have i0 : ip fs (weight psd ac) T x = readSfTd (init x T psd fs ac false) 0
      * (init x T psd fs ac false).norm := by
    rw [init_sfTd, hroll0]; field_simp
  have im : ip fs (weight psd ac) (roll T m) x = readSfTd (init x T psd fs ac false) m
      * (init x T psd fs ac false).norm := by
    rw [init_sfTd]; field_simp
  have it : ip fs (weight psd ac) T (roll T m) = tfTd (init x T psd fs ac false) m := by
    rw [init_tfTd, ip_comm]
  rw [traceChi2_roll, ← init_norm x T psd fs ac, i0, im, it]
  simp only [statA1, statA2, if_neg hm]
  constructor
  · field_simp
    ring
  · field_simp
    ring

theorem stat_chi (hN : traceChi2 fs (weight psd ac) T ≠ 0) (m : ZMod n) :
    statChi (init x T psd fs ac false) m = traceChi2 fs (weight psd ac)
      (resid2 x T (statA1 (init x T psd fs ac false) m) 0 (statA2 (init x T psd fs ac false) m) m) := by
  have hroll0 : roll T 0 = T := by funext j; simp [roll]
  rw [resid_expand2 x T psd fs ac hN, hroll0, ← init_tfTd x T psd fs ac]
  unfold statChi
  simp only
  ring

/-! ### Baseline -/

/-- The constant trace. -/
def one : ZMod n → ℝ := fun _ => 1

theorem fftR_one (k : ZMod n) : fftR (one : ZMod n → ℝ) k = if k = 0 then (n : ℂ) else 0 := by
  unfold one; rw [fftR_const]; simp

omit [NeZero n] in
theorem roll_one (m : ZMod n) : roll (one : ZMod n → ℝ) m = one := rfl

/-- The filter used by the baseline fit is the one with the zero bin restored. -/
theorem base_phi (p0 : ℝ) (hp : psd 0 = (p0 : WithTop ℝ)) (k : ZMod n) :
    (if (init x T psd fs ac false).psd 0 = ⊤ then fun k => if k = 0 then
      (init x T psd fs ac false).s 0 / (p0 : ℂ) else (init x T psd fs ac false).phi k
      else (init x T psd fs ac false).phi) k =
    starRingEnd ℂ (fftR T k / (fs : ℂ)) * (weight psd false k : ℂ) := by
  have hpsd0 : (init x T psd fs ac false).psd 0 = if ac then ⊤ else psd 0 := by
    simp [init]
  cases ac with
  | false =>
    rw [hpsd0, hp]
    simp only [Bool.false_eq_true, if_false, WithTop.coe_ne_top]
    rw [init_phi]
  | true =>
    rw [hpsd0]
    simp only [if_true]
    split_ifs with hk
    · subst hk
      rw [init_s, fftR_zero_bin]
      simp only [weight, Bool.false_eq_true, false_and, if_false, hp, recip]
      rw [map_div₀, Complex.conj_ofReal, Complex.conj_ofReal]
      push_cast
      ring
    · rw [init_phi]
      simp [weight, hk]

theorem base_norm (p0 : ℝ) (hp : psd 0 = (p0 : WithTop ℝ)) :
    (baseQ (init x T psd fs ac false) p0).norm = traceChi2 fs (weight psd false) T := by
  have hpsd0 : (init x T psd fs ac false).psd 0 = if ac then ⊤ else psd 0 := by
    simp [init]
  cases ac with
  | false =>
    simp only [baseQ]
    rw [hpsd0, hp]
    simp only [Bool.false_eq_true, if_false, WithTop.coe_ne_top]
    exact init_norm x T psd fs false
  | true =>
    have h := base_phi x T psd fs true p0 hp
    rw [hpsd0] at h
    simp only [baseQ]
    rw [hpsd0]
    simp only [if_true] at h ⊢
    rw [Complex.re_sum, Finset.sum_mul, ← ip_self, ip]
    refine Finset.sum_congr rfl fun k _ => ?_
    rw [h, init_s, init_df, mul_right_comm, Complex.re_mul_ofReal]

theorem base_b1 (p0 : ℝ) (hp : psd 0 = (p0 : WithTop ℝ)) (m : ZMod n) :
    (baseQ (init x T psd fs ac false) p0).b1 m = ip fs (weight psd false) (roll T m) x := by
  simp only [baseQ]
  rw [funext (base_phi x T psd fs ac p0 hp)]
  have h := ifft_times_n (fun k => starRingEnd ℂ (fftR T k / (fs : ℂ)) * (weight psd false k : ℂ)
      * (init x T psd fs ac false).v k) m
  rw [h, Complex.re_sum, Finset.sum_mul, ip, init_df]
  refine Finset.sum_congr rfl fun k _ => ?_
  rw [init_v, fftR_roll, mul_div_assoc (e _), map_mul, conj_e, neg_neg, mul_comm k m]
  generalize fftR T k / (fs : ℂ) = t
  generalize fftR x k / (fs : ℂ) = y
  have : e (m * k) * (starRingEnd ℂ t * (weight psd false k : ℂ) * y) =
      (e (m * k) * starRingEnd ℂ t * y) * ((weight psd false k : ℝ) : ℂ) := by ring
  rw [this, Complex.re_mul_ofReal]

theorem ip_one (wt y : ZMod n → ℝ) : ip fs wt y one =
    (∑ j, y j) / fs * (n / fs) * wt 0 * (fs / n) := by
  unfold ip
  rw [Finset.sum_eq_single 0]
  · rw [fftR_one, if_pos rfl, fftR_zero_bin, map_div₀, Complex.conj_ofReal, Complex.conj_ofReal]
    congr 2
    rw [← Complex.ofReal_natCast, ← Complex.ofReal_div, ← Complex.ofReal_div, ← Complex.ofReal_mul,
      Complex.ofReal_re]
  · intro k _ hk
    rw [fftR_one, if_neg hk]; simp
  · simp

theorem base_b2 (p0 : ℝ) (hp : psd 0 = (p0 : WithTop ℝ)) :
    (baseQ (init x T psd fs ac false) p0).b2 = ip fs (weight psd false) T one := by
  rw [ip_one]
  simp only [baseQ]
  rw [base_phi x T psd fs ac p0 hp, init_df, fftR_zero_bin, map_div₀, Complex.conj_ofReal,
    Complex.conj_ofReal]
  congr 1
  rw [← Complex.ofReal_div, ← Complex.ofReal_mul, ← Complex.ofReal_mul, Complex.ofReal_re]
  rw [one_div_div]; ring

theorem base_c1 (p0 : ℝ) (hp : psd 0 = (p0 : WithTop ℝ)) :
    (baseQ (init x T psd fs ac false) p0).c1 = ip fs (weight psd false) one x := by
  rw [ip_comm, ip_one]
  simp only [baseQ]
  rw [init_df, init_v, fftR_zero_bin]
  congr 1
  rw [← Complex.ofReal_div, ← Complex.ofReal_mul, ← Complex.ofReal_div, Complex.ofReal_re]
  simp only [weight, Bool.false_eq_true, false_and, if_false, hp, recip]
  rw [one_div_div]; ring

theorem base_c2 (p0 : ℝ) (hp : psd 0 = (p0 : WithTop ℝ)) :
    (baseQ (init x T psd fs ac false) p0).c2 = traceChi2 fs (weight psd false) one := by
  rw [← ip_self, ip_one]
  simp only [baseQ, init_df]
  simp only [weight, Bool.false_eq_true, false_and, if_false, hp, recip, one]
  rw [sq_abs, one_div_div, Finset.sum_const, Finset.card_univ, ZMod.card]
  simp only [nsmul_eq_mul, mul_one]
  ring

theorem base_chi0 (p0 : ℝ) (hp : psd 0 = (p0 : WithTop ℝ)) :
    (baseQ (init x T psd fs ac false) p0).chi0 = traceChi2 fs (weight psd false) x := by
  have hpsd0 : (init x T psd fs ac false).psd 0 = if ac then ⊤ else psd 0 := by
    simp [init]
  simp only [baseQ, init_df]
  rw [hpsd0]
  simp only [init_w, init_v]
  cases ac with
  | false =>
    rw [hp]
    simp only [Bool.false_eq_true, if_false, WithTop.coe_ne_top, add_zero]
    unfold traceChi2
    rw [Finset.sum_mul]
  | true =>
    simp only [if_true]
    unfold traceChi2
    rw [← Finset.add_sum_erase _ _ (Finset.mem_univ (0 : ZMod n)),
      ← Finset.add_sum_erase _ (fun k => ‖fftR x k / (fs : ℂ)‖ ^ 2 * weight psd false k * (fs / n))
        (Finset.mem_univ (0 : ZMod n))]
    have h0 : weight psd true 0 = 0 := by simp [weight]
    have h1 : weight psd false (0 : ZMod n) = 1 / p0 := by simp [weight, hp, recip]
    rw [h0, h1, add_mul, Finset.sum_mul]
    have : ∀ k ∈ Finset.univ.erase (0 : ZMod n), ‖fftR x k / (fs : ℂ)‖ ^ 2 * weight psd true k * (fs / n)
        = ‖fftR x k / (fs : ℂ)‖ ^ 2 * weight psd false k * (fs / n) := by
      intro k hk
      have hk' := Finset.ne_of_mem_erase hk
      simp [weight, hk']
    rw [Finset.sum_congr rfl this]
    ring

end

theorem base_chi1_resid (x T : ZMod n → ℝ) (psd : ZMod n → WithTop ℝ) (fs : ℝ) (ac : Bool)
    (p0 : ℝ) (hp : psd 0 = (p0 : WithTop ℝ)) (m : ZMod n) :
    baseChi1 (baseQ (init x T psd fs ac false) p0) m =
      traceChi2 fs (weight psd false) (residB x T (baseAmps (baseQ (init x T psd fs ac false) p0) m) m
        (baselines (baseQ (init x T psd fs ac false) p0) m)) := by
  have hr : ∀ a b, residB x T a m b = fun j => x j - a * roll T m j - b * one j := by
    intro a b; funext j; simp [residB, one]
  have hb2 : ip fs (weight psd false) (roll T m) one = ip fs (weight psd false) T one := by
    rw [← ip_roll T one fs _ m, roll_one]
  rw [hr, traceChi2_expand, traceChi2_roll, hb2]
  unfold baseChi1
  rw [base_norm x T psd fs ac p0 hp, base_b1 x T psd fs ac p0 hp, base_b2 x T psd fs ac p0 hp,
    base_c1 x T psd fs ac p0 hp, base_c2 x T psd fs ac p0 hp, base_chi0 x T psd fs ac p0 hp]
  ring

/-- With finite positive noise in every bin the chi-square of a trace vanishes only for the null trace. -/
theorem traceChi2_pos (fs : ℝ) (hfs : 0 < fs) (psd : ZMod n → WithTop ℝ) (hpsd : ∀ k, 0 < psd k)
    (hfin : ∀ k, psd k ≠ ⊤) (r : ZMod n → ℝ) (hr : r ≠ 0) : 0 < traceChi2 fs (weight psd false) r := by
  have hn : (0 : ℝ) < n := by exact_mod_cast Nat.pos_of_ne_zero (NeZero.ne n)
  have hw : ∀ k, 0 < weight psd false k := by
    intro k
    have h1 := hpsd k
    have h2 := hfin k
    simp only [weight, Bool.false_eq_true, false_and, if_false]
    cases hk : psd k with
    | top => exact absurd hk h2
    | coe q =>
      rw [hk] at h1
      simpa [recip] using h1
  obtain ⟨k, hk⟩ : ∃ k, fftR r k ≠ 0 := by
    by_contra hall
    push Not at hall
    have hp := parseval r
    simp only [hall, norm_zero, ne_eq, OfNat.ofNat_ne_zero, not_false_eq_true, zero_pow,
      Finset.sum_const_zero] at hp
    have h0 : ∑ j, r j ^ 2 = 0 := by
      rcases mul_eq_zero.1 hp.symm with h | h
      · exact absurd h hn.ne'
      · exact h
    apply hr
    funext j
    have := (Finset.sum_eq_zero_iff_of_nonneg fun j _ => sq_nonneg (r j)).1 h0 j (Finset.mem_univ j)
    simpa using this
  refine Finset.sum_pos' (fun k _ => ?_) ⟨k, Finset.mem_univ k, ?_⟩
  · have := hw k; positivity
  · have h1 := hw k
    have h2 : 0 < ‖fftR r k / (fs : ℂ)‖ := norm_pos_iff.2 (div_ne_zero hk (by exact_mod_cast hfs.ne'))
    positivity

/-- `ofamp_baseline` returns if a constant and the template on a constant are visible. -/
theorem baseline_ok (x T : ZMod n → ℝ) (psd : ZMod n → WithTop ℝ) (fs : ℝ) (ac : Bool) (p0 : ℝ)
    (hp : psd 0 = (p0 : WithTop ℝ)) (hone : 0 < traceChi2 fs (weight psd false) (one : ZMod n → ℝ))
    (hsub : ∀ b : ℝ, 0 < traceChi2 fs (weight psd false) fun j => T j - b * one j)
    (nc : Option ℤ) (o : Bool) (dir wc : ℤ) (hdir : dir = 0 ∨ dir = 1 ∨ dir = -1)
    (hwc : 0 ≤ (n : ℤ) / 2 + wc ∧ (n : ℤ) / 2 + wc < n) (hk : ∀ k, nc = some k → 0 < k) :
    ∃ a t c, baseline (init x T psd fs ac false) nc o dir wc false = .ok (a, t, c) := by
  have hpsd0 : (init x T psd fs ac false).psd0 = psd 0 := rfl
  have hD : 0 < traceChi2 fs (weight psd false) T * traceChi2 fs (weight psd false) one
      - ip fs (weight psd false) T one ^ 2 := by
    have h1 := hsub (ip fs (weight psd false) T one / traceChi2 fs (weight psd false) one)
    rw [traceChi2_expand1, ip_comm _ _ one T] at h1
    have h2 := mul_pos h1 hone
    have h3 : (traceChi2 fs (weight psd false) T - 2 * (ip fs (weight psd false) T one /
        traceChi2 fs (weight psd false) one) * ip fs (weight psd false) T one +
        (ip fs (weight psd false) T one / traceChi2 fs (weight psd false) one) ^ 2 *
        traceChi2 fs (weight psd false) one) * traceChi2 fs (weight psd false) one =
        traceChi2 fs (weight psd false) T * traceChi2 fs (weight psd false) one
          - ip fs (weight psd false) T one ^ 2 := by
      have := hone.ne'
      generalize traceChi2 fs (weight psd false) one = u at *
      generalize ip fs (weight psd false) T one = v at *
      field_simp
      ring
    rwa [h3] at h2
  have hN : 0 < traceChi2 fs (weight psd false) T := by
    have := hsub 0
    simpa using this
  unfold baseline
  rw [hpsd0, hp]
  simp only
  rw [base_norm x T psd fs ac p0 hp, base_b2 x T psd fs ac p0 hp, base_c2 x T psd fs ac p0 hp,
    if_neg (by push Not; exact ⟨hD.ne', hone.ne', hN.ne'⟩)]
  set q := baseQ (init x T psd fs ac false) p0
  cases hi : argminOn (asIdx (baseChi1 q)) (arange 0 n) with
  | none =>
    have h0 : (0 : ℤ) ∈ arange 0 n := (mem_arange _ _ _).2 ⟨le_refl _, by
      exact_mod_cast Nat.pos_of_ne_zero (NeZero.ne n)⟩
    rw [(argminOn_none _ _).1 hi] at h0
    simp at h0
  | some i0 =>
    simp only
    set amps := roll (baseAmps2 q (baselines q (i0 : ZMod n))) ((n / 2 : ℕ) : ZMod n)
    set chi := roll (baseChi2 q (baselines q (i0 : ZMod n))) ((n / 2 : ℕ) : ZMod n)
    have hs : ∃ r, search amps chi nc o dir wc = .ok r := by
      rcases hdir with rfl | rfl | rfl <;>
        simp only [search, directionMask] <;> exact argmin_total _ _ _ _ _ _ hwc hk
    obtain ⟨r, hr⟩ := hs
    simp only [pick, hr]
    cases r <;> simp

end Verif.OF
