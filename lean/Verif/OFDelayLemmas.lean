import Verif.OFDelaySpec
import Verif.OFRateLemmas

/-! Auxiliary lemmas of property C156. -/

namespace Verif.OF
open Verif Verif.Dft MeasureTheory ProbabilityTheory

variable {n : ℕ} [NeZero n]

omit [NeZero n] in
theorem others_finite (nc : Option ℤ) (o : Bool) (wc m : ℤ) : (others n nc o wc m).Finite :=
  (delays_finite nc o wc).subset fun _ h => h.1

/-- What the search returns: amplitude zero, or the amplitude at the delay it reports. -/
theorem withdelay_where {x T : ZMod n → ℝ} {psd : ZMod n → WithTop ℝ} {fs : ℝ} {ac : Bool} {nc : Option ℤ} {o : Bool}
    {dir wc : ℤ} {a t c : ℝ} (h : (withdelay (init x T psd fs ac false) nc o dir wc false).1 = .ok (a, t, c)) :
    a = 0 ∨ ∃ d ∈ Delays n nc o wc, a = readSfTd (init x T psd fs ac false) (d : ZMod n) ∧ t = d / fs := by
  simp only [withdelay, pick] at h
  split at h
  · simp at h
  · simp only [Except.ok.injEq, Prod.mk.injEq] at h
    exact .inl h.1.symm
  · rename_i i hs
    simp only [Bool.false_eq_true, if_false, Except.ok.injEq, Prod.mk.injEq] at h
    obtain ⟨rfl, rfl, rfl⟩ := h
    refine .inr ⟨i - (n : ℤ) / 2, ?_, by rw [init_amps, sub_half_cast], by push_cast; rfl⟩
    change Admissible n nc o none wc (i - (n : ℤ) / 2 + (n : ℤ) / 2)
    rw [sub_add_cancel]
    exact (search_spec _ _ _ _ _ _ _ hs).2.1.1

/-- The difference between the pulse and the same pulse elsewhere. -/
noncomputable def moved (T : ZMod n → ℝ) (a : ℝ) (m d : ℤ) (s : ℝ) : ZMod n → ℝ :=
  fun j => a * roll T (m : ZMod n) j - s * a * roll T (d : ZMod n) j

theorem ip_moved (fs : ℝ) (wt T : ZMod n → ℝ) (a : ℝ) (m d : ℤ) (s : ℝ) (y : ZMod n → ℝ) :
    ip fs wt (moved T a m d s) y = a * ip fs wt (roll T m) y - s * a * ip fs wt (roll T d) y := by
  unfold moved
  rw [ip_comm, ip_sub_right, ip_smul_right, ip_smul_right, ip_comm _ _ y, ip_comm _ _ y]

theorem gap_eq {psd : ZMod n → WithTop ℝ} {fs : ℝ} {ac : Bool} {T : ZMod n → ℝ} {a : ℝ} {m d : ℤ} {s : ℝ} :
    gap fs psd ac T a m d s = a ^ 2 * (traceChi2 fs (weight psd ac) T + s ^ 2 * traceChi2 fs (weight psd ac) T -
      2 * s * ip fs (weight psd ac) (roll T m) (roll T d)) := by
  change traceChi2 fs (weight psd ac) (moved T a m d s) = _
  rw [← ip_self, ip_moved, ip_comm _ _ _ (moved T a m d s), ip_moved, ip_comm _ _ _ (moved T a m d s), ip_moved,
    ip_self, traceChi2_roll, ip_self, traceChi2_roll, ip_comm _ _ (roll T (d : ZMod n))]
  ring

theorem gap_smul {psd : ZMod n → WithTop ℝ} {fs : ℝ} {ac : Bool} {T : ZMod n → ℝ} {a : ℝ} {m d : ℤ} {s : ℝ} :
    gap fs psd ac T a m d s = a ^ 2 * gap fs psd ac T 1 m d s := by
  rw [gap_eq, gap_eq]
  ring

/-- How the amplitudes at two delays compare. -/
theorem moved_ip {psd : ZMod n → WithTop ℝ} {fs : ℝ} {ac : Bool} {T : ZMod n → ℝ} {a : ℝ} {m d : ℤ} {s : ℝ}
    (hN : 0 < traceChi2 fs (weight psd ac) T) (hs : s ^ 2 = 1) (y : ZMod n → ℝ) :
    gap fs psd ac T a m d s / 2 + ip fs (weight psd ac) (moved T a m d s) y =
      traceChi2 fs (weight psd ac) T * (a * (readSfTd (init (pulse T a m y) T psd fs ac false) (m : ZMod n) -
        s * readSfTd (init (pulse T a m y) T psd fs ac false) (d : ZMod n))) := by
  rw [gap_eq, init_sfTd, init_sfTd, init_norm, hs]
  unfold pulse
  rw [ip_moved, ip_add_right, ip_smul_right, ip_self, traceChi2_roll, ip_add_right, ip_smul_right,
    ip_comm _ _ (roll T (d : ZMod n)) (roll T (m : ZMod n))]
  field_simp
  ring

section Sets
variable {Ω : Type*} {noise : Ω → ZMod n → ℝ} {psd : ZMod n → WithTop ℝ} {fs : ℝ} {ac : Bool} {T : ZMod n → ℝ}
  {nc : Option ℤ} {o : Bool} {dir wc : ℤ} {A t c : Ω → ℝ}

/-- A wrong delay needs noise which looks like the difference of the two pulses. -/
theorem wrong_set (hfs : 0 < fs) (hN : 0 < traceChi2 fs (weight psd ac) T) {a : ℝ} {m d : ℤ}
    (hfit : ∀ ω, (withdelay (init (pulse T a m (noise ω)) T psd fs ac false) nc o dir wc false).1 =
      .ok (A ω, t ω, c ω)) (hm : m ∈ Delays n nc o wc) (h1 : dir = 1 → 0 < a) (h2 : dir = -1 → a < 0) :
    {ω | A ω ≠ 0 ∧ t ω = d / fs} ⊆
      {ω | gap fs psd ac T a m d 1 / 2 ≤ -ip fs (weight psd ac) (moved T a m d 1) (noise ω)} ∪
      {ω | dir = 0 ∧ gap fs psd ac T a m d (-1) / 2 ≤ -ip fs (weight psd ac) (moved T a m d (-1)) (noise ω)} := by
  rintro ω ⟨hA, ht⟩
  obtain ⟨d', hd', e, ht'⟩ := (withdelay_where (hfit ω)).resolve_left hA
  have : d' = d := by
    rw [ht, div_left_inj' hfs.ne'] at ht'
    exact_mod_cast ht'.symm
  subst this
  have hdom := withdelay_dominates hN (hfit ω) hm
  have hp := moved_ip (a := a) (m := m) (d := d') hN (one_pow 2) (noise ω)
  have hq := moved_ip (a := a) (m := m) (d := d') (s := -1) hN (by norm_num) (noise ω)
  obtain ⟨hdir, s1, s2⟩ := direction_sign_partial _ _ _ _ _ _ _ _ _ _ _ _ _ (hfit ω)
  rw [← e] at hp hq
  generalize readSfTd (init (pulse T a m (noise ω)) T psd fs ac false) (m : ZMod n) = M at *
  simp only [Set.mem_union, Set.mem_ofPred_eq]
  have key : a * (M - 1 * A ω) ≤ 0 ∨ dir = 0 ∧ a * (M - -1 * A ω) ≤ 0 := by
    rcases hdir with hd | hd | hd
    · left
      have ha := h2 hd
      have hA' : A ω < 0 := (s2 hd).resolve_right fun h => hA h.1
      refine mul_nonpos_of_nonpos_of_nonneg ha.le ?_
      rcases le_or_gt M 0 with hM | hM
      · have := hdom (fun h => by omega) fun _ => hM
        nlinarith
      · linarith
    · have := hdom (by omega) (by omega)
      rcases le_or_gt (a * (M - 1 * A ω)) 0 with h | h
      · exact .inl h
      · refine .inr ⟨hd, ?_⟩
        have h3 : (a * (M - 1 * A ω)) * (a * (M - -1 * A ω)) ≤ 0 := by nlinarith [sq_nonneg a]
        exact nonpos_of_mul_nonpos_right h3 h
    · left
      have ha := h1 hd
      have hA' : 0 < A ω := (s1 hd).resolve_right fun h => hA h.1
      refine mul_nonpos_of_nonneg_of_nonpos ha.le ?_
      rcases le_or_gt 0 M with hM | hM
      · have := hdom (fun _ => hM) fun h => by omega
        nlinarith
      · linarith
  rcases key with k | ⟨k0, k⟩
  · left
    have := mul_nonpos_of_nonneg_of_nonpos hN.le k
    linarith
  · right
    have := mul_nonpos_of_nonneg_of_nonpos hN.le k
    exact ⟨k0, by linarith⟩

/-- Amplitude zero needs noise which hides the pulse. -/
theorem hidden_set (hN : 0 < traceChi2 fs (weight psd ac) T) {a : ℝ} {m : ℤ}
    (hfit : ∀ ω, (withdelay (init (pulse T a m (noise ω)) T psd fs ac false) nc o dir wc false).1 =
      .ok (A ω, t ω, c ω)) (hm : m ∈ Delays n nc o wc) (h1 : dir = 1 → 0 < a) (h2 : dir = -1 → a < 0) :
    {ω | A ω = 0} ⊆ {ω | a ^ 2 * traceChi2 fs (weight psd ac) T ≤
      -ip fs (weight psd ac) (fun j => a * roll T (m : ZMod n) j) (noise ω)} := by
  intro ω hA
  rw [Set.mem_ofPred_eq] at hA
  have hdom := withdelay_dominates hN (hfit ω) hm
  have hM := sfTd_pulse (psd := psd) (ac := ac) hN a m (noise ω)
  generalize readSfTd (init (pulse T a m (noise ω)) T psd fs ac false) (m : ZMod n) = M at *
  rw [Set.mem_ofPred_eq, ip_comm, ip_smul_right, ip_comm]
  have key : a * M ≤ 0 := by
    by_contra hc
    have hM0 : M ≠ 0 := fun h => by rw [h, mul_zero] at hc; exact hc le_rfl
    have hsq := hdom (fun h => by
      by_contra hm
      exact hc (mul_nonpos_of_nonneg_of_nonpos (h1 h).le (not_le.1 hm).le)) (fun h => by
      by_contra hm
      exact hc (mul_nonpos_of_nonpos_of_nonneg (h2 h).le (not_le.1 hm).le))
    rw [hA, zero_pow two_ne_zero] at hsq
    exact hM0 (pow_eq_zero_iff two_ne_zero |>.1 (le_antisymm hsq (sq_nonneg M)))
  have e : traceChi2 fs (weight psd ac) T * (a * M) =
      a ^ 2 * traceChi2 fs (weight psd ac) T + a * ip fs (weight psd ac) (roll T m) (noise ω) := by
    rw [hM]
    field_simp
  have := mul_nonpos_of_nonneg_of_nonpos hN.le key
  linarith

/-- The right delay is reported unless one of these happens. -/
theorem not_right_set {m : ℤ} {y : Ω → ZMod n → ℝ}
    (hfit : ∀ ω, (withdelay (init (y ω) T psd fs ac false) nc o dir wc false).1 = .ok (A ω, t ω, c ω)) :
    {ω | t ω ≠ m / fs} ⊆ {ω | A ω = 0} ∪ ⋃ d ∈ (others_finite (n := n) nc o wc m).toFinset,
      {ω | A ω ≠ 0 ∧ t ω = d / fs} := by
  intro ω ht
  by_cases hA : A ω = 0
  · exact .inl hA
  · right
    obtain ⟨d, hd, -, e⟩ := (withdelay_where (hfit ω)).resolve_left hA
    simp only [Set.mem_iUnion, Set.mem_ofPred_eq]
    exact ⟨d, (others_finite nc o wc m).mem_toFinset.2 ⟨hd, fun h => ht (h ▸ e)⟩, hA, e⟩

end Sets

section Tails
variable {Ω : Type*} [MeasurableSpace Ω] {μ : Measure Ω} {noise : Ω → ZMod n → ℝ} {R : ZMod n → ℝ}
  {psd : ZMod n → WithTop ℝ} {fs : ℝ} {ac : Bool}

theorem ip_lin (hs : ∀ k, psd (-k) = psd k) (p : ZMod n → ℝ) : ∃ g : ZMod n → ℝ, ∀ y,
    ip fs (weight psd ac) p y = ∑ j, g j * y j :=
  ⟨_, fun y => ip_gOpt fs _ p y (weight_symm hs ac)⟩

/-- Chebyshev's inequality. -/
theorem ip_tail [IsFiniteMeasure μ] (h : Stationary μ noise R) (hR : HasPsd R fs psd) (hpsd : ∀ k, 0 < psd k)
    (hs : ∀ k, psd (-k) = psd k) (hfs : 0 < fs) (p : ZMod n → ℝ) {s : ℝ} (h0 : 0 < s) :
    μ.real {ω | s ≤ -ip fs (weight psd ac) p (noise ω)} ≤ traceChi2 fs (weight psd ac) p / s ^ 2 := by
  have hint : Integrable (fun ω => ip fs (weight psd ac) p (noise ω) ^ 2) μ := by
    obtain ⟨g, hg⟩ := ip_lin (fs := fs) (ac := ac) hs p
    simp only [hg, pow_two]
    exact h.int_lin2 g g
  have := mul_meas_ge_le_integral_of_nonneg (μ := μ) (f := fun ω => ip fs (weight psd ac) p (noise ω) ^ 2)
    (Filter.Eventually.of_forall fun _ => sq_nonneg _) hint (s ^ 2)
  rw [h.ip_sq hR hpsd hs hfs] at this
  rw [le_div_iff₀ (by positivity), mul_comm]
  refine le_trans (mul_le_mul_of_nonneg_left (measureReal_mono ?_ (measure_ne_top _ _)) (by positivity)) this
  intro ω hω
  rw [Set.mem_ofPred_eq] at hω ⊢
  nlinarith

/-- Generated noise. -/
theorem ip_normal_tail {psd : ZMod n → ℝ} (hpsd : ∀ k, 0 < psd k) (hs : ∀ k, psd (-k) = psd k) (hfs : 0 < fs)
    (p : ZMod n → ℝ) {s : ℝ} (h0 : 0 ≤ s) :
    (normalDraws n).real {ω | s ≤ -ip fs (weight (fun k => (psd k : WithTop ℝ)) ac) p (Noise.genNoise psd fs ω)} ≤
      Real.exp (-s ^ 2 / (2 * traceChi2 fs (weight (fun k => (psd k : WithTop ℝ)) ac) p)) := by
  have hpsd' : ∀ k, (0 : WithTop ℝ) < psd k := fun k => by exact_mod_cast hpsd k
  have hs' : ∀ k, ((psd (-k) : ℝ) : WithTop ℝ) = psd k := fun k => by rw [hs]
  obtain ⟨R, h, hR⟩ := genNoise_stationary psd hs (fun k => (hpsd k).le) hfs.le (normalDraws_stationary (n := n))
  obtain ⟨g, hg⟩ : ∃ g : ZMod n → ℝ, ∀ ω, ip fs (weight (fun k => (psd k : WithTop ℝ)) ac) p (Noise.genNoise psd fs ω) =
      ∑ j, g j * ω j := by
    obtain ⟨f, hf⟩ := ip_lin (fs := fs) (psd := fun k => (psd k : WithTop ℝ)) (ac := ac) hs' p
    refine ⟨fun j => ∑ i, f i * impulse psd fs (i - j), fun ω => ?_⟩
    rw [hf, genNoise_conv psd fs hs]
    simp only [Finset.mul_sum, Finset.sum_mul]
    rw [Finset.sum_comm]
    exact Finset.sum_congr rfl fun i _ => Finset.sum_congr rfl fun j _ => by ring
  have hv := h.ip_sq hR hpsd' hs' hfs ac p
  have hsum : ∑ j, g j ^ 2 = traceChi2 fs (weight (fun k => (psd k : WithTop ℝ)) ac) p := by
    rw [← hv]
    simp only [hg, pow_two]
    rw [normalDraws_stationary.lin2 g g]
    refine Finset.sum_congr rfl fun i _ => ?_
    rw [Finset.sum_eq_single i]
    · simp
    · intro j _ hj
      rw [if_neg (sub_ne_zero.2 hj.symm), mul_zero]
    · simp
  have := normal_tail (fun j => -g j) h0
  simp only [neg_sq, hsum, neg_mul, Finset.sum_neg_distrib] at this
  simp only [hg]
  exact this

end Tails

end Verif.OF
