import Verif.OFDelayLemmas
import Verif.OFRateProps

/-!
Property C156: how often a search reports a wrong delay.
-/

namespace Verif.OF
open Verif Verif.Dft MeasureTheory ProbabilityTheory Filter Topology

variable {n : ℕ} [NeZero n]

section Any
variable {Ω : Type*} [MeasurableSpace Ω] {μ : Measure Ω} {noise : Ω → ZMod n → ℝ} {R : ZMod n → ℝ}
  {psd : ZMod n → WithTop ℝ} {fs : ℝ} {ac : Bool} {T : ZMod n → ℝ} {nc : Option ℤ} {o : Bool} {dir wc : ℤ}
  {A t c : Ω → ℝ}

/-- A pulse is reported at a given wrong delay with a probability of at most four over the chi-square between the pulse
and the same pulse at that delay; without a direction constraint the upside-down pulse at that delay counts as well. -/
theorem wrong_delay [IsFiniteMeasure μ] (h : Stationary μ noise R) (hR : HasPsd R fs psd) (hpsd : ∀ k, 0 < psd k)
    (hs : ∀ k, psd (-k) = psd k) (hfs : 0 < fs) (hN : 0 < traceChi2 fs (weight psd ac) T) {a : ℝ} {m d : ℤ}
    (hm : m ∈ Delays n nc o wc) (h1 : dir = 1 → 0 < a) (h2 : dir = -1 → a < 0)
    (hfit : ∀ ω, (withdelay (init (pulse T a m (noise ω)) T psd fs ac false) nc o dir wc false).1 =
      .ok (A ω, t ω, c ω))
    (hg : 0 < gap fs psd ac T a m d 1) (hg' : dir = 0 → 0 < gap fs psd ac T a m d (-1)) :
    μ.real {ω | A ω ≠ 0 ∧ t ω = d / fs} ≤
      4 / gap fs psd ac T a m d 1 + if dir = 0 then 4 / gap fs psd ac T a m d (-1) else 0 := by
  have tail : ∀ s, 0 < gap fs psd ac T a m d s → μ.real {ω | gap fs psd ac T a m d s / 2 ≤
      -ip fs (weight psd ac) (moved T a m d s) (noise ω)} ≤ 4 / gap fs psd ac T a m d s := fun s h0 => by
    refine (ip_tail h hR hpsd hs hfs _ (half_pos h0)).trans (le_of_eq ?_)
    change gap fs psd ac T a m d s / _ = _
    field_simp
    norm_num
  refine (measureReal_mono (wrong_set hfs hN hfit hm h1 h2) (measure_ne_top _ _)).trans
    ((measureReal_union_le _ _).trans (add_le_add (tail 1 hg) ?_))
  split_ifs with hd
  · simpa only [hd, true_and] using tail (-1) (hg' hd)
  · simp [hd]

/-- All in all: the delay is right except for a probability of at most `resolution²/height²` and, for each other delay
allowed, four (eight without a direction constraint) over the smallest of these chi-squares. -/
theorem right_delay [IsFiniteMeasure μ] (h : Stationary μ noise R) (hR : HasPsd R fs psd) (hpsd : ∀ k, 0 < psd k)
    (hs : ∀ k, psd (-k) = psd k) (hfs : 0 < fs) (hN : 0 < traceChi2 fs (weight psd ac) T) {a : ℝ} {m : ℤ}
    (hm : m ∈ Delays n nc o wc) (ha : a ≠ 0) (h1 : dir = 1 → 0 < a) (h2 : dir = -1 → a < 0)
    (hfit : ∀ ω, (withdelay (init (pulse T a m (noise ω)) T psd fs ac false) nc o dir wc false).1 =
      .ok (A ω, t ω, c ω)) {g : ℝ} (hg : 0 < g)
    (hgap : ∀ d ∈ others n nc o wc m, g ≤ gap fs psd ac T a m d 1 ∧ (dir = 0 → g ≤ gap fs psd ac T a m d (-1)))
    (x : ZMod n → ℝ) :
    μ.real {ω | t ω ≠ m / fs} ≤ energyResolution (init x T psd fs ac false) ^ 2 / a ^ 2 +
      (others n nc o wc m).ncard * ((if dir = 0 then 8 else 4) / g) := by
  refine (measureReal_mono (not_right_set hfit) (measure_ne_top _ _)).trans
    ((measureReal_union_le _ _).trans (add_le_add ?_ ((measureReal_biUnion_finset_le _ _).trans ?_)))
  · refine (measureReal_mono (hidden_set hN hfit hm h1 h2) (measure_ne_top _ _)).trans
      ((ip_tail h hR hpsd hs hfs _ (mul_pos (by positivity) hN)).trans (le_of_eq ?_))
    rw [(resolution_sq hN).2, ← ip_self, ip_smul_right, ip_comm, ip_smul_right, ip_self, traceChi2_roll]
    field_simp
  · rw [Set.ncard_eq_toFinset_card _ (others_finite nc o wc m), ← nsmul_eq_mul]
    refine Finset.sum_le_card_nsmul _ _ _ fun d hd => ?_
    obtain ⟨g1, g2⟩ := hgap d ((others_finite nc o wc m).mem_toFinset.1 hd)
    refine (wrong_delay h hR hpsd hs hfs hN hm h1 h2 hfit (hg.trans_le g1) fun h0 => hg.trans_le (g2 h0)).trans ?_
    have e1 := div_le_div_of_nonneg_left (by norm_num : (0 : ℝ) ≤ 4) hg g1
    split_ifs with h0
    · have e2 := div_le_div_of_nonneg_left (by norm_num : (0 : ℝ) ≤ 4) hg (g2 h0)
      calc _ ≤ 4 / g + 4 / g := add_le_add e1 e2
        _ = _ := by ring
    · rwa [add_zero]

end Any

/-- High pulses: the probability of a wrong delay goes to zero as the pulses grow, if the template differs from itself
(and, without a direction constraint, from its mirror image) at every other delay allowed. -/
theorem right_delay_limit {Ω : Type*} [MeasurableSpace Ω] {μ : Measure Ω} {noise : Ω → ZMod n → ℝ} {R : ZMod n → ℝ}
    {psd : ZMod n → WithTop ℝ} {fs : ℝ} {ac : Bool} {T : ZMod n → ℝ} {nc : Option ℤ} {o : Bool} {dir wc : ℤ}
    [IsFiniteMeasure μ] (h : Stationary μ noise R) (hR : HasPsd R fs psd) (hpsd : ∀ k, 0 < psd k)
    (hs : ∀ k, psd (-k) = psd k) (hfs : 0 < fs) (hN : 0 < traceChi2 fs (weight psd ac) T) {m : ℤ}
    (hm : m ∈ Delays n nc o wc)
    (hgap : ∀ d ∈ others n nc o wc m, 0 < gap fs psd ac T 1 m d 1 ∧ (dir = 0 → 0 < gap fs psd ac T 1 m d (-1)))
    {a : ℕ → ℝ} (ha : Tendsto (fun i => |a i|) atTop atTop) (h1 : dir = 1 → ∀ i, 0 < a i) (h2 : dir = -1 → ∀ i, a i < 0)
    {A t c : ℕ → Ω → ℝ}
    (hfit : ∀ i ω, (withdelay (init (pulse T (a i) m (noise ω)) T psd fs ac false) nc o dir wc false).1 =
      .ok (A i ω, t i ω, c i ω)) :
    Tendsto (fun i => μ.real {ω | t i ω ≠ m / fs}) atTop (𝓝 0) := by
  obtain ⟨g, hg, hle⟩ : ∃ g, 0 < g ∧ ∀ d ∈ others n nc o wc m, g ≤ gap fs psd ac T 1 m d 1 ∧
      (dir = 0 → g ≤ gap fs psd ac T 1 m d (-1)) := by
    set D := (others_finite (n := n) nc o wc m).toFinset with hD
    have hmem : ∀ d, d ∈ others n nc o wc m → d ∈ D := fun d hd => (others_finite nc o wc m).mem_toFinset.2 hd
    rcases D.eq_empty_or_nonempty with he | hne
    · exact ⟨1, one_pos, fun d hd => by have := hmem d hd; rw [he] at this; simp at this⟩
    · refine ⟨D.inf' hne fun d => min (gap fs psd ac T 1 m d 1) (if dir = 0 then gap fs psd ac T 1 m d (-1) else 1), ?_,
        fun d hd => ?_⟩
      · rw [Finset.lt_inf'_iff]
        intro d hd
        obtain ⟨g1, g2⟩ := hgap d ((others_finite nc o wc m).mem_toFinset.1 hd)
        refine lt_min g1 ?_
        split_ifs with h0
        · exact g2 h0
        · exact one_pos
      · have := Finset.inf'_le (fun d => min (gap fs psd ac T 1 m d 1)
          (if dir = 0 then gap fs psd ac T 1 m d (-1) else 1)) (hmem d hd)
        refine ⟨this.trans (min_le_left _ _), fun h0 => this.trans ((min_le_right _ _).trans (le_of_eq (if_pos h0)))⟩
  have hsq : Tendsto (fun i => a i ^ 2) atTop atTop := by
    have := (tendsto_pow_atTop two_ne_zero).comp ha
    simpa only [Function.comp_def, sq_abs] using this
  set C := energyResolution (init 0 T psd fs ac false) ^ 2 +
    (others n nc o wc m).ncard * ((if dir = 0 then 8 else 4) / g) with hC
  have hlim : Tendsto (fun i => C / a i ^ 2) atTop (𝓝 0) := hsq.const_div_atTop C
  refine tendsto_of_tendsto_of_tendsto_of_le_of_le' tendsto_const_nhds hlim
    (Eventually.of_forall fun i => measureReal_nonneg) ?_
  filter_upwards [hsq.eventually_gt_atTop 0] with i hi
  have hai : a i ≠ 0 := fun e => by rw [e] at hi; simp at hi
  refine (right_delay h hR hpsd hs hfs hN hm hai (fun e => h1 e i) (fun e => h2 e i) (hfit i) (mul_pos hi hg)
    (fun d hd => ?_) 0).trans (le_of_eq ?_)
  · obtain ⟨g1, g2⟩ := hle d hd
    rw [gap_smul (a := a i), gap_smul (a := a i)]
    exact ⟨mul_le_mul_of_nonneg_left g1 hi.le, fun h0 => mul_le_mul_of_nonneg_left (g2 h0) hi.le⟩
  · rw [hC]
    field_simp

section Normal
variable {psd : ZMod n → ℝ} {fs : ℝ} {ac : Bool} {T : ZMod n → ℝ} {nc : Option ℤ} {o : Bool} {dir wc : ℤ}
  {A t c : (ZMod n → ℝ) → ℝ}

/-- With noise made by `gen_noise` wrong delays are exponentially rare. -/
theorem wrong_delay_normal (hpsd : ∀ k, 0 < psd k) (hs : ∀ k, psd (-k) = psd k) (hfs : 0 < fs)
    (hN : 0 < traceChi2 fs (weight (fun k => (psd k : WithTop ℝ)) ac) T) {a : ℝ} {m d : ℤ}
    (hm : m ∈ Delays n nc o wc) (h1 : dir = 1 → 0 < a) (h2 : dir = -1 → a < 0)
    (hfit : ∀ ω, (withdelay (init (pulse T a m (Noise.genNoise psd fs ω)) T (fun k => psd k) fs ac false) nc o dir wc
      false).1 = .ok (A ω, t ω, c ω))
    (hg : 0 < gap fs (fun k => psd k) ac T a m d 1) (hg' : dir = 0 → 0 < gap fs (fun k => psd k) ac T a m d (-1)) :
    (normalDraws n).real {ω | A ω ≠ 0 ∧ t ω = d / fs} ≤ Real.exp (-gap fs (fun k => psd k) ac T a m d 1 / 8) +
      if dir = 0 then Real.exp (-gap fs (fun k => psd k) ac T a m d (-1) / 8) else 0 := by
  have tail : ∀ s, 0 < gap fs (fun k => psd k) ac T a m d s → (normalDraws n).real {ω |
      gap fs (fun k => psd k) ac T a m d s / 2 ≤ -ip fs (weight (fun k => (psd k : WithTop ℝ)) ac) (moved T a m d s)
        (Noise.genNoise psd fs ω)} ≤ Real.exp (-gap fs (fun k => psd k) ac T a m d s / 8) := fun s h0 => by
    refine (ip_normal_tail hpsd hs hfs _ (half_pos h0).le).trans (le_of_eq ?_)
    change Real.exp (_ / (2 * gap fs (fun k => psd k) ac T a m d s)) = _
    congr 1
    field_simp
    norm_num
  refine (measureReal_mono (wrong_set hfs hN hfit hm h1 h2) (measure_ne_top _ _)).trans
    ((measureReal_union_le _ _).trans (add_le_add (tail 1 hg) ?_))
  split_ifs with hd
  · simpa only [hd, true_and] using tail (-1) (hg' hd)
  · simp [hd]

/-- All in all, with such noise. -/
theorem right_delay_normal (hpsd : ∀ k, 0 < psd k) (hs : ∀ k, psd (-k) = psd k) (hfs : 0 < fs)
    (hN : 0 < traceChi2 fs (weight (fun k => (psd k : WithTop ℝ)) ac) T) {a : ℝ} {m : ℤ}
    (hm : m ∈ Delays n nc o wc) (ha : a ≠ 0) (h1 : dir = 1 → 0 < a) (h2 : dir = -1 → a < 0)
    (hfit : ∀ ω, (withdelay (init (pulse T a m (Noise.genNoise psd fs ω)) T (fun k => psd k) fs ac false) nc o dir wc
      false).1 = .ok (A ω, t ω, c ω)) {g : ℝ} (hg : 0 < g)
    (hgap : ∀ d ∈ others n nc o wc m, g ≤ gap fs (fun k => psd k) ac T a m d 1 ∧
      (dir = 0 → g ≤ gap fs (fun k => psd k) ac T a m d (-1))) (x : ZMod n → ℝ) :
    (normalDraws n).real {ω | t ω ≠ m / fs} ≤
      Real.exp (-(a / energyResolution (init x T (fun k => psd k) fs ac false)) ^ 2 / 2) +
      (others n nc o wc m).ncard * ((if dir = 0 then 2 else 1) * Real.exp (-g / 8)) := by
  refine (measureReal_mono (not_right_set hfit) (measure_ne_top _ _)).trans
    ((measureReal_union_le _ _).trans (add_le_add ?_ ((measureReal_biUnion_finset_le _ _).trans ?_)))
  · refine (measureReal_mono (hidden_set hN hfit hm h1 h2) (measure_ne_top _ _)).trans
      ((ip_normal_tail hpsd hs hfs _ (mul_pos (by positivity) hN).le).trans (le_of_eq ?_))
    rw [div_pow, (resolution_sq hN).2, ← ip_self _ _ (fun j => _ * _), ip_smul_right, ip_comm, ip_smul_right, ip_self,
      traceChi2_roll]
    congr 1
    field_simp
  · rw [Set.ncard_eq_toFinset_card _ (others_finite nc o wc m), ← nsmul_eq_mul]
    refine Finset.sum_le_card_nsmul _ _ _ fun d hd => ?_
    obtain ⟨g1, g2⟩ := hgap d ((others_finite nc o wc m).mem_toFinset.1 hd)
    refine (wrong_delay_normal hpsd hs hfs hN hm h1 h2 hfit (hg.trans_le g1) fun h0 => hg.trans_le (g2 h0)).trans ?_
    have e1 : Real.exp (-gap fs (fun k => psd k) ac T a m d 1 / 8) ≤ Real.exp (-g / 8) :=
      Real.exp_le_exp.2 (by linarith)
    split_ifs with h0
    · have e2 : Real.exp (-gap fs (fun k => psd k) ac T a m d (-1) / 8) ≤ Real.exp (-g / 8) :=
        Real.exp_le_exp.2 (by linarith [g2 h0])
      linarith
    · linarith

end Normal

/-- The hypotheses hold for pulses of any height of the one-bin template on generated white noise, searched for among all
delays: there are other delays, and the pulse differs from itself there by twice the square of its height. -/
example (hn : 2 ≤ n) (a : ℝ) (ha : 0 < a) (dir : ℤ) (hdir : dir = 0 ∨ dir = 1) :
    ∃ A t c : (ZMod n → ℝ) → ℝ, (∃ R, Stationary (normalDraws n) (fun ω => Noise.genNoise (fun _ : ZMod n => (1 : ℝ)) 1 ω) R ∧
      HasPsd R 1 fun _ => ((1 : ℝ) : WithTop ℝ)) ∧
    0 < traceChi2 1 (weight (fun _ => ((1 : ℝ) : WithTop ℝ)) false) (delta : ZMod n → ℝ) ∧
    (dir = 1 → 0 < a) ∧ 0 < 2 * a ^ 2 ∧ (0 : ℤ) ∈ Delays n none false 0 ∧ (-1 : ℤ) ∈ others n none false 0 0 ∧
    (∀ d ∈ others n none false 0 0, gap 1 (fun _ => ((1 : ℝ) : WithTop ℝ)) false (delta : ZMod n → ℝ) a 0 d 1 = 2 * a ^ 2 ∧
      gap 1 (fun _ => ((1 : ℝ) : WithTop ℝ)) false (delta : ZMod n → ℝ) a 0 d (-1) = 2 * a ^ 2) ∧
    ∀ ω, (withdelay (init (pulse delta a 0 (Noise.genNoise (fun _ => (1 : ℝ)) 1 ω)) delta (fun _ => ((1 : ℝ) : WithTop ℝ)) 1
      false false) none false dir 0 false).1 = .ok (A ω, t ω, c ω) := by
  have h : ∀ ω : ZMod n → ℝ, ∃ u t c, (withdelay (init (pulse delta a 0 (Noise.genNoise (fun _ => (1 : ℝ)) 1 ω)) delta
      (fun _ => ((1 : ℝ) : WithTop ℝ)) 1 false false) none false dir 0 false).1 = .ok (u, t, c) := fun ω =>
    search_finishes _ _ _ _ _ _ (by tauto) (by omega) (by simp)
  choose A t c hAtc using h
  have hgap : ∀ d ∈ others n none false 0 0, ∀ s : ℝ, s ^ 2 = 1 →
      gap 1 (fun _ => ((1 : ℝ) : WithTop ℝ)) false (delta : ZMod n → ℝ) a 0 d s = 2 * a ^ 2 := by
    rintro d ⟨⟨d1, d2, -⟩, hd⟩ s hs
    have hd0 : (d : ZMod n) ≠ 0 := fun e => by
      rw [ZMod.intCast_zmod_eq_zero_iff_dvd] at e
      rcases lt_trichotomy d 0 with h | h | h
      · have := Int.le_of_dvd (by omega) ((dvd_neg).2 e)
        omega
      · exact hd h
      · have := Int.le_of_dvd h e
        omega
    have h0 := delta_norm (n := n) 1
    have hw : (fun _ : ZMod n => ((1 : ℝ) : WithTop ℝ)) = white := rfl
    rw [gap_eq, hw, h0, ip_white, hs]
    have : ∑ j, roll (delta : ZMod n → ℝ) ((0 : ℤ) : ZMod n) j * roll (delta : ZMod n → ℝ) (d : ZMod n) j = 0 := by
      refine Finset.sum_eq_zero fun j _ => ?_
      simp only [roll, delta, Int.cast_zero, sub_zero]
      by_cases hj : j = 0
      · rw [hj, zero_sub, if_neg (neg_ne_zero.2 hd0), mul_zero]
      · rw [if_neg hj, zero_mul]
    rw [this]
    ring
  refine ⟨A, t, c, genNoise_stationary _ (fun _ => rfl) (fun _ => zero_le_one) zero_le_one normalDraws_stationary, ?_,
    fun _ => ha, by positivity, ⟨by omega, by omega, by simp, by simp⟩, ⟨⟨by omega, by omega, by simp, by simp⟩, by omega⟩,
    fun d hd => ⟨hgap d hd 1 (by norm_num), hgap d hd (-1) (by norm_num)⟩, hAtc⟩
  have := delta_norm (n := n) 1
  rw [one_div_one] at this
  exact this.symm ▸ one_pos

end Verif.OF
