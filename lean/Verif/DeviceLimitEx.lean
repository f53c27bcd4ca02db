import Verif.DeviceLimitProps
import Verif.DidvPlotLemmas
import Mathlib.Probability.ProbabilityMassFunction.Integrals
import Mathlib.Probability.Distributions.Uniform

/-! The hypotheses of property C146 can be met: any response with a little noise, one sample of each trace, at random,
being disturbed up or down, makes a campaign; and a device in transition driven with a square wave has a response. -/

namespace Verif.Device
open Verif Verif.Dft Verif.Didv MeasureTheory ProbabilityTheory

section
variable (n : ℕ) [NeZero n]

/-- A sign and a position, all equally likely. -/
noncomputable def throws : Measure (Bool × ZMod n) := (PMF.uniformOfFintype (Bool × ZMod n)).toMeasure

instance : IsProbabilityMeasure (throws n) := by unfold throws; infer_instance

/-- The disturbance by `s`. -/
noncomputable def jolt (s : ℝ) (a : Bool × ZMod n) (j : ZMod n) : ℝ := if j = a.2 then (if a.1 then s else -s) else 0

theorem throws_mean (f : Bool × ZMod n → ℝ) : ∫ a, f a ∂throws n = (∑ p, (f (true, p) + f (false, p))) / (2 * n) := by
  unfold throws
  rw [PMF.integral_eq_sum, Fintype.sum_prod_type, Fintype.sum_bool, ← Finset.sum_add_distrib, Finset.sum_div]
  refine Finset.sum_congr rfl fun p _ => ?_
  simp only [PMF.uniformOfFintype_apply, Fintype.card_prod, Fintype.card_bool, ZMod.card, smul_eq_mul]
  rw [ENNReal.toReal_inv]
  push_cast
  simp
  ring

theorem jolt_stationary (s : ℝ) : OF.Stationary (throws n) (jolt n s) fun d => if d = 0 then s ^ 2 / n else 0 := by
  have hn : (n : ℝ) ≠ 0 := Nat.cast_ne_zero.2 (NeZero.ne n)
  refine ⟨fun j => ?_, fun j => ?_, fun i j => ?_⟩
  · refine MemLp.of_bound (Measurable.of_discrete).aestronglyMeasurable |s| (Filter.Eventually.of_forall fun a => ?_)
    unfold jolt
    split_ifs <;> simp
  · rw [throws_mean]
    unfold jolt
    rw [Finset.sum_eq_zero, zero_div]
    intro p _
    by_cases h : j = p
    · simp [h]
    · simp [h]
  · rw [throws_mean]
    unfold jolt
    by_cases h : i = j
    · subst h
      rw [if_pos (sub_self i), Finset.sum_eq_single i]
      · simp
        field_simp
        ring
      · intro p _ hp
        simp [hp.symm]
      · simp
    · rw [if_neg (sub_ne_zero.2 h), Finset.sum_eq_zero, zero_div]
      intro p _
      by_cases h1 : i = p
      · subst h1
        simp [Ne.symm h]
      · simp [h1]

theorem jolt_fft (s : ℝ) (a : Bool × ZMod n) (k : ZMod n) : ‖fftR (jolt n s a) k‖ = |s| := by
  have : fftR (jolt n s a) k = e (-(a.2 * k)) * ((if a.1 then s else -s : ℝ) : ℂ) := by
    rw [fftR_apply, Finset.sum_eq_single a.2]
    · simp [jolt]
    · intro j _ hj
      simp [jolt, hj]
    · simp
  rw [this, norm_mul, norm_e, one_mul, Complex.norm_real]
  split_ifs <;> simp

/-- One measurement after the other. -/
noncomputable def rounds : Measure (ℕ → Bool × ZMod n) := Measure.infinitePi fun _ => throws n

instance : IsProbabilityMeasure (rounds n) := by unfold rounds; infer_instance

theorem rounds_run (s : ℝ) : OF.Run (rounds n) (fun i ω => jolt n s (ω i)) fun d => if d = 0 then s ^ 2 / n else 0 := by
  have hm : ∀ i, MeasurePreserving (fun ω : ℕ → Bool × ZMod n => ω i) (rounds n) (throws n) :=
    fun i => measurePreserving_eval_infinitePi _ i
  have hk : Measurable (jolt n s) := Measurable.of_discrete
  refine ⟨⟨fun j => ?_, fun j => ?_, fun i j => ?_⟩, ?_, fun i => ?_⟩
  · exact ((jolt_stationary n s).sq_int j).comp_measurePreserving (hm 0)
  · rw [← (jolt_stationary n s).mean j, ← (hm 0).map_eq,
      integral_map (hm 0).measurable.aemeasurable (Measurable.of_discrete).aestronglyMeasurable]
  · rw [← (jolt_stationary n s).cov i j, ← (hm 0).map_eq,
      integral_map (hm 0).measurable.aemeasurable (Measurable.of_discrete).aestronglyMeasurable]
  · have hi := iIndepFun_infinitePi (P := fun _ : ℕ => throws n) (X := fun _ ω => jolt n s ω) fun _ => hk
    exact fun i j hij => hi.indepFun hij
  · refine ⟨(hk.comp (hm i).measurable).aemeasurable, (hk.comp (hm 0).measurable).aemeasurable, ?_⟩
    change (rounds n).map (jolt n s ∘ fun ω => ω i) = (rounds n).map (jolt n s ∘ fun ω => ω 0)
    rw [← Measure.map_map hk (hm i).measurable, ← Measure.map_map hk (hm 0).measurable, (hm i).map_eq, (hm 0).map_eq]

theorem rounds_psd {fs : ℝ} (hfs : 0 < fs) (s : ℝ) :
    OF.HasPsd (fun d : ZMod n => if d = 0 then s ^ 2 / n else 0) fs fun _ => ((s ^ 2 / n / fs : ℝ) : WithTop ℝ) := by
  intro k p hp
  rw [← WithTop.coe_inj.1 hp, fftR_apply, Finset.sum_eq_single 0]
  · have := hfs.ne'
    have hc : (fs : ℂ) ≠ 0 := Complex.ofReal_ne_zero.2 this
    simp
    field_simp
  · intro j _ hj
    simp [hj]
  · simp

variable {n}

/-- Any response which is not too large makes a campaign, with noise of some size. -/
theorem campaign_exists {o : Obj} (hb : nBins o.nraw o.fs o.sgfreq = n) (h2 : 2 ≤ n) (hg : o.gain = 1) {tr : ZMod n → ℝ}
    {W : ZMod n → ℂ} (hW : ∀ k, drive o k ≠ 0 → fftR tr k = drive o k * W k) (hs : ∀ k, ‖W k‖ ≤ 10 ^ 15) :
    ∃ s : ℝ, 0 < s ∧ Campaign (rounds n) o tr W (fun i ω j => tr j + jolt n s (ω i) j) (fun i ω => jolt n s (ω i))
      (fun d => if d = 0 then s ^ 2 / n else 0) := by
  obtain ⟨s, hs0, h1⟩ : ∃ s : ℝ, 0 < s ∧ ∀ k : ZMod n, (fftR tr k ≠ 0 → s < ‖fftR tr k‖) ∧ (drive o k ≠ 0 → s ≤ ‖drive o k‖) := by
    let v : ZMod n → ℝ := fun k =>
      min (if fftR tr k ≠ 0 then ‖fftR tr k‖ else 1) (if drive o k ≠ 0 then ‖drive o k‖ else 1)
    have hv : ∀ k, 0 < v k := by
      intro k
      refine lt_min ?_ ?_ <;> split_ifs with h
      · exact norm_pos_iff.2 h
      · exact one_pos
      · exact norm_pos_iff.2 h
      · exact one_pos
    obtain ⟨k0, -, hk0⟩ := Finset.exists_min_image Finset.univ v ⟨0, Finset.mem_univ _⟩
    refine ⟨v k0 / 2, half_pos (hv k0), fun k => ⟨fun hk => ?_, fun hk => ?_⟩⟩
    · have := (hk0 k (Finset.mem_univ _)).trans (min_le_left _ _)
      rw [if_pos hk] at this
      linarith [hv k0]
    · have := (hk0 k (Finset.mem_univ _)).trans (min_le_right _ _)
      rw [if_pos hk] at this
      linarith [hv k0]
  refine ⟨s, hs0, hb, h2, hW, fun i ω j => by simp [hg], rounds_run n s, Filter.Eventually.of_forall fun ω i k => ?_⟩
  have e1 : fftR (fun j => tr j + jolt n s (ω i) j) k = fftR tr k + fftR (jolt n s (ω i)) k := fftR_add _ _ _
  have e2 := jolt_fft n s (ω i) k
  rw [abs_of_pos hs0] at e2
  rw [e1]
  constructor
  · intro h0
    by_cases hk : fftR tr k = 0
    · rw [hk, zero_add] at h0
      rw [h0, norm_zero] at e2
      exact hs0.ne e2
    · rw [add_eq_zero_iff_eq_neg] at h0
      have := (h1 k).1 hk
      rw [h0, norm_neg, e2] at this
      exact lt_irrefl _ this
  · intro hk
    refine (norm_add_le _ _).trans ?_
    rw [e2, hW k hk, norm_mul]
    have a1 := (h1 k).2 hk
    have a2 := mul_le_mul_of_nonneg_left (hs k) (norm_nonneg (drive o k))
    have a3 := norm_nonneg (drive o k)
    linarith

end

/-- One period on 49 samples. -/
noncomputable def tesObj : Obj := ⟨[], 49, 49, 1, 1, 1, 1, 1, 0, 1 / 2, false, 0, none, none, none, none⟩

theorem tesObj_bins : nBins tesObj.nraw tesObj.fs tesObj.sgfreq = 49 := by
  have := nbins_eq (n := 49) (p := 49) (sg := 1) (by norm_num) one_pos
  norm_num at this
  exact this

theorem tesObj_driven : Driven tesObj 49 1 12 := by
  refine ⟨one_ne_zero, fun j hj => ⟨((2 * j + 1 : ℕ) : ZMod 49), ?_, ?_⟩⟩
  · have hv : ((2 * j + 1 : ℕ) : ZMod 49).val = 2 * j + 1 := ZMod.val_cast_of_lt (by omega)
    have hf : fftfreq (1 / (1 / 49)) ((2 * j + 1 : ℕ) : ZMod 49) = 2 * j + 1 := by
      unfold fftfreq freqIdx
      rw [hv, if_pos (by omega)]
      push_cast
      norm_num
    unfold drive
    rw [hv, if_neg (by omega)]
    have hn : nearOne |(2 * (j : ℝ) + 1) / 1| := by
      have e : |(2 * (j : ℝ) + 1) / 1| = 1 + (j : ℕ) * 2 := by
        rw [div_one, abs_of_nonneg (by positivity)]
        ring
      rw [e]
      have := (nearOne_ratio (P := 1) one_pos (by norm_num) (2 * j + 1)).2 ⟨j, by ring⟩
      rw [show (1 : ℝ) + (j : ℕ) * 2 = ((2 * j + 1 : ℕ) : ℝ) / (1 : ℕ) by push_cast; ring]
      exact this
    simp only [sqWave, tesObj, if_true, hf, hn]
    have hp := Real.pi_pos.ne'
    have : (2 * (j : ℝ) + 1) ≠ 0 := by positivity
    have h3 : ((2 * (j : ℝ) + 1 : ℝ) : ℂ) ≠ 0 := Complex.ofReal_ne_zero.2 this
    simp [hp]
    exact_mod_cast this
  · have hv : ((2 * j + 1 : ℕ) : ZMod 49).val = 2 * j + 1 := ZMod.val_cast_of_lt (by omega)
    unfold fftfreq freqIdx
    rw [hv, if_pos (by omega)]
    simp only [tesObj]
    push_cast
    norm_num

/-- A device with a finite response of at most one makes a campaign. -/
theorem tes_bench {a : Args} (ha : a.rsh = some 1) (hy : ∀ f, ∃ y, complexadmittance f a = .ok y ∧ ‖y‖ ≤ 1)
    {tr : ZMod 49 → ℝ} (ht : squarewaveresponse (1 / 49) 1 1 (1 / 2) a = .ok tr) :
    ∃ (W : ZMod 49 → ℂ) (s : ℝ), 0 < s ∧ Campaign (rounds 49) tesObj tr W (fun i ω j => tr j + jolt 49 s (ω i) j)
      (fun i ω => jolt 49 s (ω i)) (fun d => if d = 0 then s ^ 2 / (49 : ℕ) else 0) ∧
      Delayed tesObj.fs W (fun f => complexadmittance f a) 0 := by
  choose Y hY hb using hy
  have hfs : (1 / (1 / 49) : ℝ) = 49 := by norm_num
  have hd : ∀ k : ZMod 49, drive tesObj k ≠ 0 → fftR tr k = drive tesObj k * Y (fftfreq 49 k) := by
    intro k hk
    obtain ⟨y, h1, h2⟩ := squarewave_fft ht k (by omega)
    rw [hfs, hY] at h1
    cases h1
    rw [h2, ha]
    unfold drive at hk ⊢
    split_ifs at hk ⊢ with h
    · exact absurd rfl hk
    · rfl
  obtain ⟨s, hs, hc⟩ := campaign_exists tesObj_bins (by norm_num) rfl hd fun k => (hb _).trans (by norm_num)
  exact ⟨_, s, hs, hc, fun k => by
    show (complexadmittance (fftfreq 49 k) a).map _ = _
    rw [hY]
    simp [Except.map]⟩

theorem recip_small {z : ℂ} (h : 1 ≤ z.re) : ∃ y, recipZ z = .ok y ∧ ‖y‖ ≤ 1 := by
  have h0 : z ≠ 0 := fun h0 => by rw [h0] at h; norm_num at h
  refine ⟨1 / z, if_neg h0, ?_⟩
  rw [norm_div, norm_one, div_le_one (norm_pos_iff.2 h0)]
  exact h.trans ((le_abs_self _).trans (Complex.abs_re_le_norm z))

theorem jw_re (f : ℝ) : (jw f).re = 0 := by simp [jw]

theorem three_small (f : ℝ) : ∃ y, threePoleY f 2 2 (1 / 2) 2 0 1 = .ok y ∧ ‖y‖ ≤ 1 := by
  have h1 : (1 / (1 + jw f * (1 : ℝ))).re ≤ 1 := by
    have hre : (1 + jw f * (1 : ℝ)).re = 1 := by simp [jw_re]
    have hz : (1 : ℝ) ≤ ‖1 + jw f * (1 : ℝ)‖ := by
      have := Complex.abs_re_le_norm (1 + jw f * (1 : ℝ))
      rw [hre, abs_one] at this
      exact this
    refine (Complex.re_le_norm _).trans ?_
    rw [norm_div, norm_one]
    exact (div_le_one (by linarith)).2 hz
  have h2 : 0 < (1 + jw f * (2 : ℝ) - ((1 / 2 : ℝ) : ℂ) / (1 + jw f * (1 : ℝ))).re := by
    have e : ((1 / 2 : ℝ) : ℂ) / (1 + jw f * (1 : ℝ)) = ((1 / 2 : ℝ) : ℂ) * (1 / (1 + jw f * (1 : ℝ))) := by ring
    rw [e, Complex.sub_re, Complex.re_ofReal_mul]
    have : (1 + jw f * (2 : ℝ)).re = 1 := by simp [jw_re]
    rw [this]
    linarith
  have hne : 1 + jw f * (2 : ℝ) - ((1 / 2 : ℝ) : ℂ) / (1 + jw f * (1 : ℝ)) ≠ 0 := fun h => by
    rw [h] at h2
    exact lt_irrefl _ h2
  unfold threePoleY threePoleZ
  rw [if_neg hne]
  refine recip_small ?_
  have e : ((2 : ℝ) : ℂ) / (1 + jw f * (2 : ℝ) - ((1 / 2 : ℝ) : ℂ) / (1 + jw f * (1 : ℝ))) =
      ((2 : ℝ) : ℂ) * (1 + jw f * (2 : ℝ) - ((1 / 2 : ℝ) : ℂ) / (1 + jw f * (1 : ℝ)))⁻¹ := by ring
  rw [e, Complex.add_re, Complex.re_ofReal_mul, Complex.re_ofReal_mul, Complex.inv_re]
  have := div_nonneg h2.le (Complex.normSq_nonneg (1 + jw f * (2 : ℝ) - ((1 / 2 : ℝ) : ℂ) / (1 + jw f * (1 : ℝ))))
  have e2 : (1 + jw f * (0 : ℝ)).re = 1 := by simp
  rw [e2]
  linarith

theorem two_small (f : ℝ) : ∃ y, twoPoleY f 2 2 2 0 = .ok y ∧ ‖y‖ ≤ 1 := by
  refine recip_small ?_
  unfold twoPoleZ
  have e : ((2 : ℝ) : ℂ) / (1 + jw f * (2 : ℝ)) = ((2 : ℝ) : ℂ) * (1 + jw f * (2 : ℝ))⁻¹ := by ring
  have hre : (1 + jw f * (2 : ℝ)).re = 1 := by simp [jw_re]
  rw [e, Complex.add_re, Complex.re_ofReal_mul, Complex.re_ofReal_mul, Complex.inv_re, hre]
  have := div_nonneg zero_le_one (Complex.normSq_nonneg (1 + jw f * (2 : ℝ)))
  have e2 : (1 + jw f * (0 : ℝ)).re = 1 := by simp
  rw [e2]
  linarith

theorem one_small (f : ℝ) : ∃ y, onePoleY f 2 1 = .ok y ∧ ‖y‖ ≤ 1 := by
  refine recip_small ?_
  unfold onePoleZ
  rw [Complex.re_ofReal_mul]
  simp [jw_re]

theorem convolve_ok {n : ℕ} [NeZero n] {A B C t1 t2 t3 : ℝ} (h : ∀ f, ∃ y, threePoleY f A B C t1 t2 t3 = .ok y) (dx sgamp rsh sgfreq duty : ℝ) :
    ∃ tr : ZMod n → ℝ, convolve dx A B C t1 t2 t3 sgamp rsh sgfreq duty = .ok tr := by
  unfold convolve
  rw [if_neg]
  · exact ⟨_, rfl⟩
  · rintro ⟨k, hk⟩
    obtain ⟨y, hy⟩ := h (fftfreq (1 / dx) k)
    exact hk y hy

/-- A detector in transition: its fits with two poles find it. -/
example : ∃ (tr : ZMod 49 → ℝ) (W : ZMod 49 → ℂ) (s : ℝ), squarewaveresponse (1 / 49) 1 1 (1 / 2) (transition 1 0 1 0 (1 / 2) 0 1) = .ok tr ∧ 0 < s ∧
    ∀ᵐ ω ∂rounds 49, ∀ᶠ m in Filter.atTop, ∀ (x : Ext) (p : Proc) (r : Result),
      let o' := (processtraces (first tesObj (fun i j => tr j + jolt 49 s (ω i) j) m)).2
      Sound x.ls → o'.proc = some p → (dofit x o' 2 (some 24)).1 = .ok () → fitresult (dofit x o' 2 (some 24)).2 2 = .found r →
      2 * r.cost ≤ distance o' p (some 24) p.didvmean (fun k => W k) ^ 2 → Found (1 / 1000) 1 0 [1, 0, 1, 0, 1 / 2, 0, 1] r.ssp := by
  have hdev : ¬ ((1 : ℝ) - 1 / 2 = 0 ∨ (1 : ℝ) + 0 + 1 * (1 + 0) = 0) := by norm_num
  have hr : ∀ f, ∃ y, threePoleY f 2 2 0 2 0 0 = .ok y := fun f => by
    rw [threePoleY_two]
    obtain ⟨y, hy, -⟩ := two_small f
    exact ⟨y, hy⟩
  obtain ⟨tr, ht⟩ := convolve_ok (n := 49) hr (1 / 49) 1 1 1 (1 / 2)
  have ht' : squarewaveresponse (n := 49) (1 / 49) 1 1 (1 / 2) (transition 1 0 1 0 (1 / 2) 0 1) = .ok tr := by
    rw [← ht]
    have e : poleExtractor (transition 1 0 1 0 (1 / 2) 0 1) = .ok 2 := rfl
    have hcf : convertFrom [1, 0, 1, 0, 1 / 2, 0, 1, 0] = .ok [2, 2, 2, 0, 0] := by
      refine (if_neg hdev).trans ?_
      norm_num
    unfold squarewaveresponse
    simp only [e]
    simp only [transition, Option.getD_some, hcf]
  have hy : ∀ f, ∃ y, complexadmittance f (transition 1 0 1 0 (1 / 2) 0 1) = .ok y ∧ ‖y‖ ≤ 1 := by
    intro f
    rw [admittance_two hdev]
    convert two_small f using 4
    norm_num
  obtain ⟨W, s, hs, hc, hd⟩ := tes_bench rfl hy ht'
  refine ⟨tr, W, s, ht', hs, ?_⟩
  have hfs : 0 < tesObj.fs := by norm_num [tesObj]
  have := two_pole_consistent hc (rounds_psd 49 hfs s) hfs (fun k _ => by positivity) (beta := 0) (l := 1 / 2) (L := 0) (tau0 := 1) (dt := 0) (f0 := 1)
    ⟨by norm_num [tesObj], by norm_num [tesObj], by norm_num, by norm_num, by norm_num, le_rfl, one_pos⟩ hd
    ⟨one_ne_zero, fun j hj => tesObj_driven.2 j (by omega)⟩ (ε := 1 / 1000) (by norm_num)
  filter_upwards [this] with ω hω
  filter_upwards [hω] with m hm x p r o' h1 h2 h3 h4 h5
  exact hm x (some 24) p r h1 h2 h3 h4 (by norm_num) h5

/-- With a second heat capacity, three poles. -/
example : ∃ (tr : ZMod 49 → ℝ) (W : ZMod 49 → ℂ) (s : ℝ), squarewaveresponse (1 / 49) 1 1 (1 / 2) (twoBodies 1 0 1 0 (1 / 2) 0 1 (1 / 4) 1) = .ok tr ∧ 0 < s ∧
    ∀ᵐ ω ∂rounds 49, ∀ᶠ m in Filter.atTop, ∀ (x : Ext) (p : Proc) (r : Result),
      let o' := (processtraces (first tesObj (fun i j => tr j + jolt 49 s (ω i) j) m)).2
      Sound x.ls → o'.proc = some p → (dofit x o' 3 (some 24)).1 = .ok () → fitresult (dofit x o' 3 (some 24)).2 3 = .found r →
      2 * r.cost ≤ distance o' p (some 24) p.didvmean (fun k => W k) ^ 2 → Found (1 / 1000) 1 0 [1, 0, 1, 0, 1 / 2, 0, 1, 1 / 4, 1] r.ssp := by
  have hdev : ¬ ((1 : ℝ) - 1 / 2 = 0 ∨ (1 : ℝ) + 0 + 1 * (1 + 0) = 0) := by norm_num
  have hr : ∀ f, ∃ y, threePoleY f 2 2 (1 / 2) 2 0 1 = .ok y := fun f => by
    obtain ⟨y, hy, -⟩ := three_small f
    exact ⟨y, hy⟩
  obtain ⟨tr, ht⟩ := convolve_ok (n := 49) hr (1 / 49) 1 1 1 (1 / 2)
  have ht' : squarewaveresponse (n := 49) (1 / 49) 1 1 (1 / 2) (twoBodies 1 0 1 0 (1 / 2) 0 1 (1 / 4) 1) = .ok tr := by
    rw [← ht]
    have e : poleExtractor (twoBodies 1 0 1 0 (1 / 2) 0 1 (1 / 4) 1) = .ok 3 := rfl
    have hcf : convertFrom [1, 0, 1, 0, 1 / 2, 0, 1, 1 / 4, 1, 0] = .ok [2, 2, 1 / 2, 2, 0, 1, 0] := by
      refine (if_neg hdev).trans ?_
      norm_num
    unfold squarewaveresponse
    simp only [e]
    simp only [twoBodies, transition, Option.getD_some, hcf]
  have hy : ∀ f, ∃ y, complexadmittance f (twoBodies 1 0 1 0 (1 / 2) 0 1 (1 / 4) 1) = .ok y ∧ ‖y‖ ≤ 1 := by
    intro f
    rw [admittance_three hdev]
    convert three_small f using 4
    norm_num
  obtain ⟨W, s, hs, hc, hd⟩ := tes_bench rfl hy ht'
  refine ⟨tr, W, s, ht', hs, ?_⟩
  have hfs : 0 < tesObj.fs := by norm_num [tesObj]
  have := three_pole_consistent hc (rounds_psd 49 hfs s) hfs (fun k _ => by positivity) (beta := 0) (l := 1 / 2) (L := 0) (tau0 := 1) (gratio := 1 / 4) (tau3 := 1) (dt := 0) (f0 := 1)
    ⟨by norm_num [tesObj], by norm_num [tesObj], by norm_num, by norm_num, by norm_num, le_rfl, one_pos⟩ (by norm_num) one_pos hd
    ⟨one_ne_zero, fun j hj => tesObj_driven.2 j (by omega)⟩ (ε := 1 / 1000) (by norm_num)
  filter_upwards [this] with ω hω
  filter_upwards [hω] with m hm x p r o' h1 h2 h3 h4 h5
  exact hm x (some 24) p r h1 h2 h3 h4 (by norm_num) h5

/-- Superconducting, one pole: a parasitic resistance of one and an inductance of two, though the object has `rp = 0`. -/
example : ∃ (tr : ZMod 49 → ℝ) (W : ZMod 49 → ℂ) (s : ℝ), squarewaveresponse (1 / 49) 1 1 (1 / 2) { rsh := some 1, rp := some 1, L := some 2 } = .ok tr ∧ 0 < s ∧
    ∀ᵐ ω ∂rounds 49, ∀ᶠ m in Filter.atTop, ∀ (x : Ext) (p : Proc) (r : Result),
      let o' := (processtraces (first tesObj (fun i j => tr j + jolt 49 s (ω i) j) m)).2
      Sound x.ls → o'.proc = some p → (dofit x o' 1 (some 24)).1 = .ok () → fitresult (dofit x o' 1 (some 24)).2 1 = .found r →
      2 * r.cost ≤ distance o' p (some 24) p.didvmean (fun k => W k) ^ 2 → Found (1 / 1000) 1 0 [1, 1, 2] r.ssp := by
  have hdev : ¬ ((1 : ℝ) + 1 = 0) := by norm_num
  have hr : ∀ f, ∃ y, threePoleY f 2 0 0 0 1 0 = .ok y := fun f => by
    rw [threePoleY_one]
    obtain ⟨y, hy, -⟩ := one_small f
    exact ⟨y, hy⟩
  obtain ⟨tr, ht⟩ := convolve_ok (n := 49) hr (1 / 49) 1 1 1 (1 / 2)
  have ht' : squarewaveresponse (n := 49) (1 / 49) 1 1 (1 / 2) { rsh := some 1, rp := some 1, L := some 2 } = .ok tr := by
    rw [← ht]
    have e : poleExtractor { rsh := some 1, rp := some 1, L := some 2 } = .ok 1 := rfl
    have hcf : convertFrom [1, 1, 2, 0] = .ok [2, 1, 0] := by
      refine (if_neg hdev).trans ?_
      norm_num
    unfold squarewaveresponse
    simp only [e]
    simp only [Option.getD_some, hcf]
  have hy : ∀ f, ∃ y, complexadmittance f { rsh := some 1, rp := some 1, L := some 2 } = .ok y ∧ ‖y‖ ≤ 1 := by
    intro f
    rw [admittance_one hdev]
    convert one_small f using 4
    norm_num
  obtain ⟨W, s, hs, hc, hd⟩ := tes_bench rfl hy ht'
  refine ⟨tr, W, s, ht', hs, ?_⟩
  have hfs : 0 < tesObj.fs := by norm_num [tesObj]
  have := one_pole_consistent hc (rounds_psd 49 hfs s) hfs (fun k _ => by positivity) (rp := 1) (L := 2) (dt := 0) (f0 := 1)
    (by norm_num [tesObj]) hd
    ⟨one_ne_zero, fun j hj => tesObj_driven.2 j (by omega)⟩ (ε := 1 / 1000) (by norm_num)
  filter_upwards [this] with ω hω
  filter_upwards [hω] with m hm x p r o' h1 h2 h3 h4 h5
  exact hm x (some 24) p r h1 h2 h3 h4 (by norm_num) h5

end Verif.Device
