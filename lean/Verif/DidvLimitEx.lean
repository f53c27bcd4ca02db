import Verif.DidvLimitProps
import Verif.DidvPlotLemmas
import Mathlib.Probability.ProbabilityMassFunction.Integrals
import Mathlib.Probability.Distributions.Uniform

/-! The hypotheses of property C145 can be met: a resistor driven with a square wave, with one sample of each trace, at random,
disturbed by half a unit up or down. -/

namespace Verif.Device
open Verif Verif.Dft Verif.Didv MeasureTheory ProbabilityTheory

/-- A sign and a position, all equally likely. -/
noncomputable def tosses : Measure (Bool × ZMod 9) := (PMF.uniformOfFintype (Bool × ZMod 9)).toMeasure

instance : IsProbabilityMeasure tosses := by unfold tosses; infer_instance

/-- The disturbance. -/
noncomputable def kick (a : Bool × ZMod 9) (j : ZMod 9) : ℝ := if j = a.2 then (if a.1 then 1 / 2 else -1 / 2) else 0

theorem tosses_mean (f : Bool × ZMod 9 → ℝ) : ∫ a, f a ∂tosses = (∑ p, (f (true, p) + f (false, p))) / 18 := by
  unfold tosses
  rw [PMF.integral_eq_sum, Fintype.sum_prod_type, Fintype.sum_bool, ← Finset.sum_add_distrib, Finset.sum_div]
  refine Finset.sum_congr rfl fun p _ => ?_
  simp only [PMF.uniformOfFintype_apply, Fintype.card_prod, Fintype.card_bool, ZMod.card, smul_eq_mul]
  norm_num
  ring

theorem kick_stationary : OF.Stationary tosses kick fun d => if d = 0 then 1 / 36 else 0 := by
  refine ⟨fun j => ?_, fun j => ?_, fun i j => ?_⟩
  · refine MemLp.of_bound (Measurable.of_discrete).aestronglyMeasurable (1 / 2) (Filter.Eventually.of_forall fun a => ?_)
    unfold kick
    split_ifs <;> norm_num
  · rw [tosses_mean]
    unfold kick
    rw [Finset.sum_eq_zero, zero_div]
    intro p _
    by_cases h : j = p
    · simp [h]
      norm_num
    · simp [h]
  · rw [tosses_mean]
    unfold kick
    by_cases h : i = j
    · subst h
      rw [if_pos (sub_self i), Finset.sum_eq_single i]
      · norm_num
      · intro p _ hp
        simp [hp.symm]
      · simp
    · rw [if_neg (sub_ne_zero.2 h), Finset.sum_eq_zero, zero_div]
      intro p _
      by_cases h1 : i = p
      · subst h1
        simp [Ne.symm h]
      · simp [h1]

theorem kick_fft (a : Bool × ZMod 9) (k : ZMod 9) : ‖fftR (kick a) k‖ = 1 / 2 := by
  have : fftR (kick a) k = e (-(a.2 * k)) * ((if a.1 then 1 / 2 else -1 / 2 : ℝ) : ℂ) := by
    rw [fftR_apply, Finset.sum_eq_single a.2]
    · simp [kick]
    · intro j _ hj
      simp [kick, hj]
    · simp
  rw [this, norm_mul, norm_e, one_mul, Complex.norm_real]
  split_ifs <;> norm_num

/-- One measurement after the other. -/
noncomputable def series : Measure (ℕ → Bool × ZMod 9) := Measure.infinitePi fun _ => tosses

instance : IsProbabilityMeasure series := by unfold series; infer_instance

theorem series_run : OF.Run series (fun i ω => kick (ω i)) fun d => if d = 0 then 1 / 36 else 0 := by
  have hm : ∀ i, MeasurePreserving (fun ω : ℕ → Bool × ZMod 9 => ω i) series tosses :=
    fun i => measurePreserving_eval_infinitePi _ i
  have hk : Measurable kick := Measurable.of_discrete
  refine ⟨⟨fun j => ?_, fun j => ?_, fun i j => ?_⟩, ?_, fun i => ?_⟩
  · exact (kick_stationary.sq_int j).comp_measurePreserving (hm 0)
  · rw [← kick_stationary.mean j, ← (hm 0).map_eq,
      integral_map (hm 0).measurable.aemeasurable (Measurable.of_discrete).aestronglyMeasurable]
  · rw [← kick_stationary.cov i j, ← (hm 0).map_eq,
      integral_map (hm 0).measurable.aemeasurable (Measurable.of_discrete).aestronglyMeasurable]
  · have hi := iIndepFun_infinitePi (P := fun _ : ℕ => tosses) (X := fun _ ω => kick ω) fun _ => hk
    exact fun i j hij => hi.indepFun hij
  · refine ⟨(hk.comp (hm i).measurable).aemeasurable, (hk.comp (hm 0).measurable).aemeasurable, ?_⟩
    change series.map (kick ∘ fun ω => ω i) = series.map (kick ∘ fun ω => ω 0)
    rw [← Measure.map_map hk (hm i).measurable, ← Measure.map_map hk (hm 0).measurable, (hm i).map_eq, (hm 0).map_eq]

/-- Nine samples, three periods. -/
noncomputable def benchObj : Obj := ⟨[], 9, 1, 1 / 3, 1, 1, 1, 1, 1, 1 / 2, false, 0, none, none, none, none⟩

/-- Everything assumed in the theorems of C145 holds for the resistor. -/
theorem bench : ∃ (tr : ZMod 9 → ℝ) (W : ZMod 9 → ℂ), squarewaveresponse 1 1 (1 / 3) (1 / 2) oddArgs = .ok tr ∧
    Campaign series benchObj tr W (fun i ω j => tr j + kick (ω i) j) (fun i ω => kick (ω i)) (fun d => if d = 0 then 1 / 36 else 0) ∧
    drive benchObj (3 : ZMod 9) ≠ 0 := by
  obtain ⟨tr, ht⟩ := oddArgs_response (1 / 2) 9
  have hf : ∀ k : ZMod 9, fftR tr k = sqWave 1 1 1 (1 / 3) (1 / 2) k * (1 / 2) := by
    intro k
    obtain ⟨y, h1, h2⟩ := squarewave_fft ht k (by omega)
    rw [ohm_admittance] at h1
    cases h1
    exact h2
  have hlow : ∀ k : ZMod 9, sqWave 1 1 1 (1 / 3) (1 / 2) k ≠ 0 → 3 / 2 ≤ ‖sqWave 1 1 1 (1 / 3) (1 / 2) k‖ := by
    intro k
    unfold sqWave
    simp only [if_true]
    split_ifs with h
    · intro _
      set f := fftfreq (1 / 1) k with hfd
      have hf1 : |f| ≤ 1 / 2 := by
        rw [hfd]
        unfold fftfreq
        have : ∀ k : ZMod 9, |freqIdx k| ≤ 4 := by decide
        have h2 : |((freqIdx k : ℤ) : ℝ)| ≤ 4 := by exact_mod_cast this k
        rw [abs_div, abs_mul]
        norm_num
        linarith
      have hf0 : f ≠ 0 := by
        intro h0
        rw [h0, zero_div, abs_zero] at h
        unfold nearOne at h
        norm_num at h
      have hpi := Real.pi_le_four
      have hpp := Real.pi_pos
      have hfp := abs_pos.2 hf0
      simp only [norm_mul, norm_div, Complex.norm_I, Complex.norm_real, Complex.norm_natCast, Real.norm_eq_abs, abs_of_pos hpp,
        Complex.ofReal_one, norm_one, mul_one]
      rw [abs_of_pos (show (0 : ℝ) < 3 by norm_num)]
      have h5 : Real.pi * (|f| / (1 / 3)) ≤ 6 := by nlinarith
      have h6 : 0 < Real.pi * (|f| / (1 / 3)) := by positivity
      rw [div_mul_eq_mul_div, le_div_iff₀ h6]
      push_cast
      linarith
    · exact fun h => absurd rfl h
  have hdr : ∀ k : ZMod 9, drive benchObj k ≠ 0 → drive benchObj k = sqWave 1 1 1 (1 / 3) (1 / 2) k := by
    intro k hk
    unfold drive at hk ⊢
    split_ifs at hk ⊢ with h
    · exact absurd rfl hk
    · norm_num [benchObj]
  refine ⟨tr, fun _ => 1 / 2, ht, ⟨?_, by norm_num, fun k hk => by rw [hdr k hk, hf], fun i ω j => ?_, series_run,
    Filter.Eventually.of_forall fun ω i k => ?_⟩, ?_⟩
  · change nBins 9 1 (1 / 3) = 9
    have := nbins_eq (p := 3) (sg := 1 / 3) (n := 9) (by norm_num) (by norm_num)
    norm_num at this
    simpa using this
  · simp [benchObj]
  · have h1 : fftR (fun j => tr j + kick (ω i) j) k = fftR tr k + fftR (kick (ω i)) k := fftR_add _ _ _
    rw [h1]
    have h2 := kick_fft (ω i) k
    constructor
    · by_cases h0 : sqWave 1 1 1 (1 / 3) (1 / 2) k = 0
      · rw [hf, h0, zero_mul, zero_add]
        intro h3
        rw [h3, norm_zero] at h2
        norm_num at h2
      · have h3 := hlow k h0
        intro h4
        rw [add_eq_zero_iff_eq_neg] at h4
        rw [← norm_neg, ← h4, hf, norm_mul] at h2
        norm_num at h2
        linarith
    · intro hk
      have h3 := hlow k (by rw [← hdr k hk]; exact hk)
      rw [hdr k hk]
      refine (norm_add_le _ _).trans ?_
      rw [h2, hf, norm_mul]
      norm_num
      linarith
  · unfold drive
    rw [if_neg (by decide)]
    have hh : fftfreq (1 / (1 / 1)) (3 : ZMod 9) / (1 / 3) = 1 := by
      unfold fftfreq
      rw [show freqIdx (3 : ZMod 9) = 3 by decide]
      norm_num
    have hn : nearOne |fftfreq (1 / (1 / 1)) (3 : ZMod 9) / (1 / 3)| := by
      rw [hh, abs_one]
      unfold nearOne
      norm_num
    change sqWave (1 / 1) 1 1 (1 / 3) (1 / 2) (3 : ZMod 9) ≠ 0
    unfold sqWave
    simp only
    rw [if_pos trivial, if_pos hn, hh]
    have hpi : (Real.pi : ℂ) ≠ 0 := Complex.ofReal_ne_zero.2 Real.pi_ne_zero
    simp [hpi]

theorem bench_psd : OF.HasPsd (fun d : ZMod 9 => if d = 0 then (1 / 36 : ℝ) else 0) benchObj.fs fun _ => ((1 / 36 : ℝ) : WithTop ℝ) := by
  intro k p hp
  rw [← WithTop.coe_inj.1 hp, fftR_apply, Finset.sum_eq_single 0]
  · simp [benchObj]
  · intro j _ hj
    simp [hj]
  · simp

/-- So the average tends to the admittance of the resistor, almost surely. -/
example : ∃ (tr : ZMod 9 → ℝ) (W : ZMod 9 → ℂ), ∀ᵐ ω ∂series, ∃ q : ℕ → Proc,
    (∀ m, 0 < m → (processtraces (first benchObj (fun i j => tr j + kick (ω i) j) m)).2.proc = some (q m)) ∧
    Filter.Tendsto (fun m => (q m).didvmean 3) Filter.atTop (nhds (W 3)) := by
  obtain ⟨tr, W, -, hc, hd⟩ := bench
  refine ⟨tr, W, ?_⟩
  filter_upwards [average_consistent hc bench_psd] with ω hω
  obtain ⟨q, h1, -, h3⟩ := hω
  exact ⟨q, fun m hm => (h1 m hm).2.1, (h3 3 hd).1⟩

/-- And every fit that gets as low as the resistor is eventually within a thousandth of its admittance. -/
example : ∃ (tr : ZMod 9 → ℝ) (W : ZMod 9 → ℂ), ∀ᵐ ω ∂series, ∀ᶠ m in Filter.atTop,
    ∀ (x : Ext) (poles : ℤ) (p : Proc) (r : Result) (dt : ℝ) (V : ℕ → ℂ),
      let o := (processtraces (first benchObj (fun i j => tr j + kick (ω i) j) m)).2
      Honest x.ls → o.proc = some p → (dofit x o poles none).1 = .ok () →
      fitresult (dofit x o poles none).2 poles = .found r → r.params.getLast? = some dt →
      Values o p none (fun f => complexadmittance f (sspArgs r.ssp)) dt V →
      2 * r.cost ≤ distance o p none p.didvmean (fun k => W k) ^ 2 → ‖V 3 - W 3‖ < 1 / 1000 := by
  obtain ⟨tr, W, -, hc, hd⟩ := bench
  refine ⟨tr, W, ?_⟩
  have h := fit_consistent hc bench_psd (by norm_num [benchObj]) (fun _ _ => by norm_num) (U := fun k => W k)
    (fun k => by simp) (ε := 1 / 1000) (by norm_num)
  filter_upwards [h] with ω hω
  filter_upwards [hω] with m hm x poles p r dt V o h1 h2 h3 h4 h5 h6 h7
  exact hm x poles none p r dt V h1 h2 h3 h4 h5 h6 h7 3 hd (by simp)

end Verif.Device
