import Verif.OFLimitLemmas
import Mathlib.Probability.ProductMeasure
import Mathlib.Probability.Independence.InfinitePi

/-!
Property C142: as the number of noise traces grows, the PSD measured from them and the optimum filter made with it
become the true ones.
-/

namespace Verif.OF
open Verif Verif.Dft MeasureTheory ProbabilityTheory Filter Topology

variable {n : ℕ} [NeZero n]

/-- The PSD of ever more noise traces tends to that of the noise, almost surely, in every bin, folded or not. -/
theorem psd_consistent {Ω : Type*} [MeasurableSpace Ω] {μ : Measure Ω} {noise : ℕ → Ω → ZMod n → ℝ} {R : ZMod n → ℝ}
    {fs : ℝ} {psd : ZMod n → ℝ} (h : Run μ noise R) (hR : HasPsd R fs fun k => (psd k : WithTop ℝ)) (hfs : 0 < fs) :
    ∀ᵐ ω ∂μ, (∀ k, Tendsto (fun m => measured (fun i => noise i ω) fs m k) atTop (𝓝 (psd k))) ∧
      ∀ k : Noise.Half n, Tendsto (fun m => Noise.calcPsdFolded (fun i : Fin m => noise i ω) fs k) atTop
        (𝓝 (Noise.foldpsd psd k)) := by
  have := ae_all_iff.2 fun k => h.bin fs k
  filter_upwards [this] with ω hω
  have h1 : ∀ k, Tendsto (fun m => measured (fun i => noise i ω) fs m k) atTop (𝓝 (psd k)) := by
    intro k
    have e := hω k
    rw [hR k (psd k) rfl, Complex.ofReal_re, mul_div_cancel_left₀ _ hfs.ne'] at e
    exact e
  refine ⟨h1, fun k => ?_⟩
  have e : ∀ m, Noise.calcPsdFolded (fun i : Fin m => noise i ω) fs k =
      Noise.foldpsd (measured (fun i => noise i ω) fs m) k := fun m => (congrFun (Noise.fold_calcPsd _ fs) k).symm
  simp only [e]
  unfold Noise.foldpsd Noise.mulSlice
  split_ifs
  · exact (h1 _).mul_const _
  · exact h1 _

/-- In particular "the PSD calculated from the generated noise traces" tends to the one asked for, whatever the
independent draws of unit variance are. -/
theorem genNoise_consistent {Ω : Type*} [MeasurableSpace Ω] {μ : Measure Ω} [IsFiniteMeasure μ]
    {vals : ℕ → Ω → ZMod n → ℝ} {psd : ZMod n → ℝ} {fs : ℝ} (h : Run μ vals fun d => if d = 0 then 1 else 0)
    (hs : ∀ k, psd (-k) = psd k) (hp : ∀ k, 0 ≤ psd k) (hfs : 0 < fs) :
    (∃ R, Run μ (fun i ω => Noise.genNoise psd fs (vals i ω)) R ∧ HasPsd R fs fun k => (psd k : WithTop ℝ)) ∧
    ∀ᵐ ω ∂μ, ∀ k, Tendsto (fun m => measured (fun i => Noise.genNoise psd fs (vals i ω)) fs m k) atTop
      (𝓝 (psd k)) := by
  have hm : Measurable fun y : ZMod n → ℝ => Noise.genNoise psd fs y := by
    simp only [genNoise_conv psd fs hs]
    fun_prop
  obtain ⟨R, hst, hR⟩ := genNoise_stationary psd hs hp hfs.le h.stationary
  have hrun : Run μ (fun i ω => Noise.genNoise psd fs (vals i ω)) R :=
    ⟨hst, fun i j hij => (h.independent hij).comp hm hm, fun i => (h.alike i).comp hm⟩
  refine ⟨⟨R, hrun, hR⟩, ?_⟩
  filter_upwards [psd_consistent hrun hR hfs] with ω hω using hω.1

section Filter
variable {P : ℕ → ZMod n → ℝ} {psd : ZMod n → ℝ} {ac : Bool} {fs : ℝ} {x T : ZMod n → ℝ}

/-- If the PSD given to the filter tends to `psd`, so do resolution, amplitude and chi-square. -/
theorem filter_limit (hP : ∀ k, Tendsto (fun m => P m k) atTop (𝓝 (psd k))) (hpsd : ∀ k, 0 < psd k) (hfs : 0 < fs)
    (hN : 0 < traceChi2 fs (weight (fun k => (psd k : WithTop ℝ)) ac) T) (x : ZMod n → ℝ) :
    Tendsto (fun m => energyResolution (init x T (fun k => (P m k : WithTop ℝ)) fs ac false)) atTop
      (𝓝 (energyResolution (init x T (fun k => (psd k : WithTop ℝ)) fs ac false))) ∧
    Tendsto (fun m => (chi2Nopulse (init x T (fun k => (P m k : WithTop ℝ)) fs ac false)).1) atTop
      (𝓝 (chi2Nopulse (init x T (fun k => (psd k : WithTop ℝ)) fs ac false)).1) ∧
    ∀ wc, Tendsto (fun m => (nodelay (init x T (fun k => (P m k : WithTop ℝ)) fs ac false) wc).1) atTop
      (𝓝 (nodelay (init x T (fun k => (psd k : WithTop ℝ)) fs ac false) wc).1) := by
  have h0 := norm_limit hP hpsd ac fs x
  refine ⟨?_, ?_, fun wc => ?_⟩
  · simp only [energyResolution, init_norm]
    exact tendsto_const_nhds.div ((Real.continuous_sqrt.tendsto _).comp (norm_limit hP hpsd ac fs T))
      (Real.sqrt_pos.2 hN).ne'
  · simp only [chi2Nopulse, init_chi0]
    exact h0
  · have e : ∀ p : ZMod n → WithTop ℝ, (nodelay (init x T p fs ac false) wc).1 =
        (readSfTd (init x T p fs ac false) (wc : ZMod n), traceChi2 fs (weight p ac) x -
          readSfTd (init x T p fs ac false) (wc : ZMod n) ^ 2 * traceChi2 fs (weight p ac) T) := by
      intro p
      have hC : (nodelay (init x T p fs ac false) wc).1.2 = readChi0 (init x T p fs ac false) -
          (nodelay (init x T p fs ac false) wc).1.1 ^ 2 * (init x T p fs ac false).norm := rfl
      refine Prod.ext (init_nodelay_amp _ _ _ _ _ hfs.ne' wc) ?_
      rw [hC, init_nodelay_amp _ _ _ _ _ hfs.ne', init_chi0, init_norm]
    simp only [e]
    have h1 := sfTd_limit hP hpsd hN x (wc : ZMod n)
    exact h1.prodMk_nhds (h0.sub ((h1.pow 2).mul (norm_limit hP hpsd ac fs T)))

/-- The fit which searches over delays settles on the best delay, if there is one best delay. -/
theorem search_limit (hP : ∀ k, Tendsto (fun m => P m k) atTop (𝓝 (psd k))) (hpsd : ∀ k, 0 < psd k) (hfs : 0 < fs)
    (hN : 0 < traceChi2 fs (weight (fun k => (psd k : WithTop ℝ)) ac) T) {nc : Option ℤ} {o : Bool} {wc : ℤ}
    (hwc : 0 ≤ (n : ℤ) / 2 + wc ∧ (n : ℤ) / 2 + wc < n) (hk : ∀ k, nc = some k → 0 < k) {a c : ℝ} {d : ℤ}
    (hd : d ∈ Delays n nc o wc)
    (h : (withdelay (init x T (fun k => (psd k : WithTop ℝ)) fs ac false) nc o 0 wc false).1 = .ok (a, d / fs, c))
    (hone : ∀ d' ∈ Delays n nc o wc, d' ≠ d →
      ∀ b, c < traceChi2 fs (weight (fun k => (psd k : WithTop ℝ)) ac) (resid x T b (d' : ZMod n))) :
    ∃ am cm : ℕ → ℝ, (∀ᶠ m in atTop,
      (withdelay (init x T (fun k => (P m k : WithTop ℝ)) fs ac false) nc o 0 wc false).1 = .ok (am m, d / fs, cm m)) ∧
      Tendsto am atTop (𝓝 a) ∧ Tendsto cm atTop (𝓝 c) := by
  have hne : (Delays n nc o wc).Nonempty := ⟨d, hd⟩
  obtain ⟨d0, hd0, ha, ht, -⟩ := withdelay_found hN hne h
  have e0 : d0 = d := by
    rw [div_left_inj' hfs.ne'] at ht
    exact_mod_cast ht.symm
  subst e0
  have hc := (withdelay_cases h).1
  have hlt : ∀ d' ∈ Delays n nc o wc, d' ≠ d0 →
      readSfTd (init x T (fun k => (psd k : WithTop ℝ)) fs ac false) (d' : ZMod n) ^ 2 < a ^ 2 := by
    intro d' hd' hne
    have := hone d' hd' hne (readSfTd (init x T (fun k => (psd k : WithTop ℝ)) fs ac false) (d' : ZMod n))
    rw [hc, resid_square x T _ fs ac hN.ne', sub_self, init_norm] at this
    nlinarith
  have hl := fun d' : ℤ => sfTd_limit hP hpsd hN x (d' : ZMod n)
  have hnl := norm_limit hP hpsd ac fs T
  refine ⟨fun m => readSfTd (init x T (fun k => (P m k : WithTop ℝ)) fs ac false) (d0 : ZMod n),
    fun m => traceChi2 fs (weight (fun k => (P m k : WithTop ℝ)) ac) x -
      readSfTd (init x T (fun k => (P m k : WithTop ℝ)) fs ac false) (d0 : ZMod n) ^ 2 *
        traceChi2 fs (weight (fun k => (P m k : WithTop ℝ)) ac) T, ?_, ?_, ?_⟩
  · have hev : ∀ᶠ m in atTop, ∀ d' ∈ (delays_finite (n := n) nc o wc).toFinset, d' ≠ d0 →
        readSfTd (init x T (fun k => (P m k : WithTop ℝ)) fs ac false) (d' : ZMod n) ^ 2 <
          readSfTd (init x T (fun k => (P m k : WithTop ℝ)) fs ac false) (d0 : ZMod n) ^ 2 := by
      refine (Finset.eventually_all _).2 fun d' hd' => ?_
      by_cases hne : d' = d0
      · exact Eventually.of_forall fun _ h => absurd hne h
      · have := hlt d' ((delays_finite nc o wc).mem_toFinset.1 hd') hne
        rw [ha] at this
        filter_upwards [((hl d').pow 2).eventually_lt ((hl d0).pow 2) this] with m hm _ using hm
    filter_upwards [hev, hnl.eventually_const_lt hN] with m hm hNm
    obtain ⟨a', t', c', h'⟩ := search_finishes x T (fun k => (P m k : WithTop ℝ)) fs ac o (dir := 0) (.inr (.inl rfl)) hwc hk
    obtain ⟨d1, hd1, ha1, ht1, hbest⟩ := withdelay_found hNm hne h'
    have e1 : d1 = d0 := by
      by_contra hne
      have := hm d1 ((delays_finite nc o wc).mem_toFinset.2 hd1) hne
      rw [← ha1] at this
      exact absurd (hbest d0 hd0) (not_le.2 this)
    subst e1
    rw [h', (withdelay_cases h').1, ha1, ht1, init_chi0, init_norm]
  · rw [ha]
    exact hl d0
  · rw [hc, ha, init_chi0, init_norm]
    exact (norm_limit hP hpsd ac fs x).sub (((hl d0).pow 2).mul hnl)

end Filter

/-- Together: the filter made with the PSD of ever more noise traces, almost surely. -/
theorem measured_filter_consistent {Ω : Type*} [MeasurableSpace Ω] {μ : Measure Ω} {noise : ℕ → Ω → ZMod n → ℝ}
    {R : ZMod n → ℝ} {fs : ℝ} {psd : ZMod n → ℝ} (h : Run μ noise R) (hR : HasPsd R fs fun k => (psd k : WithTop ℝ))
    (hpsd : ∀ k, 0 < psd k) (hfs : 0 < fs) {ac : Bool} {T : ZMod n → ℝ}
    (hN : 0 < traceChi2 fs (weight (fun k => (psd k : WithTop ℝ)) ac) T) :
    ∀ᵐ ω ∂μ, ∀ x : ZMod n → ℝ,
      Tendsto (fun m => energyResolution
        (init x T (fun k => (measured (fun i => noise i ω) fs m k : WithTop ℝ)) fs ac false)) atTop
        (𝓝 (energyResolution (init x T (fun k => (psd k : WithTop ℝ)) fs ac false))) ∧
      ∀ wc, Tendsto (fun m => (nodelay
        (init x T (fun k => (measured (fun i => noise i ω) fs m k : WithTop ℝ)) fs ac false) wc).1) atTop
        (𝓝 (nodelay (init x T (fun k => (psd k : WithTop ℝ)) fs ac false) wc).1) := by
  filter_upwards [psd_consistent h hR hfs] with ω hω x
  obtain ⟨h1, -, h2⟩ := filter_limit hω.1 hpsd hfs hN x
  exact ⟨h1, h2⟩

/-- Independent draws of `gen_noise`, trace after trace. -/
noncomputable def draws (n : ℕ) [NeZero n] : Measure (ℕ → ZMod n → ℝ) := Measure.infinitePi fun _ => normalDraws n

/-- They are a run as in these theorems. -/
theorem draws_run : Run (draws n) (fun i ω => ω i) fun d : ZMod n => if d = 0 then 1 else 0 := by
  have hm : ∀ i, MeasurePreserving (fun ω : ℕ → ZMod n → ℝ => ω i) (draws n) (normalDraws n) :=
    fun i => measurePreserving_eval_infinitePi _ i
  refine ⟨⟨fun j => ?_, fun j => ?_, fun i j => ?_⟩, ?_, fun i => ?_⟩
  · exact (normalDraws_stationary.sq_int j).comp_measurePreserving (hm 0)
  · rw [← normalDraws_stationary.mean j, ← (hm 0).map_eq,
      integral_map (hm 0).measurable.aemeasurable (measurable_pi_apply j).aestronglyMeasurable]
  · rw [← normalDraws_stationary.cov i j, ← (hm 0).map_eq,
      integral_map (hm 0).measurable.aemeasurable (by fun_prop)]
  · have hi := iIndepFun_infinitePi (P := fun _ : ℕ => normalDraws n) (X := fun _ ω => ω) fun _ => measurable_id
    exact fun i j hij => hi.indepFun hij
  · exact ⟨(hm i).measurable.aemeasurable, (hm 0).measurable.aemeasurable, by rw [(hm i).map_eq, (hm 0).map_eq]⟩

/-- The hypotheses of `psd_consistent` and `measured_filter_consistent` hold for generated noise. -/
example : ∃ R, Run (draws n) (fun i ω => Noise.genNoise (fun _ : ZMod n => (1 : ℝ)) 1 (ω i)) R ∧
    (HasPsd R 1 fun _ => ((1 : ℝ) : WithTop ℝ)) ∧
    0 < traceChi2 1 (weight (fun _ => ((1 : ℝ) : WithTop ℝ)) false) (delta : ZMod n → ℝ) := by
  have : IsProbabilityMeasure (draws n) := by unfold draws; infer_instance
  obtain ⟨R, h1, h2⟩ := (genNoise_consistent (fs := 1) (psd := fun _ => 1) (draws_run (n := n)) (fun _ => rfl) (fun _ => zero_le_one)
    one_pos).1
  refine ⟨R, h1, h2, ?_⟩
  have := delta_norm (n := n) 1
  rw [one_div_one] at this
  exact this.symm ▸ one_pos

/-- Those of `search_limit` hold for a noise-free pulse: the best delay is the true one and no other is as good. -/
example : ∃ a c : ℝ, (0 : ℤ) ∈ Delays n none false 0 ∧
    (withdelay (init delta delta (fun _ : ZMod n => ((1 : ℝ) : WithTop ℝ)) 1 false false) none false 0 0 false).1 =
      .ok (a, (0 : ℤ) / 1, c) ∧ ∀ d' ∈ Delays n none false 0, d' ≠ 0 → ∀ b,
        c < traceChi2 1 (weight (fun _ => ((1 : ℝ) : WithTop ℝ)) false) (resid delta delta b (d' : ZMod n)) := by
  have hn := Nat.pos_of_ne_zero (NeZero.ne n)
  have h0 : (0 : ℤ) ∈ Delays n none false 0 := ⟨by omega, by omega, by simp, by simp⟩
  have hne : ∀ d' ∈ Delays n none false 0, d' ≠ 0 → (d' : ZMod n) ≠ 0 := by
    rintro d' ⟨h1, h2, -⟩ hd e
    rw [ZMod.intCast_zmod_eq_zero_iff_dvd] at e
    obtain ⟨q, rfl⟩ := e
    have : q = 0 := by
      by_contra hq
      rcases lt_or_gt_of_ne hq with h | h
      · have : (n : ℤ) * q ≤ -n := by nlinarith
        omega
      · have : (n : ℤ) ≤ n * q := by nlinarith
        omega
    exact hd (by rw [this, mul_zero])
  have hN : 0 < traceChi2 1 (weight white false) (delta : ZMod n → ℝ) := by
    rw [delta_norm]; norm_num
  obtain ⟨a, t, c, h⟩ := search_finishes delta delta (white : ZMod n → WithTop ℝ) 1 false (nc := none) false (dir := 0)
    (wc := 0) (.inr (.inl rfl)) (by omega) (by simp)
  obtain ⟨d, hd, ha, ht, hbest⟩ := withdelay_found hN ⟨0, h0⟩ h
  have hb := hbest 0 h0
  rw [delta_sfTd _ one_ne_zero] at ha hb
  have ed : d = 0 := by
    by_contra hd0
    rw [ha] at hb
    simp [delta, hne d hd hd0] at hb
    linarith
  subst ed
  refine ⟨a, c, h0, by rw [← ht]; exact h, fun d' hd' hd0 b => ?_⟩
  have hc := (withdelay_cases h).1
  rw [init_chi0, init_norm, delta_norm, ha] at hc
  have e0 : c = 0 := by
    rw [hc]
    simp [delta]
  rw [e0]
  have hpos : 0 < ∑ j, resid delta delta b (d' : ZMod n) j ^ 2 := by
    refine Finset.sum_pos' (fun _ _ => sq_nonneg _) ⟨0, Finset.mem_univ _, ?_⟩
    have : resid delta delta b (d' : ZMod n) 0 = 1 := by
      simp [resid, roll, delta, hne d' hd' hd0]
    rw [this]
    norm_num
  have := traceChi2_white (n := n) 1 (resid delta delta b (d' : ZMod n))
  change 0 < traceChi2 1 (weight white false) _
  rw [this]
  positivity

end Verif.OF
