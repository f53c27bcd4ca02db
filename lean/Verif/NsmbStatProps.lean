import Verif.NsmbStatLemmas
import Verif.NsmbProps
import Verif.OFStatProps
import Verif.NsmbIntEx

/-!
Property C119: amplitudes of the fits with several templates, on average over the noise.
-/

namespace Verif.Nsmb
open Verif Verif.Dft Verif.Nsmb.Spec MeasureTheory Matrix

variable {n : ℕ} [NeZero n] {nb : ℕ}
variable {Ω : Type*} [MeasurableSpace Ω] {μ : Measure Ω} {noise : Ω → ZMod n → ℝ} {R : ZMod n → ℝ}
  {T : Fin (nb + 1) → ZMod n → ℝ} {psd : ZMod n → ℝ} {fs : ℝ} {F : Filt n nb}

/-- **C119.**  At a given delay `of_nsmb` always returns; whatever the spectrum of the noise, the mean of the
fitted trace is the true one, and for independent templates the mean amplitudes are the true ones. -/
theorem nsmb_mean [IsProbabilityMeasure μ] (hF : setup T psd fs = .ok F) (hpsd : ∀ f, f ≠ 0 → 0 < psd f)
    (hs : ∀ f, psd (-f) = psd f) (hfs : 0 < fs) (hnb : nb ≠ 0) (h : OF.Stationary μ noise R) {k : ℤ}
    (hk : -(n : ℤ) ≤ k) (lf : ℕ) (A : Fin (nb + 1) → ℝ) :
    ∃ r : Ω → Fit n nb,
      (∀ ω, ofNsmb (event T (k : ZMod n) A (noise ω)) F (getiP F.P) fs [k] lf = .ok (r ω)) ∧
      (∀ j, ∑ i, (∫ ω, (r ω).amps i ∂μ) * delayed T (k : ZMod n) i j = ∑ i, A i * delayed T (k : ZMod n) i j) ∧
      (Indep (delayed T (k : ZMod n)) → ∀ i, ∫ ω, (r ω).amps i ∂μ = A i) := by
  choose r hr ha _ using fun ω => ofNsmb_one hnb (event T (k : ZMod n) A (noise ω)) F (getiP F.P) fs hk lf
  refine ⟨r, hr, ?_⟩
  set S := delayed T (k : ZMod n) with hS
  set G : Matrix (Fin (nb + 1)) (Fin (nb + 1)) ℝ :=
    of fun i j => OF.ip fs (OF.weight (dcPsd psd) false) (S i) (S j) with hG0
  have hG : G = of fun i j => ipR (Spec.noise psd fs) (S i) (S j) := by simp only [ipR_eq psd hfs, hG0]
  have hdc : ∀ f, dcPsd psd (-f) = dcPsd psd f := by intro f; simp only [dcPsd, neg_eq_zero, hs]
  have hmean : ∀ i, ∫ ω, (r ω).amps i ∂μ = (pinv G *ᵥ (G *ᵥ A)) i := by
    intro i
    have e : ∀ ω, (r ω).amps i = (pinv G *ᵥ (G *ᵥ A)) i +
        ∑ j, pinv G i j * OF.ip fs (OF.weight (dcPsd psd) false) (S j) (noise ω) := by
      intro ω
      rw [ha, (fit_event hF hpsd hfs _ A (noise ω)).2.1]
      simp only [Pi.add_apply, ← hS, ipR_eq psd hfs]
      rfl
    simp only [e]
    have hi : ∀ j, Integrable (fun ω => pinv G i j * OF.ip fs (OF.weight (dcPsd psd) false) (S j) (noise ω)) μ :=
      fun j => (h.int_ip hdc fs false (S j)).const_mul _
    rw [integral_add (integrable_const _) (integrable_finsetSum _ fun j _ => hi j),
      integral_finsetSum _ fun j _ => hi j]
    simp [integral_const_mul, h.ip_mean hdc]
  have hpos := noise_pos (setup_ok hF).1 hpsd hfs
  have hsym : Gᵀ = G := by rw [hG]; exact gram_symm _ S
  constructor
  · intro j
    simp only [hmean]
    have hd : G *ᵥ (pinv G *ᵥ (G *ᵥ A) - A) = 0 := by
      rw [mulVec_sub, mulVec_mulVec, mulVec_mulVec, (isPinv_pinv hsym).axa, sub_self]
    have h1 : power (Spec.noise psd fs) (resTrace (fun _ => 0) S (pinv G *ᵥ (G *ᵥ A) - A)) = 0 := by
      rw [power_resTrace, ← hG, hd]
      have : ∀ y, ipR (Spec.noise psd fs) y (fun _ => 0) = 0 := by
        intro y
        refine Finset.sum_eq_zero fun f _ => ?_
        simp [fftR_const]
      simp only [this]
      simp [dotProduct]
    have h2 := power_eq_zero hpos h1 j
    simp only [resTrace, Pi.sub_apply, sub_mul, Finset.sum_sub_distrib] at h2
    linarith
  · intro hI i
    rw [hmean]
    refine congrFun (pinv_mulVec_of_ker hsym A fun x hx => hI x ?_) i
    have h1 : power (Spec.noise psd fs) (resTrace (fun _ => 0) S x) = 0 := by
      rw [power_resTrace, ← hG, hx]
      have : ∀ y, ipR (Spec.noise psd fs) y (fun _ => 0) = 0 := by
        intro y
        refine Finset.sum_eq_zero fun f _ => ?_
        simp [fftR_const]
      simp only [this]
      simp [dotProduct]
    intro τ
    have := power_eq_zero hpos h1 τ
    simpa [resTrace] using this

/-- **C119.**  If the noise has the PSD given to `of_nsmb_setup` (with the zero bin taken from the first one),
the covariance matrix of the amplitudes is the matrix `iPt` of that delay, and the mean chi-square is the number
of bins less the number of independent templates. -/
theorem nsmb_covariance [IsProbabilityMeasure μ] (hF : setup T psd fs = .ok F) (hpsd : ∀ f, f ≠ 0 → 0 < psd f)
    (hs : ∀ f, psd (-f) = psd f) (hfs : 0 < fs) (hnb : nb ≠ 0) (h : OF.Stationary μ noise R)
    (hR : OF.HasPsd R fs (dcPsd psd)) {k : ℤ} (hk : -(n : ℤ) ≤ k) (lf : ℕ) (A : Fin (nb + 1) → ℝ) :
    ∃ r : Ω → Fit n nb,
      (∀ ω, ofNsmb (event T (k : ZMod n) A (noise ω)) F (getiP F.P) fs [k] lf = .ok (r ω)) ∧
      (∀ i j, ∫ ω, ((r ω).amps i - ∫ ω', (r ω').amps i ∂μ) * ((r ω).amps j - ∫ ω', (r ω').amps j ∂μ) ∂μ =
        getiP F.P (k : ZMod n) i j) ∧
      ∫ ω, (r ω).chi2min ∂μ = n - Set.finrank ℝ (Set.range (delayed T (k : ZMod n))) := by
  choose r hr ha hchi using fun ω => ofNsmb_one hnb (event T (k : ZMod n) A (noise ω)) F (getiP F.P) fs hk lf
  refine ⟨r, hr, ?_⟩
  set S := delayed T (k : ZMod n) with hS
  set G : Matrix (Fin (nb + 1)) (Fin (nb + 1)) ℝ :=
    of fun i j => OF.ip fs (OF.weight (dcPsd psd) false) (S i) (S j) with hG0
  have hG : G = of fun i j => ipR (Spec.noise psd fs) (S i) (S j) := by simp only [ipR_eq psd hfs, hG0]
  have hdc : ∀ f, dcPsd psd (-f) = dcPsd psd f := by intro f; simp only [dcPsd, neg_eq_zero, hs]
  have hdp := dcPsd_pos (setup_ok hF).1 hpsd
  have hpos := noise_pos (setup_ok hF).1 hpsd hfs
  have hsym : Gᵀ = G := by rw [hG]; exact gram_symm _ S
  have hGij : ∀ i j, OF.ip fs (OF.weight (dcPsd psd) false) (S i) (S j) = G i j := by
    intro i j; rfl
  have e : ∀ ω i, (r ω).amps i = (pinv G *ᵥ (G *ᵥ A)) i +
      ∑ j, pinv G i j * OF.ip fs (OF.weight (dcPsd psd) false) (S j) (noise ω) := by
    intro ω i
    rw [ha, (fit_event hF hpsd hfs _ A (noise ω)).2.1]
    simp only [Pi.add_apply, ← hS, ipR_eq psd hfs]
    rfl
  have hmean : ∀ i, ∫ ω, (r ω).amps i ∂μ = (pinv G *ᵥ (G *ᵥ A)) i := by
    intro i
    simp only [e]
    have hi : ∀ j, Integrable (fun ω => pinv G i j * OF.ip fs (OF.weight (dcPsd psd) false) (S j) (noise ω)) μ :=
      fun j => (h.int_ip hdc fs false (S j)).const_mul _
    rw [integral_add (integrable_const _) (integrable_finsetSum _ fun j _ => hi j),
      integral_finsetSum _ fun j _ => hi j]
    simp [integral_const_mul, h.ip_mean hdc]
  have hX := isPinv_pinv hsym
  constructor
  · intro i j
    simp only [hmean]
    simp only [e, add_sub_cancel_left]
    rw [(h.comb S hR hdp hdc hfs false (pinv G i) (pinv G j)).2,
      (fit_event hF hpsd hfs (k : ZMod n) A (T 0)).1, ← hS, ← hG]
    conv_rhs => rw [← hX.xax, Matrix.mul_assoc, Matrix.mul_apply]
    refine Finset.sum_congr rfl fun l _ => ?_
    rw [Matrix.mul_apply, Finset.mul_sum]
    refine Finset.sum_congr rfl fun m _ => ?_
    rw [hGij, ← congrFun (congrFun (pinv_symm hsym) m) j, transpose_apply]
    ring
  · have e2 : ∀ ω, (r ω).chi2min = OF.traceChi2 fs (OF.weight (dcPsd psd) false) (noise ω) -
        ∑ i, (∑ j, pinv G i j * OF.ip fs (OF.weight (dcPsd psd) false) (S j) (noise ω)) *
          ∑ j, (if j = i then 1 else 0) * OF.ip fs (OF.weight (dcPsd psd) false) (S j) (noise ω) := by
      intro ω
      rw [hchi, (fit_event hF hpsd hfs _ A (noise ω)).2.2, ← OF.ip_self]
      simp only [← hS, ipR_eq psd hfs, ← hG0, dotProduct, mulVec, ite_mul, one_mul, zero_mul,
        Finset.sum_ite_eq', Finset.mem_univ, if_true]
    simp only [e2]
    have hc := fun i => h.comb S hR hdp hdc hfs false (pinv G i) (fun j => if j = i then 1 else 0)
    rw [integral_sub (h.int_chi _ _) (integrable_finsetSum _ fun i _ => (hc i).1),
      integral_finsetSum _ fun i _ => (hc i).1]
    simp only [(hc _).2]
    have h0 : ∫ ω, OF.traceChi2 fs (OF.weight (dcPsd psd) false) (noise ω) ∂μ = n := by
      have := OF.chi2_nopulse_mean h hR hdp hfs false false (T 0)
      simp only [OF.chi2Nopulse, OF.init_chi0] at this
      rw [this]
      have h2 := OF.nUsed_finite (fun k : ZMod n => if k = 0 then psd 1 else psd k) false
      simp only [Bool.false_eq_true, if_false, sub_zero] at h2
      exact h2
    rw [h0, ← gram_rank hpos S, ← hG, ← trace_pinv_mul hsym, Matrix.trace]
    congr 1
    refine Finset.sum_congr rfl fun i _ => ?_
    rw [diag_apply, Matrix.mul_apply]
    refine Finset.sum_congr rfl fun l _ => ?_
    simp [hGij]

/-- **C119.**  End to end: noise made by `gen_noise` from a PSD whose zero bin equals the first one, given also to
`of_nsmb_setup`. -/
theorem nsmb_on_genNoise (hF : setup T psd fs = .ok F) (hpsd : ∀ f, 0 < psd f) (h0 : psd 0 = psd 1)
    (hs : ∀ f, psd (-f) = psd f) (hfs : 0 < fs) (hnb : nb ≠ 0) {k : ℤ} (hk : -(n : ℤ) ≤ k) (lf : ℕ)
    (A : Fin (nb + 1) → ℝ) (hI : Indep (delayed T (k : ZMod n))) :
    ∃ r : (ZMod n → ℝ) → Fit n nb,
      (∀ vals, ofNsmb (event T (k : ZMod n) A (Noise.genNoise psd fs vals)) F (getiP F.P) fs [k] lf =
        .ok (r vals)) ∧
      (∀ i, ∫ vals, (r vals).amps i ∂(OF.normalDraws n) = A i) ∧
      (∀ i j, ∫ vals, ((r vals).amps i - A i) * ((r vals).amps j - A j) ∂(OF.normalDraws n) =
        getiP F.P (k : ZMod n) i j) ∧
      ∫ vals, (r vals).chi2min ∂(OF.normalDraws n) = n - (nb + 1 : ℕ) := by
  obtain ⟨R, h1, h2⟩ := OF.genNoise_stationary psd hs (fun k => (hpsd k).le) hfs.le
    (OF.normalDraws_stationary (n := n))
  have hdc : (fun k => (psd k : WithTop ℝ)) = dcPsd psd := by
    funext k
    unfold dcPsd
    split_ifs with hk
    · rw [hk, h0]
    · rfl
  rw [hdc] at h2
  obtain ⟨r, hr, -, hm⟩ := nsmb_mean hF (fun f _ => hpsd f) hs hfs hnb h1 hk lf A
  obtain ⟨r', hr', hc, hx⟩ := nsmb_covariance hF (fun f _ => hpsd f) hs hfs hnb h1 h2 hk lf A
  have : r' = r := by
    funext v
    have := (hr' v).symm.trans (hr v)
    exact Except.ok.inj this
  subst this
  refine ⟨r', hr, hm hI, ?_, ?_⟩
  · intro i j
    have := hc i j
    rwa [hm hI, hm hI] at this
  · rw [hx]
    congr 2
    have hli : LinearIndependent ℝ (delayed T (k : ZMod n)) := by
      rw [Fintype.linearIndependent_iff]
      intro g hg i
      refine congrFun (hI g fun τ => ?_) i
      have := congrFun hg τ
      simpa using this
    rw [Set.finrank, finrank_span_eq_card hli, Fintype.card_fin]

/-- Three templates on four bins meet the hypotheses, at every delay. -/
example (k : ℤ) : (∃ F, setup inT inPsd 4 = .ok F) ∧ (∀ f, 0 < inPsd f) ∧ inPsd 0 = inPsd 1 ∧
    Indep (delayed inT (k : ZMod 4)) :=
  ⟨in_setup, fun _ => one_pos, rfl, in_indep _⟩

end Verif.Nsmb

namespace Verif.OF
open Verif Verif.Dft MeasureTheory

variable {n : ℕ} [NeZero n]
variable {Ω : Type*} [MeasurableSpace Ω] {μ : Measure Ω} {noise : Ω → ZMod n → ℝ} {R : ZMod n → ℝ}
  {psd : ZMod n → WithTop ℝ} {fs : ℝ}

/-- **C119.**  The stationary pile-up fit with the second delay given: it always returns that delay, both
amplitudes are unbiased, and with `N` the norm of the template and `C` its overlap with the delayed template the
variances are `N / (N² - C²)`, never below the squared energy resolution, the covariance is `-C / (N² - C²)`, and
the mean chi-square is two less than the number of bins used. -/
theorem stationary_noise [IsProbabilityMeasure μ] (h : Stationary μ noise R) (hR : HasPsd R fs psd)
    (hpsd : ∀ k, 0 < psd k) (hs : ∀ k, psd (-k) = psd k) (hfs : 0 < fs) (ac : Bool) (T : ZMod n → ℝ)
    (hT : Distinguishable fs (weight psd ac) T 2) {k : ℤ}
    (hk : -((n : ℤ) / 2) ≤ k ∧ k ≤ (n : ℤ) / 2 - ((n : ℤ) + 1) % 2) (hk0 : k ≠ 0) (A1 A2 : ℝ) :
    let N := traceChi2 fs (weight psd ac) T
    let C := overlap fs (weight psd ac) T (roll T (k : ZMod n))
    ∃ a1 a2 chi : Ω → ℝ,
      (∀ ω, (pileupStationary (init (twoPulses T A1 A2 k (noise ω)) T psd fs ac false) (some 1) false k).1 =
        .ok (a1 ω, a2 ω, k / fs, chi ω)) ∧
      ∫ ω, a1 ω ∂μ = A1 ∧ ∫ ω, a2 ω ∂μ = A2 ∧
      ∫ ω, (a1 ω - A1) ^ 2 ∂μ = N / (N ^ 2 - C ^ 2) ∧ ∫ ω, (a2 ω - A2) ^ 2 ∂μ = N / (N ^ 2 - C ^ 2) ∧
      energyResolution (init T T psd fs ac false) ^ 2 ≤ N / (N ^ 2 - C ^ 2) ∧
      ∫ ω, (a1 ω - A1) * (a2 ω - A2) ∂μ = -C / (N ^ 2 - C ^ 2) ∧
      ∫ ω, chi ω ∂μ = nUsed psd ac - 2 := by
  intro N C
  have hC : C = ip fs (weight psd ac) T (roll T (k : ZMod n)) := overlap_eq _ _ _ _
  obtain ⟨hN, hD, -⟩ := stationary_pair hfs hpsd ac T hT hk hk0 A1 A2 T
  have hp := fun ω => (stationary_pair hfs hpsd ac T hT hk hk0 A1 A2 (noise ω)).2.2
  simp only [← hC] at hD hp
  change 0 < N at hN
  change 0 < N ^ 2 - C ^ 2 at hD
  set D := N ^ 2 - C ^ 2 with hDdef
  set e1 := fun ω => ip fs (weight psd ac) T (noise ω) with he1
  set e2 := fun ω => ip fs (weight psd ac) (roll T (k : ZMod n)) (noise ω) with he2
  have i1 : Integrable e1 μ := h.int_ip hs fs ac _
  have i2 : Integrable e2 μ := h.int_ip hs fs ac _
  have i11 : Integrable (fun ω => e1 ω * e1 ω) μ := h.int_ip_mul hs fs ac _ _
  have i12 : Integrable (fun ω => e1 ω * e2 ω) μ := h.int_ip_mul hs fs ac _ _
  have i22 : Integrable (fun ω => e2 ω * e2 ω) μ := h.int_ip_mul hs fs ac _ _
  have m1 : ∫ ω, e1 ω ∂μ = 0 := h.ip_mean hs fs ac _
  have m2 : ∫ ω, e2 ω ∂μ = 0 := h.ip_mean hs fs ac _
  have v11 : ∫ ω, e1 ω * e1 ω ∂μ = N := (h.ip_mul hR hpsd hs hfs ac _ _).trans (ip_self _ _ _)
  have v12 : ∫ ω, e1 ω * e2 ω ∂μ = C := (h.ip_mul hR hpsd hs hfs ac _ _).trans hC.symm
  have v22 : ∫ ω, e2 ω * e2 ω ∂μ = N := by
    refine (h.ip_mul hR hpsd hs hfs ac _ _).trans ?_
    rw [ip_self, traceChi2_roll]
  -- quadratic forms in the two inner products
  have quad : ∀ a b c : ℝ, Integrable (fun ω => a * (e1 ω * e1 ω) + b * (e1 ω * e2 ω) + c * (e2 ω * e2 ω)) μ ∧
      ∫ ω, a * (e1 ω * e1 ω) + b * (e1 ω * e2 ω) + c * (e2 ω * e2 ω) ∂μ = a * N + b * C + c * N := by
    intro a b c
    have j : Integrable (fun ω => a * (e1 ω * e1 ω) + b * (e1 ω * e2 ω)) μ := (i11.const_mul a).add (i12.const_mul b)
    refine ⟨j.add (i22.const_mul c), ?_⟩
    rw [integral_add j (i22.const_mul c), integral_add (i11.const_mul a) (i12.const_mul b), integral_const_mul,
      integral_const_mul, integral_const_mul, v11, v12, v22]
  refine ⟨fun ω => A1 + (N * e1 ω - C * e2 ω) / D, fun ω => A2 + (N * e2 ω - C * e1 ω) / D,
    fun ω => traceChi2 fs (weight psd ac) (noise ω) -
      (N * (e1 ω * e1 ω) - 2 * C * (e1 ω * e2 ω) + N * (e2 ω * e2 ω)) / D, hp, ?_, ?_, ?_, ?_, ?_, ?_, ?_⟩
  · have j : Integrable (fun ω => (N * e1 ω - C * e2 ω) / D) μ :=
      ((i1.const_mul N).sub (i2.const_mul C)).div_const D
    rw [integral_add (integrable_const _) j, integral_div, integral_sub (i1.const_mul N) (i2.const_mul C),
      integral_const_mul, integral_const_mul, m1, m2]
    simp
  · have j : Integrable (fun ω => (N * e2 ω - C * e1 ω) / D) μ :=
      ((i2.const_mul N).sub (i1.const_mul C)).div_const D
    rw [integral_add (integrable_const _) j, integral_div, integral_sub (i2.const_mul N) (i1.const_mul C),
      integral_const_mul, integral_const_mul, m1, m2]
    simp
  · have := (quad (N ^ 2 / D ^ 2) (-(2 * N * C / D ^ 2)) (C ^ 2 / D ^ 2)).2
    calc _ = ∫ ω, N ^ 2 / D ^ 2 * (e1 ω * e1 ω) + -(2 * N * C / D ^ 2) * (e1 ω * e2 ω) +
          C ^ 2 / D ^ 2 * (e2 ω * e2 ω) ∂μ := by
          congr 1; funext ω; ring_nf
      _ = _ := by
          rw [this]
          field_simp
          rw [hDdef]; ring
  · have := (quad (C ^ 2 / D ^ 2) (-(2 * N * C / D ^ 2)) (N ^ 2 / D ^ 2)).2
    calc _ = ∫ ω, C ^ 2 / D ^ 2 * (e1 ω * e1 ω) + -(2 * N * C / D ^ 2) * (e1 ω * e2 ω) +
          N ^ 2 / D ^ 2 * (e2 ω * e2 ω) ∂μ := by
          congr 1; funext ω; ring_nf
      _ = _ := by
          rw [this]
          field_simp
          rw [hDdef]; ring
  · rw [energyResolution, init_norm, div_pow, Real.sq_sqrt hN.le, one_pow, div_le_div_iff₀ hN hD]
    change 1 * D ≤ N * N
    rw [hDdef]
    nlinarith [sq_nonneg C]
  · have := (quad (-(N * C / D ^ 2)) ((N ^ 2 + C ^ 2) / D ^ 2) (-(N * C / D ^ 2))).2
    calc _ = ∫ ω, -(N * C / D ^ 2) * (e1 ω * e1 ω) + (N ^ 2 + C ^ 2) / D ^ 2 * (e1 ω * e2 ω) +
          -(N * C / D ^ 2) * (e2 ω * e2 ω) ∂μ := by
          congr 1; funext ω; ring_nf
      _ = _ := by
          rw [this]
          field_simp
          rw [hDdef]; ring
  · have hq := quad (N / D) (-(2 * C / D)) (N / D)
    have e : ∀ ω, traceChi2 fs (weight psd ac) (noise ω) -
        (N * (e1 ω * e1 ω) - 2 * C * (e1 ω * e2 ω) + N * (e2 ω * e2 ω)) / D =
        traceChi2 fs (weight psd ac) (noise ω) -
        (N / D * (e1 ω * e1 ω) + -(2 * C / D) * (e1 ω * e2 ω) + N / D * (e2 ω * e2 ω)) := by
      intro ω; ring
    have hc := chi2_nopulse_mean h hR hpsd hfs ac false T
    simp only [chi2Nopulse, init_chi0] at hc
    simp only [e]
    rw [integral_sub (h.int_chi _ _) hq.1, hq.2, hc]
    have : N / D * N + -(2 * C / D) * C + N / D * N = 2 := by
      field_simp
      rw [hDdef]; ring
    rw [this]

/-- White noise and a one-bin template meet the hypotheses. -/
example : Distinguishable 1 (weight white false) (delta : ZMod 8 → ℝ) 2 ∧
    (-(((8 : ℕ) : ℤ) / 2) ≤ 3 ∧ (3 : ℤ) ≤ ((8 : ℕ) : ℤ) / 2 - (((8 : ℕ) : ℤ) + 1) % 2) := by
  refine ⟨?_, by norm_num⟩
  intro c _ h
  funext j
  have := white_zero h j
  rw [pulses_delta, add_zero] at this
  exact this

end Verif.OF
