import Verif.NonLinErrLemmas

/-! Helper lemmas for C153: least squares to first order, with further terms which do not grow as the noise becomes small. -/

namespace Verif.Device
open Verif Verif.Dft Verif.NonLin MeasureTheory Filter Topology
open scoped RealInnerProductSpace

theorem stationary_add {V H : Type*} [NormedAddCommGroup V] [NormedSpace ℝ V] [NormedAddCommGroup H] [InnerProductSpace ℝ H]
    {R : V → H} {J : V →L[ℝ] H} {x : V} (hJ : HasFDerivAt R J x) {P : V → ℝ} {P' : V →L[ℝ] ℝ} (hP : HasFDerivAt P P' x) {y : H} {t : ℝ}
    (hmin : IsLocalMin (fun v => ‖y - R v‖ ^ 2 + t * P v) x) (u : V) : 2 * ⟪J u, y - R x⟫ = t * P' u := by
  have h1 := (hJ.const_sub y).norm_sq.add (hP.const_mul t)
  have h2 := hmin.hasFDerivAt_eq_zero h1
  have h3 := congrArg (fun L : V →L[ℝ] ℝ => L u) h2
  simp at h3
  rw [real_inner_comm, inner_sub_left]
  linarith

theorem num_step_add {q a dl d E M N κ η c j : ℝ} (hq : 0 < q) (ha : 0 < a) (hd : 0 ≤ d) (hE : 0 ≤ E) (hM : 0 ≤ M) (hN : 0 < N)
    (hκ : 0 < κ) (hκ1 : κ * (2 * N + E + M + 2) ≤ η) (hcq : 0 ≤ c * q) (hinj : c * q ≤ j) (hdl : dl ≤ q + a * d)
    (hle : j ^ 2 ≤ κ * q * (a * E + M * dl) + N * q * (κ * dl) + κ * a * q) : c ^ 2 * q ≤ η * (a * (1 + d) + q) := by
  have hT0 : 0 < a * (1 + d) + q := by positivity
  have d1 : a ≤ a * (1 + d) + q := by nlinarith [mul_nonneg ha.le hd]
  have d2 : dl ≤ a * (1 + d) + q := by linarith
  generalize a * (1 + d) + q = T at *
  have d3 : a * E ≤ T * E := by gcongr
  have d4 : M * dl ≤ M * T := by gcongr
  have d5 : N * dl ≤ N * T := by gcongr
  have d6 : a * E + M * dl + N * dl + a ≤ (2 * N + E + M + 2) * T := by
    have : 0 ≤ N * T := by positivity
    linarith
  have d7 : κ * q * (a * E + M * dl + N * dl + a) ≤ κ * q * ((2 * N + E + M + 2) * T) := by gcongr
  have d8 : κ * (2 * N + E + M + 2) * (q * T) ≤ η * (q * T) := by gcongr
  have c1 : (c * q) ^ 2 ≤ j ^ 2 := by gcongr
  have c4 : q * (c ^ 2 * q) ≤ q * (η * T) := by linarith
  exact le_of_mul_le_mul_left c4 hq

theorem num_pen {s κ K q p : ℝ} (hs0 : 0 < s) (hκ : 0 < κ) (hK : 0 < K) (hq : 0 ≤ q) (b1 : |p| ≤ K * q) (hsκ : s < κ / K) :
    -(s ^ 2 * p / 2) ≤ κ * s * q := by
  have b2 : s * K ≤ κ := by rw [lt_div_iff₀ hK] at hsκ; exact hsκ.le
  have b3 := neg_abs_le p
  have b4 : s * (s * K * q) ≤ s * (κ * q) := by gcongr
  have b5 : s ^ 2 * -p ≤ s ^ 2 * (K * q) := mul_le_mul_of_nonneg_left (by linarith) (by positivity)
  have b6 : 0 ≤ s * (κ * q) := by positivity
  linarith

theorem num_end {c q η s D ε : ℝ} (hc : 0 < c) (hs : 0 < s) (hq : 0 ≤ q) (hη1 : η ≤ c ^ 2 / 2)
    (hη2 : 2 * η * (1 + D) < c ^ 2 * ε) (h : c ^ 2 * q ≤ η * (s * (1 + D) + q)) : q < s * ε := by
  have f0 : η * q ≤ c ^ 2 / 2 * q := by gcongr
  have f1 : c ^ 2 * q ≤ s * (2 * η * (1 + D)) := by linarith
  have f2 : s * (2 * η * (1 + D)) < s * (c ^ 2 * ε) := by gcongr
  have f3 : c ^ 2 * q < c ^ 2 * (s * ε) := by linarith
  exact lt_of_mul_lt_mul_left f3 (by positivity)

theorem first_order_add {V H : Type*} [NormedAddCommGroup V] [NormedSpace ℝ V] [NormedAddCommGroup H] [InnerProductSpace ℝ H]
    {R : V → H} {x₀ : V} (hR : ContDiffAt ℝ 1 R x₀) {c : ℝ} (hc : 0 < c) (hinj : ∀ u, c * ‖u‖ ≤ ‖fderiv ℝ R x₀ u‖)
    {P : V → ℝ} (hP : ContDiffAt ℝ 1 P x₀) {x : ℝ → V} (hx : Tendsto x (𝓝[>] 0) (𝓝 x₀)) {e : H}
    (hmin : ∀ᶠ s in 𝓝[>] 0, IsLocalMin (fun v => ‖R x₀ + s • e - R v‖ ^ 2 + s ^ 2 * P v) (x s)) {D : V}
    (hD : ∀ u, ⟪fderiv ℝ R x₀ u, e - fderiv ℝ R x₀ D⟫ = 0) :
    Tendsto (fun s => s⁻¹ • (x s - x₀)) (𝓝[>] 0) (𝓝 D) := by
  set J := fderiv ℝ R with hJ
  have hcont : ContinuousAt J x₀ := (hR.fderiv_right (m := 0) (by simp)).continuousAt
  have hcontP : ContinuousAt (fderiv ℝ P) x₀ := (hP.fderiv_right (m := 0) (by simp)).continuousAt
  have hdiff : ∀ᶠ v in 𝓝 x₀, HasFDerivAt R (J v) v := by
    filter_upwards [hR.eventually (by simp)] with v hv
    exact (hv.differentiableAt (by simp)).hasFDerivAt
  have hdiffP : ∀ᶠ v in 𝓝 x₀, HasFDerivAt P (fderiv ℝ P v) v := by
    filter_upwards [hP.eventually (by simp)] with v hv
    exact (hv.differentiableAt (by simp)).hasFDerivAt
  have hlin := (hR.differentiableAt (by simp)).hasFDerivAt.isLittleO
  rw [Metric.tendsto_nhds]
  intro ε hε
  obtain ⟨η, hη, hη1, hη2⟩ : ∃ η > 0, η ≤ c ^ 2 / 2 ∧ 2 * η * (1 + ‖D‖) < c ^ 2 * ε := by
    refine ⟨min (c ^ 2 / 2) (c ^ 2 * ε / (4 * (1 + ‖D‖))), by positivity, min_le_left _ _, ?_⟩
    have : min (c ^ 2 / 2) (c ^ 2 * ε / (4 * (1 + ‖D‖))) * (4 * (1 + ‖D‖)) ≤ c ^ 2 * ε := by
      rw [← le_div_iff₀ (by positivity)]; exact min_le_right _ _
    have h2 : 0 < c ^ 2 * ε := by positivity
    nlinarith
  set N := ‖J x₀‖ + 1 with hN
  have hN0 : 0 < N := by positivity
  set κ := min 1 (η / (2 * N + ‖e‖ + ‖J x₀‖ + 2)) with hκ
  have hκ0 : 0 < κ := by positivity
  have hκ1 : κ * (2 * N + ‖e‖ + ‖J x₀‖ + 2) ≤ η := by
    rw [← le_div_iff₀ (by positivity)]; exact min_le_right _ _
  have e1 : ∀ᶠ v in 𝓝 x₀, ‖J v - J x₀‖ < κ := by
    have := (Metric.tendsto_nhds.1 hcont.tendsto) κ hκ0
    simpa only [dist_eq_norm] using this
  set K := ‖fderiv ℝ P x₀‖ + 1 with hK
  have hK0 : 0 < K := by positivity
  have e3 : ∀ᶠ v in 𝓝 x₀, ‖fderiv ℝ P v‖ < K := (hcontP.norm.tendsto.eventually_lt_const (by linarith))
  have e2 := hlin.def hκ0
  have e4 : ∀ᶠ s : ℝ in 𝓝[>] 0, s < κ / K := by
    filter_upwards [Ioo_mem_nhdsGT (show (0 : ℝ) < κ / K by positivity)] with s hs
    exact hs.2
  filter_upwards [hx.eventually (hdiff.and (hdiffP.and (e1.and (e2.and e3)))), hmin, e4, self_mem_nhdsWithin] with s hs hm hsκ hs0
  obtain ⟨hd, hdP, h1, h2, h3⟩ := hs
  have hs0 : 0 < s := hs0
  set δ := x s - x₀ with hδ
  set η' := δ - s • D with hη'
  have hst := stationary_add hd hdP hm η'
  set ρ := R (x s) - R x₀ - J x₀ δ with hρ
  have key : ⟪J x₀ η', J x₀ η'⟫ = ⟪J (x s) η' - J x₀ η', s • e - J x₀ δ⟫ - ⟪J (x s) η', ρ⟫ - s ^ 2 * fderiv ℝ P (x s) η' / 2 := by
    have a1 : R x₀ + s • e - R (x s) = (s • e - J x₀ δ) - ρ := by rw [hρ]; abel
    have a2 : s • e - J x₀ δ = s • (e - J x₀ D) - J x₀ η' := by
      have : J x₀ η' = J x₀ δ - s • J x₀ D := by rw [← map_smul, ← map_sub]
      rw [this, smul_sub]; abel
    rw [a1, inner_sub_right] at hst
    have a3 : ⟪J x₀ η', s • e - J x₀ δ⟫ = - ⟪J x₀ η', J x₀ η'⟫ := by
      rw [a2, inner_sub_right, inner_smul_right, hD, mul_zero, zero_sub]
    rw [inner_sub_left, a3]
    linarith
  have hJs : ‖J (x s) η' - J x₀ η'‖ ≤ κ * ‖η'‖ := by
    rw [← _root_.sub_apply]
    exact (ContinuousLinearMap.le_opNorm _ _).trans (by gcongr)
  have hJn : ‖J (x s) η'‖ ≤ N * ‖η'‖ := by
    have : ‖J (x s) η'‖ ≤ ‖J (x s) η' - J x₀ η'‖ + ‖J x₀ η'‖ := by
      simpa using norm_add_le (J (x s) η' - J x₀ η') (J x₀ η')
    have hb := (J x₀).le_opNorm η'
    have : κ ≤ 1 := min_le_left _ _
    have h0 := norm_nonneg η'
    nlinarith
  have hb : ‖s • e - J x₀ δ‖ ≤ s * ‖e‖ + ‖J x₀‖ * ‖δ‖ := by
    refine (norm_sub_le _ _).trans (add_le_add ?_ ((J x₀).le_opNorm δ))
    rw [norm_smul, Real.norm_eq_abs, abs_of_pos hs0]
  have hPn : -(s ^ 2 * fderiv ℝ P (x s) η' / 2) ≤ κ * s * ‖η'‖ := by
    have b1 : |fderiv ℝ P (x s) η'| ≤ K * ‖η'‖ :=
      ((fderiv ℝ P (x s)).le_opNorm η').trans (mul_le_mul_of_nonneg_right h3.le (norm_nonneg _))
    exact num_pen hs0 hκ0 hK0 (norm_nonneg _) b1 hsκ
  have hle : ‖J x₀ η'‖ ^ 2 ≤ κ * ‖η'‖ * (s * ‖e‖ + ‖J x₀‖ * ‖δ‖) + N * ‖η'‖ * (κ * ‖δ‖) + κ * s * ‖η'‖ := by
    rw [← real_inner_self_eq_norm_sq, key]
    have b1 := real_inner_le_norm (J (x s) η' - J x₀ η') (s • e - J x₀ δ)
    have b2 : -⟪J (x s) η', ρ⟫ ≤ ‖J (x s) η'‖ * ‖ρ‖ := by
      have := real_inner_le_norm (J (x s) η') (-ρ)
      rwa [inner_neg_right, norm_neg] at this
    have b3 : ‖J (x s) η' - J x₀ η'‖ * ‖s • e - J x₀ δ‖ ≤ κ * ‖η'‖ * (s * ‖e‖ + ‖J x₀‖ * ‖δ‖) := by gcongr
    have b4 : ‖J (x s) η'‖ * ‖ρ‖ ≤ N * ‖η'‖ * (κ * ‖δ‖) := by gcongr
    linarith
  have hδn : ‖δ‖ ≤ ‖η'‖ + s * ‖D‖ := by
    have := norm_add_le η' (s • D)
    rw [norm_smul, Real.norm_eq_abs, abs_of_pos hs0] at this
    simpa [hη'] using this
  have hfin : c ^ 2 * ‖η'‖ ≤ η * (s * (1 + ‖D‖) + ‖η'‖) := by
    rcases (norm_nonneg η').eq_or_lt with h0 | h0
    · rw [← h0]; simp only [mul_zero, add_zero]; positivity
    exact num_step_add h0 hs0 (norm_nonneg _) (norm_nonneg _) (norm_nonneg _) hN0 hκ0 hκ1 (mul_nonneg hc.le h0.le) (hinj η') hδn hle
  rw [dist_eq_norm]
  have e5 : s⁻¹ • δ - D = s⁻¹ • η' := by
    have : s⁻¹ • η' = s⁻¹ • δ - s⁻¹ • (s • D) := by rw [← smul_sub]
    rw [this, smul_smul, inv_mul_cancel₀ hs0.ne', one_smul]
  rw [e5, norm_smul, norm_inv, Real.norm_eq_abs, abs_of_pos hs0, inv_mul_lt_iff₀ hs0]
  exact num_end hc hs0 (norm_nonneg _) hη1 hη2 hfin

section core
variable {n : ℕ} [NeZero n] {d : ℕ} {F : (Fin d → ℝ) → ZMod n → ℂ} {x₀ : Fin d → ℝ} {err errT : ZMod n → ℝ}

theorem gram_det_some {c : Fin d → ZMod n → ℂ} (hinj : ∀ u : Fin d → ℝ, (∀ k, err k ≠ 0 → ∑ j, (u j : ℂ) * c j k = 0) → u = 0) :
    (gram err c).det ≠ 0 ∧ ∀ u : Fin d → ℝ, u ≠ 0 → 0 < ∑ i, ∑ j, u i * u j * gram err c i j := by
  have hpos : ∀ u : Fin d → ℝ, u ≠ 0 → 0 < ∑ i, ∑ j, u i * u j * gram err c i j := by
    intro u hu
    rw [gram_quad]
    have hsq : ∀ z : ℂ, (starRingEnd ℂ z * z).re = ‖z‖ ^ 2 := fun z => by
      rw [mul_comm, Complex.mul_conj, Complex.ofReal_re, Complex.normSq_eq_norm_sq]
    simp only [hsq]
    by_contra hle
    have h0 : ∀ k, 0 ≤ ‖∑ j, (u j : ℂ) * c j k‖ ^ 2 / err k ^ 2 := fun k => by positivity
    have hz : ∑ k, ‖∑ j, (u j : ℂ) * c j k‖ ^ 2 / err k ^ 2 = 0 := le_antisymm (not_lt.1 hle) (Finset.sum_nonneg fun k _ => h0 k)
    rw [Finset.sum_eq_zero_iff_of_nonneg fun k _ => h0 k] at hz
    refine hu (hinj u fun k he => ?_)
    have := hz k (Finset.mem_univ _)
    simpa [he] using this
  refine ⟨fun hd => ?_, hpos⟩
  obtain ⟨v, hv, hz⟩ := Matrix.exists_mulVec_eq_zero_iff.2 hd
  have h := hpos v hv
  have : ∑ i, ∑ j, v i * v j * gram err c i j = ∑ i, v i * ((gram err c).mulVec v) i := by
    refine Finset.sum_congr rfl fun i _ => ?_
    rw [Matrix.mulVec, dotProduct, Finset.mul_sum]
    refine Finset.sum_congr rfl fun j _ => by ring
  rw [this, hz] at h
  simp at h

theorem gram_tendsto (hF : ContDiffAt ℝ 1 F x₀) {α : Type*} {l : Filter α} {y : α → Fin d → ℝ} (hy : Tendsto y l (𝓝 x₀)) :
    Tendsto (fun s => gram err fun j => fderiv ℝ F (y s) (Pi.single j 1)) l (𝓝 (gram err fun j => fderiv ℝ F x₀ (Pi.single j 1))) := by
  refine tendsto_pi_nhds.2 fun i => tendsto_pi_nhds.2 fun j => ?_
  have hcont : ContinuousAt (fderiv ℝ F) x₀ := (hF.fderiv_right (m := 0) (by simp)).continuousAt
  have hcj : ∀ j k, Tendsto (fun s => fderiv ℝ F (y s) (Pi.single j 1) k) l (𝓝 (fderiv ℝ F x₀ (Pi.single j 1) k)) := fun j k =>
    (tendsto_pi_nhds.1 (((ContinuousLinearMap.apply ℝ (ZMod n → ℂ) (Pi.single j 1 : Fin d → ℝ)).continuous.tendsto _).comp
      (hcont.tendsto.comp hy))) k
  refine tendsto_finsetSum _ fun k _ => ?_
  exact ((Complex.continuous_re.tendsto _).comp (((Complex.continuous_conj.tendsto _).comp (hcj i k)).mul (hcj j k))).div_const _

theorem penalty_contDiff (hF : ContDiffAt ℝ 1 F x₀) (Z : ZMod n → ℂ) :
    ContDiffAt ℝ 1 (fun v => ∑ k, ‖Z k - F v k‖ ^ 2 / errT k ^ 2) x₀ := by
  refine ContDiffAt.sum fun k _ => ?_
  exact ((contDiffAt_const.sub ((contDiffAt_pi.1 hF) k)).norm_sq ℝ).div_const _

theorem fderiv_herm_at (hF : ContDiffAt ℝ 1 F x₀) {k : ZMod n} (hherm : ∀ᶠ v in 𝓝 x₀, F v (-k) = starRingEnd ℂ (F v k))
    (u : Fin d → ℝ) : fderiv ℝ F x₀ u (-k) = starRingEnd ℂ (fderiv ℝ F x₀ u k) := by
  have h := hasFDerivAt_pi'.1 (hF.differentiableAt (by simp)).hasFDerivAt
  have h1 := (Complex.conjCLE : ℂ →L[ℝ] ℂ).hasFDerivAt.comp x₀ (h k)
  have h2 := h1.congr_of_eventuallyEq (f₁ := fun v => F v (-k)) (by
    filter_upwards [hherm] with v hv
    simp [hv])
  have h3 := congrArg (fun L : (Fin d → ℝ) →L[ℝ] ℂ => L u) ((h (-k)).unique h2)
  simpa using h3

/-- Fits of spectra which count every pair of bins twice. -/
theorem doubled_core (hF : ContDiffAt ℝ 1 F x₀) (heven : ∀ k, err (-k) = err k)
    (hherm : ∀ k, err k ≠ 0 → ∀ᶠ v in 𝓝 x₀, F v (-k) = starRingEnd ℂ (F v k))
    (hinj : ∀ u, (∀ k, err k ≠ 0 → fderiv ℝ F x₀ u k = 0) → u = 0) {b : ZMod n → ℂ}
    (hb : ∀ k, err k ≠ 0 → b k ≠ 0 ∧ b (-k) = starRingEnd ℂ (b k)) {Ω : Type*} [MeasurableSpace Ω] {μ : Measure Ω}
    [IsProbabilityMeasure μ] {noise : Ω → ZMod n → ℝ} {R : ZMod n → ℝ} (hst : OF.Stationary μ noise R)
    (hS : ∀ k, err k ≠ 0 → n * (fftR R k).re = 2 * (err k ^ 2 * ‖b k‖ ^ 2)) {x : Ω → ℝ → List ℝ} {cov : Ω → ℝ → ℕ → ℕ → ℝ}
    (hr : ∀ ω, ∃ (y : ℝ → Fin d → ℝ) (Z : ZMod n → ℂ), Tendsto y (𝓝[>] 0) (𝓝 x₀) ∧ ∀ᶠ s in 𝓝[>] 0, x ω s = List.ofFn (y s) ∧
      IsLocalMin (fun v => ∑ k, ‖F x₀ k + s * (fftR (noise ω) k / b k) - F v k‖ ^ 2 / (s * err k) ^ 2 +
        ∑ k, ‖Z k - F v k‖ ^ 2 / errT k ^ 2) (y s) ∧
      ∀ i j : Fin d, cov ω s i j = ((s ^ 2)⁻¹ • (gram err fun j => fderiv ℝ F (y s) (Pi.single j 1)) +
        gram errT fun j => fderiv ℝ F (y s) (Pi.single j 1))⁻¹ i j) :
    ∃ (D : Ω → Fin d → ℝ) (C : Matrix (Fin d) (Fin d) ℝ),
      (∀ ω (i : Fin d), Tendsto (fun s => ((x ω s).getD i 0 - x₀ i) / s) (𝓝[>] 0) (𝓝 (D ω i))) ∧
      (∀ ω (i j : Fin d), Tendsto (fun s => cov ω s i j / s ^ 2) (𝓝[>] 0) (𝓝 (C i j))) ∧
      (∀ i, 0 < C i i) ∧ (∀ i, MemLp (fun ω => D ω i) 2 μ) ∧ (∀ i, ∫ ω, D ω i ∂μ = 0) ∧
      ∀ i j, ∫ ω, D ω i * D ω j ∂μ = 2 * C i j := by
  have hn : (0 : ℝ) < n := by exact_mod_cast NeZero.pos n
  set c : Fin d → ZMod n → ℂ := fun j => fderiv ℝ F x₀ (Pi.single j 1) with hc
  set G := gram err c with hG
  have hlin : ∀ (u : Fin d → ℝ) k, fderiv ℝ F x₀ u k = ∑ j, (u j : ℂ) * c j k := by
    intro u k
    rw [lin_single (fderiv ℝ F x₀) u, Finset.sum_apply]
    simp [hc]
  obtain ⟨hdet, hpos⟩ := gram_det_some (err := err) (c := c) fun u hu => hinj u fun k hk => by rw [hlin, hu k hk]
  have hunit : IsUnit G.det := isUnit_iff_ne_zero.2 hdet
  have hGs : G.transpose = G := by ext i j; exact gram_symm c j i
  set C := G⁻¹ with hCdef
  have hCs : C.transpose = C := by rw [hCdef, Matrix.transpose_nonsing_inv, hGs]
  have hCGC : ∀ i j, ∑ a, ∑ b, C i a * C j b * G a b = C i j := by
    intro i j
    have h1 : C * G * C.transpose = C := by rw [hCs, hCdef, Matrix.nonsing_inv_mul _ hunit, Matrix.one_mul]
    have h2 := congrFun (congrFun h1 i) j
    rw [Matrix.mul_apply] at h2
    rw [← h2, Finset.sum_comm]
    refine Finset.sum_congr rfl fun b _ => ?_
    rw [Matrix.mul_apply, Matrix.transpose_apply, Finset.sum_mul]
    refine Finset.sum_congr rfl fun a _ => by ring
  -- the filters
  set err1 : ZMod n → ℝ := fun k => if err k = 0 then 1 else err k with herr1
  have he1 : ∀ k, err k ≠ 0 → err1 k = err k := fun k hk => if_neg hk
  have he1p : ∀ k, err1 k ≠ 0 := fun k => by
    rw [herr1]; simp only; split_ifs with h
    · exact one_ne_zero
    · exact h
  set c' : Fin d → ZMod n → ℂ := fun j k => if err k = 0 then 0 else c j k / starRingEnd ℂ (b k) with hc'
  have hherm' : ∀ j k, c' j (-k) = starRingEnd ℂ (c' j k) := by
    intro j k
    simp only [hc', heven]
    split_ifs with h
    · simp
    · rw [(hb k h).2, map_div₀, hc]
      simp only
      rw [fderiv_herm_at hF (hherm k h)]
  have hfs : Real.sqrt (1 / (n : ℝ) * n) = 1 := by rw [one_div, inv_mul_cancel₀ hn.ne', Real.sqrt_one]
  choose h hh hx using fun j => filter_of (fs := 1 / (n : ℝ)) (err := err1) (fun k => by rw [herr1]; simp only [heven]) (hherm' j)
  simp only [hfs, Complex.ofReal_one, div_one, one_mul] at hh hx
  have hx2 : ∀ j (z : ZMod n → ℝ), ∑ m, h j m * z m = ∑ k, (starRingEnd ℂ (c j k) * (fftR z k / b k)).re / err k ^ 2 := by
    intro j z
    rw [hx]
    refine Finset.sum_congr rfl fun k _ => ?_
    by_cases hk : err k = 0
    · simp [hc', hk]
    · rw [he1 k hk, hc']
      simp only [if_neg hk]
      rw [map_div₀, Complex.conj_conj]
      congr 2
      ring
  set g : Fin d → ZMod n → ℝ := fun i m => ∑ j, C i j * h j m with hg
  have hgc : ∀ i k, fftR (g i) k = (∑ j, (C i j : ℂ) * c' j k) *
      ((n / (Real.sqrt (1 / (n : ℝ) * n) * |err1 k| ^ 2) : ℝ) : ℂ) := by
    intro i k
    rw [fftR_apply, hg, hfs, one_mul, sq_abs]
    simp only [Complex.ofReal_sum, Complex.ofReal_mul, Finset.mul_sum]
    rw [Finset.sum_comm, Finset.sum_mul]
    refine Finset.sum_congr rfl fun j _ => ?_
    rw [mul_assoc, ← hh, fftR_apply, Finset.mul_sum]
    refine Finset.sum_congr rfl fun m _ => by ring
  set D : Ω → Fin d → ℝ := fun ω i => ∑ m, g i m * noise ω m with hDdef
  have hDb : ∀ ω i, D ω i = ∑ j, C i j * ∑ m, h j m * noise ω m := by
    intro ω i
    rw [hDdef, hg]
    simp only [Finset.sum_mul, Finset.mul_sum]
    rw [Finset.sum_comm]
    refine Finset.sum_congr rfl fun j _ => Finset.sum_congr rfl fun m _ => by ring
  have hGD : ∀ ω j, ∑ i, G j i * D ω i = ∑ m, h j m * noise ω m := by
    intro ω j
    have h1 : D ω = C.mulVec fun j => ∑ m, h j m * noise ω m := by funext i; rw [hDb]; rfl
    have h2 : G.mulVec (D ω) = fun j => ∑ m, h j m * noise ω m := by
      rw [h1, Matrix.mulVec_mulVec, hCdef, Matrix.mul_nonsing_inv _ hunit, Matrix.one_mulVec]
    exact congrFun h2 j
  -- covariances
  have hcov : ∀ i j, ∫ ω, D ω i * D ω j ∂μ = 2 * C i j := by
    intro i j
    have h1 : ∫ ω, D ω i * D ω j ∂μ = _ := cov_of hst (fs := 1 / (n : ℝ)) (by positivity) (err := fun k => |err1 k|) (fun k => abs_pos.2 (he1p k)) (hgc i) (hgc j)
      fun k => (psd_even hst k).2
    rw [h1, ← hCGC i j, gram_quad, Finset.mul_sum]
    refine Finset.sum_congr rfl fun k _ => ?_
    by_cases hk : err k = 0
    · simp [hc', hk]
    · have hbk := (hb k hk).1
      have hq : ∀ i, ∑ a, (C i a : ℂ) * c' a k = (∑ a, (C i a : ℂ) * c a k) / starRingEnd ℂ (b k) := by
        intro i
        rw [Finset.sum_div]
        refine Finset.sum_congr rfl fun a _ => ?_
        simp only [hc', if_neg hk]
        ring
      rw [hq, hq, sq_abs, he1 k hk, map_div₀, Complex.conj_conj]
      generalize starRingEnd ℂ (∑ a, (C i a : ℂ) * c a k) = q1
      generalize ∑ a, (C j a : ℂ) * c a k = q2
      rw [div_mul_div_comm q1 (b k) q2, Complex.mul_conj, Complex.normSq_eq_norm_sq, Complex.div_ofReal_re]
      generalize (q1 * q2).re = q
      have hb0 : ‖b k‖ ≠ 0 := norm_ne_zero_iff.2 hbk
      have h2 := hS k hk
      have h3 : (fftR R k).re = 2 * (err k ^ 2 * ‖b k‖ ^ 2) / n := by rw [← h2]; field_simp
      rw [h3]
      field_simp
  have hpinv : ∀ {y : ℝ → Fin d → ℝ}, Tendsto y (𝓝[>] 0) (𝓝 x₀) →
      Tendsto (fun s : ℝ => pinv ((gram err fun j => fderiv ℝ F (y s) (Pi.single j 1)) +
        s ^ 2 • gram errT fun j => fderiv ℝ F (y s) (Pi.single j 1))) (𝓝[>] 0) (𝓝 C) ∧
      ∀ᶠ s in 𝓝[>] 0, ((gram err fun j => fderiv ℝ F (y s) (Pi.single j 1)) +
        s ^ 2 • gram errT fun j => fderiv ℝ F (y s) (Pi.single j 1)).det ≠ 0 := by
    intro y hy
    have hs : Tendsto (fun s : ℝ => s ^ 2) (𝓝[>] 0) (𝓝 0) := by
      have : Tendsto (fun s : ℝ => s ^ 2) (𝓝 0) (𝓝 (0 ^ 2)) := (continuous_pow 2).tendsto 0
      rw [zero_pow two_ne_zero] at this
      exact this.mono_left nhdsWithin_le_nhds
    have h1 := (gram_tendsto (err := err) hF hy).add (hs.smul (gram_tendsto (err := errT) hF hy))
    rw [zero_smul, add_zero] at h1
    refine ⟨inv_tendsto hdet h1, ?_⟩
    exact (((continuous_id.matrix_det).tendsto G).comp h1).eventually_ne hdet
  refine ⟨D, C, ?_, ?_, ?_, ?_, ?_, hcov⟩
  · -- first order
    intro ω i
    obtain ⟨y, Z, hy, hev⟩ := hr ω
    set X : ZMod n → ℂ := fun k => fftR (noise ω) k / b k with hX
    set e : PiLp 2 fun _ : ZMod n => ℂ := WithLp.toLp 2 fun k => X k / err k with he
    obtain ⟨κ, hκ, hbd⟩ := inj_bound (fderiv ℝ (scaled F err) x₀) fun u hu => hinj u (by
      intro k hk
      have h1 := congrArg (fun z : PiLp 2 fun _ : ZMod n => ℂ => z k) hu
      simp only [scaled_fderiv hF] at h1
      have h2 : ((err k : ℝ) : ℂ) ≠ 0 := by exact_mod_cast hk
      have h3 : fderiv ℝ F x₀ u k / err k = 0 := h1
      rw [div_eq_zero_iff] at h3
      exact h3.resolve_right h2)
    have hmin : ∀ᶠ s in 𝓝[>] 0, IsLocalMin (fun v => ‖scaled F err x₀ + s • e - scaled F err v‖ ^ 2 +
        s ^ 2 * ∑ k, ‖Z k - F v k‖ ^ 2 / errT k ^ 2) (y s) := by
      filter_upwards [hev, self_mem_nhdsWithin] with s hs hs0
      have hs0 : 0 < s := hs0
      have hval : ∀ v, ‖scaled F err x₀ + s • e - scaled F err v‖ ^ 2 + s ^ 2 * ∑ k, ‖Z k - F v k‖ ^ 2 / errT k ^ 2 =
          s ^ 2 * (∑ k, ‖F x₀ k + s * X k - F v k‖ ^ 2 / (s * err k) ^ 2 + ∑ k, ‖Z k - F v k‖ ^ 2 / errT k ^ 2) := by
        intro v
        rw [PiLp.norm_sq_eq_of_L2, mul_add]
        congr 1
        rw [Finset.mul_sum]
        refine Finset.sum_congr rfl fun k _ => ?_
        have hz : (scaled F err x₀ + s • e - scaled F err v) k = (F x₀ k + s * X k - F v k) / err k := by
          simp only [scaled, he, PiLp.sub_apply, PiLp.add_apply, PiLp.smul_apply, Complex.real_smul]
          ring
        rw [hz, norm_div, div_pow, Complex.norm_real, Real.norm_eq_abs, sq_abs, mul_pow]
        by_cases hk : err k = 0
        · simp [hk]
        · field_simp
      filter_upwards [hs.2.1] with v hv
      simp only [hval]
      exact mul_le_mul_of_nonneg_left hv (by positivity)
    have hDorth : ∀ u, ⟪fderiv ℝ (scaled F err) x₀ u, e - fderiv ℝ (scaled F err) x₀ (D ω)⟫ = 0 := by
      intro u
      rw [lin_single (fderiv ℝ (scaled F err) x₀) u, sum_inner]
      refine Finset.sum_eq_zero fun j _ => ?_
      rw [inner_smul_left, inner_sub_right, he, inner_scaled hF, lin_single (fderiv ℝ (scaled F err) x₀) (D ω), inner_sum]
      simp only [inner_smul_right, inner_gram hF]
      have h1 := hGD ω j
      rw [hx2] at h1
      simp only [hG, hc] at h1
      rw [← h1]
      simp only [mul_comm, sub_self, zero_mul]
    have hlim := first_order_add (scaled_contDiff hF) hκ hbd (penalty_contDiff hF Z) hy hmin hDorth
    have hi := (tendsto_pi_nhds.1 hlim) i
    refine hi.congr' ?_
    filter_upwards [hev] with s hs
    rw [hs.1]
    simp [div_eq_inv_mul]
  · intro ω i j
    obtain ⟨y, Z, hy, hev⟩ := hr ω
    obtain ⟨h1, h2⟩ := hpinv hy
    refine (tendsto_pi_nhds.1 (tendsto_pi_nhds.1 h1 i) j).congr' ?_
    filter_upwards [hev, h2, self_mem_nhdsWithin] with s hs hd0 hs0
    have hs0 : 0 < s := hs0
    rw [hs.2.2, pinv_inv hd0]
    set M := (gram err fun j => fderiv ℝ F (y s) (Pi.single j 1)) + s ^ 2 • gram errT fun j => fderiv ℝ F (y s) (Pi.single j 1) with hM
    have hs2 : s ^ 2 ≠ 0 := by positivity
    have h3 : (s ^ 2)⁻¹ • (gram err fun j => fderiv ℝ F (y s) (Pi.single j 1)) + (gram errT fun j => fderiv ℝ F (y s) (Pi.single j 1)) =
        (s ^ 2)⁻¹ • M := by
      rw [hM, smul_add, smul_smul, inv_mul_cancel₀ hs2, one_smul]
    have h4 : ((s ^ 2)⁻¹ • M)⁻¹ = s ^ 2 • M⁻¹ := by
      refine Matrix.inv_eq_left_inv ?_
      rw [Matrix.smul_mul, Matrix.mul_smul, smul_smul, mul_inv_cancel₀ hs2, one_smul,
        Matrix.nonsing_inv_mul _ (isUnit_iff_ne_zero.2 hd0)]
    rw [h3, h4, Matrix.smul_apply, smul_eq_mul]
    field_simp
  · intro i
    have h1 := hpos (C i) (fun h0 => ?_)
    · rw [hCGC] at h1; exact h1
    · have h2 : (C * G) i i = 1 := by rw [hCdef, Matrix.nonsing_inv_mul _ hunit, Matrix.one_apply_eq]
      rw [Matrix.mul_apply] at h2
      simp [h0] at h2
  · intro i
    exact memLp_finsetSum _ fun m _ => (hst.sq_int m).const_mul _
  · intro i
    exact hst.lin (g i)

end core

end Verif.Device
