import Verif.DidvErrPoles
import Mathlib.Analysis.Normed.Module.FiniteDimension

/-! Fits of averages with little noise: minima near the truth exist. -/

namespace Verif.Device
open Verif Verif.Dft Verif.Didv Verif.NonLin MeasureTheory Filter Topology

/-- A function which grows at a point as fast as the distance from it does. -/
theorem grows {V H : Type*} [NormedAddCommGroup V] [NormedSpace ℝ V] [NormedAddCommGroup H] [NormedSpace ℝ H] {R : V → H} {x₀ : V}
    {J : V →L[ℝ] H} (hR : HasFDerivAt R J x₀) {c : ℝ} (hc : 0 < c) (hinj : ∀ u, c * ‖u‖ ≤ ‖J u‖) :
    ∀ᶠ v in 𝓝 x₀, c / 2 * ‖v - x₀‖ ≤ ‖R v - R x₀‖ := by
  filter_upwards [hR.isLittleO.def (half_pos hc)] with v hv
  have h1 := hinj (v - x₀)
  have h2 : ‖J (v - x₀)‖ ≤ ‖R v - R x₀‖ + ‖R v - R x₀ - J (v - x₀)‖ := by
    have := norm_sub_le (R v - R x₀) (R v - R x₀ - J (v - x₀))
    rwa [sub_sub_cancel] at this
  linarith

/-- Minima of distances from a point near the image, with a small weight on something else. -/
theorem minima_exist {V H : Type*} [NormedAddCommGroup V] [NormedSpace ℝ V] [FiniteDimensional ℝ V] [NormedAddCommGroup H]
    [NormedSpace ℝ H] {R : V → H} {x₀ : V} (hR : ContDiffAt ℝ 1 R x₀) {c : ℝ} (hc : 0 < c)
    (hinj : ∀ u, c * ‖u‖ ≤ ‖fderiv ℝ R x₀ u‖) {P : V → ℝ} (hP : ContDiffAt ℝ 1 P x₀) (hP0 : ∀ v, 0 ≤ P v) (e : H) :
    ∃ y : ℝ → V, Tendsto y (𝓝[>] 0) (𝓝 x₀) ∧
      ∀ᶠ s in 𝓝[>] 0, IsLocalMin (fun v => ‖R x₀ + s • e - R v‖ ^ 2 + s ^ 2 * P v) (y s) := by
  have hev : ∀ᶠ v in 𝓝 x₀, c / 2 * ‖v - x₀‖ ≤ ‖R v - R x₀‖ ∧ ContinuousAt R v ∧ ContinuousAt P v :=
    (grows (hR.differentiableAt (by simp)).hasFDerivAt hc hinj).and
      (((hR.eventually (by simp)).mono fun v hv => hv.continuousAt).and ((hP.eventually (by simp)).mono fun v hv => hv.continuousAt))
  obtain ⟨ρ, hρ, hball⟩ := Metric.nhds_basis_closedBall.eventually_iff.1 hev
  have hcomp : IsCompact (Metric.closedBall x₀ ρ) := isCompact_closedBall x₀ ρ
  have hmin : ∀ s : ℝ, ∃ y ∈ Metric.closedBall x₀ ρ, IsMinOn (fun v => ‖R x₀ + s • e - R v‖ ^ 2 + s ^ 2 * P v)
      (Metric.closedBall x₀ ρ) y := by
    intro s
    refine hcomp.exists_isMinOn ⟨x₀, Metric.mem_closedBall_self hρ.le⟩ fun v hv => ?_
    have h1 := (hball hv).2
    exact (((continuousAt_const.sub h1.1).norm.pow 2).add (continuousAt_const.mul h1.2)).continuousWithinAt
  choose y hy hmin using hmin
  set K := ‖e‖ ^ 2 + P x₀ with hK
  have hK0 : 0 ≤ K := add_nonneg (sq_nonneg _) (hP0 _)
  have hbound : ∀ s, 0 < s → ‖y s - x₀‖ ≤ s * (2 / c * (‖e‖ + Real.sqrt K)) := by
    intro s hs
    have h1 : ‖R x₀ + s • e - R (y s)‖ ^ 2 + s ^ 2 * P (y s) ≤ s ^ 2 * K := by
      have := hmin s (Metric.mem_closedBall_self hρ.le)
      simp only [Set.mem_ofPred_eq, add_sub_cancel_left, norm_smul, Real.norm_eq_abs, mul_pow, sq_abs] at this
      rw [hK]
      linarith
    have h2 : ‖R x₀ + s • e - R (y s)‖ ≤ s * Real.sqrt K := by
      refine abs_le_of_sq_le_sq' ?_ (by positivity) |>.2
      rw [mul_pow, Real.sq_sqrt hK0]
      nlinarith [hP0 (y s), sq_nonneg s]
    have h3 : ‖R (y s) - R x₀‖ ≤ s * ‖e‖ + s * Real.sqrt K := by
      have : R (y s) - R x₀ = s • e - (R x₀ + s • e - R (y s)) := by abel
      rw [this]
      refine (norm_sub_le _ _).trans (add_le_add ?_ h2)
      rw [norm_smul, Real.norm_eq_abs, abs_of_pos hs]
    have h4 := (hball (hy s)).1
    have h5 : ‖y s - x₀‖ = 2 / c * (c / 2 * ‖y s - x₀‖) := by field_simp
    rw [h5]
    calc 2 / c * (c / 2 * ‖y s - x₀‖) ≤ 2 / c * (s * ‖e‖ + s * Real.sqrt K) := by gcongr; exact h4.trans h3
      _ = _ := by ring
  have hlim : Tendsto y (𝓝[>] 0) (𝓝 x₀) := by
    rw [tendsto_iff_norm_sub_tendsto_zero]
    have h1 : Tendsto (fun s : ℝ => s * (2 / c * (‖e‖ + Real.sqrt K))) (𝓝[>] 0) (𝓝 0) := by
      have : Tendsto (fun s : ℝ => s * (2 / c * (‖e‖ + Real.sqrt K))) (𝓝 0) (𝓝 (0 * (2 / c * (‖e‖ + Real.sqrt K)))) :=
        (continuous_id.mul continuous_const).tendsto 0
      rw [zero_mul] at this
      exact this.mono_left nhdsWithin_le_nhds
    refine tendsto_of_tendsto_of_tendsto_of_le_of_le' tendsto_const_nhds h1 (Eventually.of_forall fun s => norm_nonneg _) ?_
    filter_upwards [self_mem_nhdsWithin] with s hs
    exact hbound s hs
  refine ⟨y, hlim, ?_⟩
  filter_upwards [hlim.eventually (Metric.ball_mem_nhds x₀ hρ)] with s hs
  exact (hmin s).isLocalMin (Filter.mem_of_superset (Metric.isOpen_ball.mem_nhds hs) Metric.ball_subset_closedBall)

/-- A local minimum and the covariance there, for fits of ever less noise. -/
theorem fits_exist {o : Obj} {n : ℕ} [NeZero n] {W : ZMod n → ℂ} {c : Option ℝ} {d : ℕ} {G : ℝ → (Fin d → ℝ) → ℂ} {x₀ : Fin d → ℝ}
    (hG : ∀ k : ZMod n, (∀ᶠ v in 𝓝 x₀, fitY (fftfreq o.fs k) (List.ofFn v) = .ok (G (fftfreq o.fs k) v)) ∧
      ContDiffAt ℝ 1 (G (fftfreq o.fs k)) x₀)
    (hW : ∀ k : ZMod n, G (fftfreq o.fs k) x₀ = W k)
    (hinj : ∀ u, (∀ k : ZMod n, Below o.fs c k → drive o k ≠ 0 → fderiv ℝ (G (fftfreq o.fs k)) x₀ u = 0) → u = 0)
    {R : ZMod n → ℝ} (hm : Mirrored o c R) (noise : ZMod n → ℝ) (Z : ZMod n → ℂ) :
    ∃ (y : ℝ → Fin d → ℝ) (cov : ℝ → List (List ℝ)), Tendsto y (𝓝[>] 0) (𝓝 x₀) ∧ ∀ᶠ s in 𝓝[>] 0, ∀ p, Averaged o W Z noise R s p →
      LocalBest (residual (fitPts p o.fs c)) (List.ofFn (y s)) ∧
        InverseGram (residual (fitPts p o.fs c)) (List.ofFn (y s)) (cov s) := by
  classical
  set F : (Fin d → ℝ) → ZMod n → ℂ := fun v k => G (fftfreq o.fs k) v with hFdef
  have hF : ContDiffAt ℝ 1 F x₀ := contDiffAt_pi.2 fun k => (hG k).2
  have hfd : ∀ k u, fderiv ℝ F x₀ u k = fderiv ℝ (G (fftfreq o.fs k)) x₀ u := by
    intro k u
    have h1 := hasFDerivAt_pi'.1 (hF.differentiableAt (by simp)).hasFDerivAt k
    exact (congrArg (fun L : (Fin d → ℝ) →L[ℝ] ℂ => L u) h1.fderiv).symm
  set err : ZMod n → ℝ := errOf o c R with herr
  set errT : ZMod n → ℝ := errRest o c with herrT
  have hinj' : ∀ u, (∀ k, err k ≠ 0 → fderiv ℝ F x₀ u k = 0) → u = 0 := fun u hu => hinj u fun k h1 h2 => by
    rw [← hfd]
    exact hu k (errOf_pos hm ⟨h1, h2⟩).ne'
  -- weighted responses
  set Λ : (ZMod n → ℂ) →L[ℝ] EuclideanSpace ℂ (ZMod n) :=
    (EuclideanSpace.equiv (ZMod n) ℂ).symm.toContinuousLinearMap.restrictScalars ℝ |>.comp
      (ContinuousLinearMap.pi fun k => (err k)⁻¹ • ContinuousLinearMap.proj (R := ℝ) k) with hΛ
  have hΛa : ∀ z k, Λ z k = ((err k)⁻¹ : ℝ) • z k := fun z k => rfl
  have hΛn : ∀ z, ‖Λ z‖ ^ 2 = ∑ k, ‖z k‖ ^ 2 / err k ^ 2 := by
    intro z
    rw [EuclideanSpace.norm_sq_eq]
    refine Finset.sum_congr rfl fun k _ => ?_
    rw [hΛa, norm_smul, Real.norm_eq_abs, mul_pow, sq_abs, inv_pow]
    ring
  have hRc : ContDiffAt ℝ 1 (fun v => Λ (F v)) x₀ := Λ.contDiff.contDiffAt.comp x₀ hF
  have hRd : fderiv ℝ (fun v => Λ (F v)) x₀ = Λ.comp (fderiv ℝ F x₀) :=
    (Λ.hasFDerivAt.comp x₀ (hF.differentiableAt (by simp)).hasFDerivAt).fderiv
  obtain ⟨q, hq, hqb⟩ : ∃ q > 0, ∀ u, q * ‖u‖ ≤ ‖fderiv ℝ (fun v => Λ (F v)) x₀ u‖ := by
    have hi : Function.Injective (fderiv ℝ (fun v => Λ (F v)) x₀) := by
      rw [hRd]
      refine (injective_iff_map_eq_zero _).2 fun u hu => hinj' u fun k hk => ?_
      have h1 : Λ (fderiv ℝ F x₀ u) k = 0 := by
        have : Λ (fderiv ℝ F x₀ u) = 0 := hu
        rw [this]; rfl
      rw [hΛa] at h1
      exact (smul_eq_zero.1 h1).resolve_left (inv_ne_zero hk)
    generalize fderiv ℝ (fun v => Λ (F v)) x₀ = L at hi
    obtain ⟨K, hK, ha⟩ := LinearMap.exists_antilipschitzWith (L : (Fin d → ℝ) →ₗ[ℝ] EuclideanSpace ℂ (ZMod n))
      (LinearMap.ker_eq_bot.2 hi)
    refine ⟨(K : ℝ)⁻¹, by positivity, fun u => ?_⟩
    have h1 := ha.le_mul_dist u 0
    simp only [dist_zero_right, ContinuousLinearMap.coe_coe, map_zero] at h1
    have hK' : (0 : ℝ) < K := by exact_mod_cast hK
    rw [inv_mul_le_iff₀ hK']
    exact h1
  obtain ⟨y, hy, hmin⟩ := minima_exist hRc hq hqb (penalty_contDiff (errT := errT) hF Z)
    (fun v => Finset.sum_nonneg fun k _ => by positivity) (Λ fun k => fftR noise k / drive o k)
  -- the matrices
  set M : ℝ → Matrix (Fin d) (Fin d) ℝ := fun s => (s ^ 2)⁻¹ • (gram err fun j => fderiv ℝ F (y s) (Pi.single j 1)) +
    gram errT fun j => fderiv ℝ F (y s) (Pi.single j 1) with hM
  have hdet : ∀ᶠ s in 𝓝[>] 0, (M s).det ≠ 0 := by
    have hlin : ∀ (u : Fin d → ℝ) k, fderiv ℝ F x₀ u k = ∑ j, (u j : ℂ) * fderiv ℝ F x₀ (Pi.single j 1) k := by
      intro u k
      rw [lin_single (fderiv ℝ F x₀) u, Finset.sum_apply]
      simp
    have h0 := (gram_det_some (err := err) (c := fun j => fderiv ℝ F x₀ (Pi.single j 1)) fun u hu => hinj' u fun k hk => by
      rw [hlin, hu k hk]).1
    have hs : Tendsto (fun s : ℝ => s ^ 2) (𝓝[>] 0) (𝓝 0) := by
      have : Tendsto (fun s : ℝ => s ^ 2) (𝓝 0) (𝓝 (0 ^ 2)) := (continuous_pow 2).tendsto 0
      rw [zero_pow two_ne_zero] at this
      exact this.mono_left nhdsWithin_le_nhds
    have h1 := (gram_tendsto (err := err) hF hy).add (hs.smul (gram_tendsto (err := errT) hF hy))
    rw [zero_smul, add_zero] at h1
    have h2 := ((Continuous.matrix_det continuous_id).tendsto _).comp h1
    filter_upwards [h2.eventually_ne h0, self_mem_nhdsWithin] with s hs hs0 hz
    have hs0 : 0 < s := hs0
    refine hs ?_
    have : (gram err fun j => fderiv ℝ F (y s) (Pi.single j 1)) + s ^ 2 • (gram errT fun j => fderiv ℝ F (y s) (Pi.single j 1)) =
        s ^ 2 • M s := by
      rw [hM]
      simp only
      rw [smul_add, smul_smul, mul_inv_cancel₀ (by positivity), one_smul]
    simp only [Function.comp, id, this, Matrix.det_smul, hz, mul_zero]
  refine ⟨y, fun s => List.ofFn fun a => List.ofFn fun b => (M s)⁻¹ a b, hy, ?_⟩
  have hok : ∀ᶠ v in 𝓝 x₀, (∀ k : ZMod n, fitY (fftfreq o.fs k) (List.ofFn v) = .ok (F v k)) ∧ ContDiffAt ℝ 1 F v := by
    refine (Filter.eventually_all.2 fun k => (hG k).1).and (hF.eventually (by simp))
  filter_upwards [hmin, hdet, hy.eventually hok.eventually_nhds, self_mem_nhdsWithin] with s hmin hdet hnb hs0 p hp
  have hs0 : 0 < s := hs0
  have hMs : M s = (s ^ 2)⁻¹ • (gram err fun j => fderiv ℝ F (y s) (Pi.single j 1)) +
    gram errT fun j => fderiv ℝ F (y s) (Pi.single j 1) := rfl
  generalize M s = Ms at hdet hMs
  generalize y s = x at hmin hnb hMs
  obtain ⟨ks, e, he0, hpts, hsum, hval⟩ := bins_of hm hs0 hp
  have hW' : W = F x₀ := funext fun k => (hW k).symm
  simp only [hW'] at hval
  rw [hpts]
  set res := Didv.residual (ks.map fun k : ℕ => ⟨fftfreq o.fs (k : ZMod n), p.didvmean k, (1 + Complex.I) * (e k : ℂ)⟩) with hresdef
  have hres : ∀ᶠ v in 𝓝 x, res (List.ofFn v) =
      .ok (ks.flatMap fun k => [(p.didvmean k - F v (k : ZMod n)).re / e k, (p.didvmean k - F v (k : ZMod n)).im / e k]) := by
    filter_upwards [hnb] with v hv
    exact residual_flat he0 fun k _ => hv.1 _
  refine ⟨⟨_, hres.self_of_nhds, ?_⟩, ⟨_, hres.self_of_nhds, Ms.submatrix (finCongr (by simp)) (finCongr (by simp)), fun a b => ?_, ?_, fun a b => ?_⟩⟩
  · obtain ⟨δ, hδ, hb⟩ := Metric.eventually_nhds_iff.1 (hmin.and hres)
    refine ⟨δ, hδ, fun v q hv hq => ?_⟩
    have hlen : v.length = d := by simpa using hv.length_eq
    obtain ⟨w, rfl⟩ : ∃ w : Fin d → ℝ, v = List.ofFn w := by
      subst hlen
      exact ⟨fun i => v.get i, (List.ofFn_get v).symm⟩
    obtain ⟨h1, h2⟩ := hb (y := w) (by
      rw [dist_pi_lt_iff hδ]
      intro i
      have := (List.forall₂_iff_get.1 hv).2 i (by simp) (by simp)
      simpa [Real.dist_eq] using this)
    rw [h2] at hq
    cases hq
    rw [hval, hval]
    have hconv : ∀ v, ‖Λ (F x₀) + s • Λ (fun k => fftR noise k / drive o k) - Λ (F v)‖ ^ 2 +
        s ^ 2 * ∑ k, ‖Z k - F v k‖ ^ 2 / errT k ^ 2 = s ^ 2 * (∑ k, ‖F x₀ k + s * (fftR noise k / drive o k) - F v k‖ ^ 2 /
          (s * err k) ^ 2 + ∑ k, ‖Z k - F v k‖ ^ 2 / errT k ^ 2) := by
      intro v
      rw [← map_smul, ← map_add, ← map_sub, hΛn, mul_add]
      congr 1
      rw [Finset.mul_sum]
      refine Finset.sum_congr rfl fun k _ => ?_
      rw [mul_pow, ← mul_div_assoc, mul_div_mul_left _ _ (by positivity : s ^ 2 ≠ 0)]
      rfl
    have h3 := (hconv x).symm.trans_le (LE.le.trans h1 (hconv w).le)
    exact le_of_mul_le_mul_left h3 (by positivity)
  · set g' : ℕ → (Fin d → ℝ) →L[ℝ] ℂ := fun k => (ContinuousLinearMap.proj (R := ℝ) (k : ZMod n)).comp (fderiv ℝ F x) with hg'
    have hgd : ∀ k ∈ ks, HasFDerivAt (fun v => F v (k : ZMod n)) (g' k) x := fun k _ =>
      hasFDerivAt_pi'.1 ((hnb.self_of_nhds.2).differentiableAt (by simp)).hasFDerivAt (k : ZMod n)
    have h1 := gram_flat (m := p.didvmean) hgd hres (finCongr (by simp) a) (finCongr (by simp) b)
    have h3 := h1.trans (hsum fun k => (starRingEnd ℂ (fderiv ℝ F x (Pi.single (finCongr (by simp) a) 1) k) *
      fderiv ℝ F x (Pi.single (finCongr (by simp) b) 1) k).re)
    rw [flat_length]
    refine Eq.trans ?_ h3.symm
    rw [Matrix.submatrix_apply, hMs, Matrix.add_apply, Matrix.smul_apply, smul_eq_mul]
    unfold gram
    congr 1
    rw [Finset.mul_sum]
    refine Finset.sum_congr rfl fun k _ => ?_
    ring
  · rw [Matrix.det_submatrix_equiv_self]
    exact isUnit_iff_ne_zero.2 hdet
  · rw [Matrix.inv_submatrix_equiv, Matrix.submatrix_apply]
    have ha : (a : ℕ) < d := by simpa using a.2
    have hb : (b : ℕ) < d := by simpa using b.2
    simp [ha, hb, finCongr]
    rfl

end Verif.Device
