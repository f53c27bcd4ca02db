import Verif.DidvErrGlue
import Verif.DidvBeliefSpec
import Mathlib.LinearAlgebra.Matrix.PosDef

/-! Helper lemmas for C155: second derivatives, and least squares with priors to first order. -/

namespace Verif.Device
open Verif Verif.Dft Verif.Didv Verif.NonLin MeasureTheory Filter Topology
open scoped RealInnerProductSpace

section hessian
variable {V H : Type*} [NormedAddCommGroup V] [NormedSpace ℝ V] [NormedAddCommGroup H] [InnerProductSpace ℝ H]
  {R : V → H} {x₀ : V} {P : V → ℝ}

theorem apply_contDiff {W : Type*} [NormedAddCommGroup W] [NormedSpace ℝ W] {Q : V → W} {v : V} (hQ : ContDiffAt ℝ 2 Q v) (u : V) :
    ContDiffAt ℝ 1 (fun v => fderiv ℝ Q v u) v :=
  (hQ.fderiv_right (m := 1) (by norm_num)).clm_apply contDiffAt_const

theorem hess_at {v : V} (hR : ContDiffAt ℝ 2 R v) (hP : ContDiffAt ℝ 2 P v) (z : H) (t : ℝ) (u w : V) :
    fderiv ℝ (fun v => fderiv ℝ (fun v => ‖z - R v‖ ^ 2 + t * P v) v u) v w =
      2 * ⟪fderiv ℝ R v w, fderiv ℝ R v u⟫ - 2 * ⟪z - R v, fderiv ℝ (fun v => fderiv ℝ R v u) v w⟫ +
        t * fderiv ℝ (fun v => fderiv ℝ P v u) v w := by
  have h1 : (fun v => fderiv ℝ (fun v => ‖z - R v‖ ^ 2 + t * P v) v u) =ᶠ[𝓝 v]
      fun v => -2 * ⟪z - R v, fderiv ℝ R v u⟫ + t * fderiv ℝ P v u := by
    filter_upwards [hR.eventually (by simp), hP.eventually (by simp)] with v hR hP
    have h2 := ((hR.differentiableAt (by simp)).hasFDerivAt.const_sub z).norm_sq.add
      ((hP.differentiableAt (by simp)).hasFDerivAt.const_mul t)
    have h3 := congrArg (fun L : V →L[ℝ] ℝ => L u) h2.fderiv
    refine h3.trans ?_
    simp [inner_sub_left]
    ring
  rw [h1.fderiv_eq]
  have h2 := ((hR.differentiableAt (by simp)).hasFDerivAt.const_sub z).inner ℝ
    ((apply_contDiff hR u).differentiableAt (by simp)).hasFDerivAt
  have h3 := (h2.const_mul (-2)).add ((((apply_contDiff hP u).differentiableAt (by simp)).hasFDerivAt).const_mul t)
  have h4 := congrArg (fun L : V →L[ℝ] ℝ => L w) h3.fderiv
  refine h4.trans ?_
  simp
  ring

theorem hess_tendsto (hR : ContDiffAt ℝ 2 R x₀) (hP : ContDiffAt ℝ 2 P x₀) {x : ℝ → V} (hx : Tendsto x (𝓝[>] 0) (𝓝 x₀)) (e : H)
    (u w : V) :
    Tendsto (fun s => fderiv ℝ (fun v => fderiv ℝ (fun v => ‖R x₀ + s • e - R v‖ ^ 2 + s ^ 2 * P v) v u) (x s) w) (𝓝[>] 0)
      (𝓝 (2 * ⟪fderiv ℝ R x₀ w, fderiv ℝ R x₀ u⟫)) := by
  have c1 : ∀ u, ContinuousAt (fun v => fderiv ℝ R v u) x₀ := fun u => (apply_contDiff hR u).continuousAt
  have c2 : ContinuousAt (fun v => fderiv ℝ (fun v => fderiv ℝ R v u) v w) x₀ :=
    (((apply_contDiff hR u).fderiv_right (m := 0) (by simp)).clm_apply contDiffAt_const).continuousAt
  have c3 : ContinuousAt (fun v => fderiv ℝ (fun v => fderiv ℝ P v u) v w) x₀ :=
    (((apply_contDiff hP u).fderiv_right (m := 0) (by simp)).clm_apply contDiffAt_const).continuousAt
  have hs : Tendsto (fun s : ℝ => s) (𝓝[>] 0) (𝓝 0) := tendsto_id.mono_left nhdsWithin_le_nhds
  have t1 := (((c1 w).tendsto.comp hx).inner (𝕜 := ℝ) ((c1 u).tendsto.comp hx)).const_mul (2 : ℝ)
  have t2 : Tendsto (fun s => R x₀ + s • e - R (x s)) (𝓝[>] 0) (𝓝 (R x₀ + (0 : ℝ) • e - R x₀)) :=
    (tendsto_const_nhds.add (hs.smul_const e)).sub (hR.continuousAt.tendsto.comp hx)
  have t3 := (t2.inner (𝕜 := ℝ) (c2.tendsto.comp hx)).const_mul (2 : ℝ)
  have t4 := (hs.pow 2).mul (c3.tendsto.comp hx)
  have t5 := (t1.sub t3).add t4
  simp only [zero_smul, add_zero, sub_self, inner_zero_left, mul_zero, sub_zero, ne_eq, OfNat.ofNat_ne_zero, not_false_eq_true, zero_pow,
    zero_mul] at t5
  refine t5.congr' ?_
  filter_upwards [hx.eventually (hR.eventually (by simp)), hx.eventually (hP.eventually (by simp))] with s h1 h2
  rw [hess_at h1 h2]
  rfl

end hessian

section lists
variable {d : ℕ} {f : List ℝ → Except Err ℝ} {φ : (Fin d → ℝ) → ℝ} {y : Fin d → ℝ}

theorem partialBy_eq (hφ : DifferentiableAt ℝ φ y) (hf : ∀ᶠ v in 𝓝 y, f (List.ofFn v) = .ok (φ v)) (a : Fin d) :
    partialBy f a (List.ofFn y) = fderiv ℝ φ y (Pi.single a 1) := by
  have hup : HasDerivAt (Function.update y a) (Pi.single a 1) (y a) := hasDerivAt_update y a (y a)
  have hself : Function.update y a (y a) = y := Function.update_eq_self a y
  have h0 : HasFDerivAt φ (fderiv ℝ φ y) (Function.update y a (y a)) := by rw [hself]; exact hφ.hasFDerivAt
  have h1 : HasDerivAt (fun v => φ (Function.update y a v)) (fderiv ℝ φ y (Pi.single a 1)) (y a) := h0.comp_hasDerivAt (y a) hup
  have hget : (List.ofFn y).getD a 0 = y a := by simp
  unfold partialBy
  rw [hget]
  refine (h1.congr_of_eventuallyEq ?_).deriv
  have := hup.continuousAt.tendsto
  rw [hself] at this
  filter_upwards [this.eventually hf] with v hv
  rw [ofFn_set, hv]
  rfl

theorem curvature_eq (hφ : ContDiffAt ℝ 2 φ y) (hf : ∀ᶠ v in 𝓝 y, f (List.ofFn v) = .ok (φ v)) (a b : Fin d) :
    curvature f (List.ofFn y) a b = fderiv ℝ (fun v => fderiv ℝ φ v (Pi.single b 1)) y (Pi.single a 1) := by
  have hev : ∀ᶠ v in 𝓝 y, partialBy f b (List.ofFn v) = fderiv ℝ φ v (Pi.single b 1) := by
    filter_upwards [hf.eventually_nhds, hφ.eventually (by simp)] with v h1 h2
    exact partialBy_eq (h2.differentiableAt (by simp)) h1 b
  have := partialBy_eq (f := fun x => .ok (partialBy f b x)) ((apply_contDiff hφ (Pi.single b 1)).differentiableAt (by simp))
    (hev.mono fun v hv => by rw [hv]) a
  exact this

end lists

/-- Local minima near `x₀`, and the inverse second derivatives there. -/
theorem belief_limits {d : ℕ} {H : Type*} [NormedAddCommGroup H] [InnerProductSpace ℝ H] {R : (Fin d → ℝ) → H} {x₀ : Fin d → ℝ}
    (hR : ContDiffAt ℝ 2 R x₀) (hinj : ∀ u, fderiv ℝ R x₀ u = 0 → u = 0) {P : (Fin d → ℝ) → ℝ} (hP : ContDiffAt ℝ 2 P x₀)
    {y : ℝ → Fin d → ℝ} (hy : Tendsto y (𝓝[>] 0) (𝓝 x₀)) {e : H} {G : Matrix (Fin d) (Fin d) ℝ}
    (hG : ∀ i j, G i j = ⟪fderiv ℝ R x₀ (Pi.single i 1), fderiv ℝ R x₀ (Pi.single j 1)⟫) (hdet : G.det ≠ 0) :
    (∀ᶠ s in 𝓝[>] 0, (Matrix.of fun i j => fderiv ℝ (fun v => fderiv ℝ (fun v => (2 * s ^ 2)⁻¹ *
      (‖R x₀ + s • e - R v‖ ^ 2 + s ^ 2 * P v)) v (Pi.single j 1)) (y s) (Pi.single i 1)).det ≠ 0) ∧
    ((∀ᶠ s in 𝓝[>] 0, IsLocalMin (fun v => ‖R x₀ + s • e - R v‖ ^ 2 + s ^ 2 * P v) (y s)) →
      Tendsto (fun s => s⁻¹ • (y s - x₀)) (𝓝[>] 0) (𝓝 (G⁻¹.mulVec fun j => ⟪fderiv ℝ R x₀ (Pi.single j 1), e⟫))) ∧
    Tendsto (fun s => (s ^ 2)⁻¹ • (Matrix.of fun i j => fderiv ℝ (fun v => fderiv ℝ (fun v => (2 * s ^ 2)⁻¹ *
      (‖R x₀ + s • e - R v‖ ^ 2 + s ^ 2 * P v)) v (Pi.single j 1)) (y s) (Pi.single i 1))⁻¹) (𝓝[>] 0) (𝓝 G⁻¹) := by
  have hunit : IsUnit G.det := isUnit_iff_ne_zero.2 hdet
  set N : ℝ → Matrix (Fin d) (Fin d) ℝ := fun s => Matrix.of fun i j =>
    2⁻¹ * fderiv ℝ (fun v => fderiv ℝ (fun v => ‖R x₀ + s • e - R v‖ ^ 2 + s ^ 2 * P v) v (Pi.single j 1)) (y s) (Pi.single i 1) with hN
  have hNt : Tendsto N (𝓝[>] 0) (𝓝 G) := by
    refine tendsto_pi_nhds.2 fun i => tendsto_pi_nhds.2 fun j => ?_
    have := (hess_tendsto hR hP hy e (Pi.single j 1) (Pi.single i 1)).const_mul (2⁻¹ : ℝ)
    rw [hG i j]
    simpa [hN] using this
  have hscale : ∀ s : ℝ, (Matrix.of fun i j => fderiv ℝ (fun v => fderiv ℝ (fun v => (2 * s ^ 2)⁻¹ *
      (‖R x₀ + s • e - R v‖ ^ 2 + s ^ 2 * P v)) v (Pi.single j 1)) (y s) (Pi.single i 1)) = (s ^ 2)⁻¹ • N s := by
    intro s
    ext i j
    have h1 : ∀ (q : ℝ) (g : (Fin d → ℝ) → ℝ) (v : Fin d → ℝ), fderiv ℝ (fun v => q * g v) v = q • fderiv ℝ g v := fun q g v => by
      exact congrFun (fderiv_const_smul_field (𝕜 := ℝ) (f := g) q) v
    simp only [Matrix.of_apply, h1, Matrix.smul_apply, smul_eq_mul, hN, _root_.smul_apply]
    rw [mul_inv]
    ring
  have hNdet : ∀ᶠ s in 𝓝[>] 0, (N s).det ≠ 0 := (((continuous_id.matrix_det).tendsto G).comp hNt).eventually_ne hdet
  refine ⟨?_, fun hmin => ?_, ?_⟩
  · filter_upwards [hNdet, self_mem_nhdsWithin] with s hs hs0
    have hs0 : 0 < s := hs0
    rw [hscale, Matrix.det_smul]
    have : ((s ^ 2)⁻¹) ^ Fintype.card (Fin d) ≠ 0 := by positivity
    exact mul_ne_zero this hs
  · obtain ⟨κ, hκ, hbd⟩ := inj_bound (fderiv ℝ R x₀) hinj
    refine first_order_add (hR.of_le (by norm_num)) hκ hbd (hP.of_le (by norm_num)) hy hmin fun u => ?_
    rw [lin_single (fderiv ℝ R x₀) u, sum_inner]
    refine Finset.sum_eq_zero fun j _ => ?_
    rw [inner_smul_left, inner_sub_right, lin_single (fderiv ℝ R x₀) (G⁻¹.mulVec _), inner_sum]
    simp only [inner_smul_right, ← hG]
    have h1 : G.mulVec (G⁻¹.mulVec fun j => ⟪fderiv ℝ R x₀ (Pi.single j 1), e⟫) = fun j => ⟪fderiv ℝ R x₀ (Pi.single j 1), e⟫ := by
      rw [Matrix.mulVec_mulVec, Matrix.mul_nonsing_inv _ hunit, Matrix.one_mulVec]
    have h2 := congrFun h1 j
    rw [← h2]
    simp only [Matrix.mulVec, dotProduct, mul_comm, sub_self, zero_mul]
  · refine (inv_tendsto hdet hNt).congr' ?_
    filter_upwards [hNdet, self_mem_nhdsWithin] with s hs hs0
    have hs0 : 0 < s := hs0
    have hs2 : s ^ 2 ≠ 0 := by positivity
    have h4 : ((s ^ 2)⁻¹ • N s)⁻¹ = s ^ 2 • (N s)⁻¹ := by
      refine Matrix.inv_eq_left_inv ?_
      rw [Matrix.smul_mul, Matrix.mul_smul, smul_smul, mul_inv_cancel₀ hs2, one_smul, Matrix.nonsing_inv_mul _ (isUnit_iff_ne_zero.2 hs)]
    rw [hscale, h4, pinv_inv hs, smul_smul, inv_mul_cancel₀ hs2, one_smul]

section core
variable {n : ℕ} [NeZero n] {d : ℕ} {F : (Fin d → ℝ) → ZMod n → ℂ} {x₀ : Fin d → ℝ} {err errT : ZMod n → ℝ} {σ : Fin d → ℝ}

/-- The model values and the parameters in units of their errors. -/
noncomputable def unitless (F : (Fin d → ℝ) → ZMod n → ℂ) (err : ZMod n → ℝ) (σ v : Fin d → ℝ) : PiLp 2 fun _ : ZMod n ⊕ Fin d => ℂ :=
  WithLp.toLp 2 (Sum.elim (fun k => F v k / err k) fun i => (v i : ℂ) / σ i)

theorem unitless_contDiff (hF : ContDiffAt ℝ 2 F x₀) : ContDiffAt ℝ 2 (unitless F err σ) x₀ := by
  rw [contDiffAt_piLp]
  rintro (k | i)
  · simp only [unitless, Sum.elim_inl, div_eq_mul_inv]
    exact ((contDiffAt_pi.1 hF) k).mul contDiffAt_const
  · simp only [unitless, Sum.elim_inr, div_eq_mul_inv]
    exact ((Complex.ofRealCLM.contDiff.contDiffAt (x := x₀ i)).comp x₀ (contDiff_apply ℝ ℝ i).contDiffAt).mul contDiffAt_const

theorem unitless_fderiv (hF : ContDiffAt ℝ 2 F x₀) (u : Fin d → ℝ) :
    (∀ k, fderiv ℝ (unitless F err σ) x₀ u (Sum.inl k) = fderiv ℝ F x₀ u k / err k) ∧
      ∀ i, fderiv ℝ (unitless F err σ) x₀ u (Sum.inr i) = (u i : ℂ) / σ i := by
  have h1 := ((unitless_contDiff (err := err) (σ := σ) hF).differentiableAt (by simp)).hasFDerivAt
  constructor
  · intro k
    have h2 := (PiLp.proj (𝕜 := ℝ) 2 (fun _ : ZMod n ⊕ Fin d => ℂ) (Sum.inl k)).hasFDerivAt.comp x₀ h1
    have h3 := (hasFDerivAt_pi'.1 (hF.differentiableAt (by simp)).hasFDerivAt) k
    have h4 := h3.mul_const ((err k : ℂ)⁻¹)
    have h5 : (fun v => F v k * (err k : ℂ)⁻¹) = (PiLp.proj (𝕜 := ℝ) 2 (fun _ : ZMod n ⊕ Fin d => ℂ) (Sum.inl k)) ∘ unitless F err σ := by
      funext v
      simp [unitless, div_eq_mul_inv]
    rw [h5] at h4
    have h6 := congrArg (fun L : (Fin d → ℝ) →L[ℝ] ℂ => L u) (h2.unique h4)
    simpa [div_eq_mul_inv, mul_comm] using h6
  · intro i
    have h2 := (PiLp.proj (𝕜 := ℝ) 2 (fun _ : ZMod n ⊕ Fin d => ℂ) (Sum.inr i)).hasFDerivAt.comp x₀ h1
    have h3 : HasFDerivAt (fun v : Fin d → ℝ => (v i : ℂ)) (Complex.ofRealCLM.comp (ContinuousLinearMap.proj (R := ℝ) i)) x₀ :=
      (Complex.ofRealCLM.comp (ContinuousLinearMap.proj (R := ℝ) (φ := fun _ : Fin d => ℝ) i)).hasFDerivAt
    have h4 := h3.mul_const ((σ i : ℂ)⁻¹)
    have h5 : (fun v : Fin d → ℝ => (v i : ℂ) * (σ i : ℂ)⁻¹) =
        (PiLp.proj (𝕜 := ℝ) 2 (fun _ : ZMod n ⊕ Fin d => ℂ) (Sum.inr i)) ∘ unitless F err σ := by
      funext v
      simp [unitless, div_eq_mul_inv]
    rw [h5] at h4
    have h6 := congrArg (fun L : (Fin d → ℝ) →L[ℝ] ℂ => L u) (h2.unique h4)
    simpa [div_eq_mul_inv, mul_comm] using h6

theorem inner_unitless (hF : ContDiffAt ℝ 2 F x₀) (u : Fin d → ℝ) (z : ZMod n → ℂ) (g : Fin d → ℝ) :
    ⟪fderiv ℝ (unitless F err σ) x₀ u, WithLp.toLp 2 (Sum.elim (fun k => z k / err k) fun i => (g i : ℂ))⟫ =
      ∑ k, (starRingEnd ℂ (fderiv ℝ F x₀ u k) * z k).re / err k ^ 2 + ∑ i, u i * g i / σ i := by
  rw [PiLp.inner_apply, Fintype.sum_sum_type]
  congr 1
  · refine Finset.sum_congr rfl fun k _ => ?_
    rw [(unitless_fderiv hF u).1, Complex.inner]
    simp only [Sum.elim_inl, map_div₀, Complex.conj_ofReal]
    rw [div_mul_div_comm, ← Complex.ofReal_mul, Complex.div_ofReal_re, pow_two, mul_comm (z k)]
  · refine Finset.sum_congr rfl fun i _ => ?_
    rw [(unitless_fderiv hF u).2, Complex.inner]
    simp only [Sum.elim_inr, map_div₀, Complex.conj_ofReal]
    rw [← Complex.ofReal_div, ← Complex.ofReal_mul, Complex.ofReal_re]
    ring

theorem inner_info (hF : ContDiffAt ℝ 2 F x₀) (j l : Fin d) :
    (gram err (fun j => fderiv ℝ F x₀ (Pi.single j 1)) + priorInfo σ) j l =
      ⟪fderiv ℝ (unitless F err σ) x₀ (Pi.single j 1), fderiv ℝ (unitless F err σ) x₀ (Pi.single l 1)⟫ := by
  have : fderiv ℝ (unitless F err σ) x₀ (Pi.single l 1) = WithLp.toLp 2 (Sum.elim (fun k => fderiv ℝ F x₀ (Pi.single l 1) k / err k)
      fun i => (((Pi.single l 1 : Fin d → ℝ) i / σ i : ℝ) : ℂ)) := by
    ext (k | i)
    · rw [(unitless_fderiv hF _).1]; simp
    · rw [(unitless_fderiv hF _).2]; simp
  rw [this, inner_unitless hF, Matrix.add_apply]
  congr 1
  rw [Finset.sum_eq_single j]
  · unfold priorInfo
    by_cases h : j = l
    · subst h
      by_cases h0 : σ j = 0
      · simp [h0]
      · simp [h0]; field_simp
    · simp [h]
  · intro i _ hi; simp [hi]
  · simp

theorem info_det (hF : ContDiffAt ℝ 2 F x₀)
    (hinj : ∀ u, (∀ k, err k ≠ 0 → fderiv ℝ F x₀ u k = 0) → (∀ i, σ i ≠ 0 → u i = 0) → u = 0) :
    (∀ u, fderiv ℝ (unitless F err σ) x₀ u = 0 → u = 0) ∧
      (gram err (fun j => fderiv ℝ F x₀ (Pi.single j 1)) + priorInfo σ).PosDef := by
  have h1 : ∀ u, fderiv ℝ (unitless F err σ) x₀ u = 0 → u = 0 := by
    intro u hu
    refine hinj u (fun k hk => ?_) fun i hi => ?_
    · have h1 := congrArg (fun z : PiLp 2 fun _ : ZMod n ⊕ Fin d => ℂ => z (Sum.inl k)) hu
      simp only [(unitless_fderiv hF u).1] at h1
      have h2 : ((err k : ℝ) : ℂ) ≠ 0 := by exact_mod_cast hk
      have h3 : fderiv ℝ F x₀ u k / err k = 0 := h1
      rw [div_eq_zero_iff] at h3
      exact h3.resolve_right h2
    · have h1 := congrArg (fun z : PiLp 2 fun _ : ZMod n ⊕ Fin d => ℂ => z (Sum.inr i)) hu
      simp only [(unitless_fderiv hF u).2] at h1
      have h2 : ((σ i : ℝ) : ℂ) ≠ 0 := by exact_mod_cast hi
      have h3 : (u i : ℂ) / σ i = 0 := h1
      rw [div_eq_zero_iff] at h3
      exact_mod_cast h3.resolve_right h2
  refine ⟨h1, Matrix.PosDef.of_dotProduct_mulVec_pos (Matrix.IsHermitian.ext fun i j => ?_) fun u hu => ?_⟩
  · rw [inner_info hF, inner_info hF, real_inner_comm]; simp
  · have h2 : star u ⬝ᵥ (gram err (fun j => fderiv ℝ F x₀ (Pi.single j 1)) + priorInfo σ).mulVec u =
        ⟪fderiv ℝ (unitless F err σ) x₀ u, fderiv ℝ (unitless F err σ) x₀ u⟫ := by
      rw [lin_single (fderiv ℝ (unitless F err σ) x₀) u, sum_inner]
      simp only [dotProduct, Matrix.mulVec, star_trivial]
      refine Finset.sum_congr rfl fun i _ => ?_
      rw [inner_smul_left, inner_sum]
      simp only [inner_smul_right, inner_info hF, conj_trivial]
      congr 1
      exact Finset.sum_congr rfl fun j _ => mul_comm _ _
    rw [h2]
    have h3 : fderiv ℝ (unitless F err σ) x₀ u ≠ 0 := fun h => hu (h1 u h)
    exact real_inner_self_pos.2 h3

/-- The slopes of the cost of the data: combinations of the noise, with covariances which are twice the information. -/
theorem data_gradient (hF : ContDiffAt ℝ 1 F x₀) (heven : ∀ k, err (-k) = err k)
    (hherm : ∀ k, err k ≠ 0 → ∀ᶠ v in 𝓝 x₀, F v (-k) = starRingEnd ℂ (F v k)) {b : ZMod n → ℂ}
    (hb : ∀ k, err k ≠ 0 → b k ≠ 0 ∧ b (-k) = starRingEnd ℂ (b k)) {Ω : Type*} [MeasurableSpace Ω] {μ : Measure Ω}
    [IsProbabilityMeasure μ] {noise : Ω → ZMod n → ℝ} {R : ZMod n → ℝ} (hst : OF.Stationary μ noise R)
    (hS : ∀ k, err k ≠ 0 → n * (fftR R k).re = 2 * (err k ^ 2 * ‖b k‖ ^ 2)) :
    ∃ h : Fin d → ZMod n → ℝ, (∀ j z, ∑ m, h j m * z m =
        ∑ k, (starRingEnd ℂ (fderiv ℝ F x₀ (Pi.single j 1) k) * (fftR z k / b k)).re / err k ^ 2) ∧
      ∀ i j, ∫ ω, (∑ m, h i m * noise ω m) * (∑ m, h j m * noise ω m) ∂μ =
        2 * gram err (fun j => fderiv ℝ F x₀ (Pi.single j 1)) i j := by
  have hn : (0 : ℝ) < n := by exact_mod_cast NeZero.pos n
  set c : Fin d → ZMod n → ℂ := fun j => fderiv ℝ F x₀ (Pi.single j 1) with hc
  set err1 : ZMod n → ℝ := fun k => if err k = 0 then 1 else err k with herr1
  have he1 : ∀ k, err k ≠ 0 → err1 k = err k := fun k hk => if_neg hk
  have he1p : ∀ k, err1 k ≠ 0 := fun k => by
    rw [herr1]; simp only; split_ifs with h
    · exact one_ne_zero
    · exact h
  set c' : Fin d → ZMod n → ℂ := fun j k => if err k = 0 then 0 else c j k / starRingEnd ℂ (b k) with hc'
  have hherm' : ∀ j k, c' j (-k) = starRingEnd ℂ (c' j k) := by
    intro j k
    simp only [hc', heven]
    split_ifs with h
    · simp
    · rw [(hb k h).2, map_div₀, hc]
      simp only
      rw [fderiv_herm_at hF (hherm k h)]
  have hfs : Real.sqrt (1 / (n : ℝ) * n) = 1 := by rw [one_div, inv_mul_cancel₀ hn.ne', Real.sqrt_one]
  choose h hh hx using fun j => filter_of (fs := 1 / (n : ℝ)) (err := fun k => |err1 k|) (fun k => by rw [herr1]; simp only [heven]) (hherm' j)
  refine ⟨h, fun j z => ?_, fun i j => ?_⟩
  · rw [hx]
    refine Finset.sum_congr rfl fun k _ => ?_
    simp only [hfs, Complex.ofReal_one, div_one, sq_abs]
    by_cases hk : err k = 0
    · simp [hc', hk]
    · rw [he1 k hk, hc']
      simp only [if_neg hk]
      rw [map_div₀, Complex.conj_conj]
      congr 2
      ring
  · have h1 : ∫ ω, (∑ m, h i m * noise ω m) * (∑ m, h j m * noise ω m) ∂μ = _ := cov_of hst (fs := 1 / (n : ℝ)) (by positivity)
      (err := fun k => |err1 k|) (fun k => abs_pos.2 (he1p k)) (hh i) (hh j) fun k => (psd_even hst k).2
    rw [h1]
    unfold gram
    rw [Finset.mul_sum]
    refine Finset.sum_congr rfl fun k _ => ?_
    by_cases hk : err k = 0
    · simp [hc', hk]
    · have hbk := (hb k hk).1
      simp only [hc', if_neg hk]
      rw [sq_abs, he1 k hk, map_div₀, Complex.conj_conj]
      generalize starRingEnd ℂ (c i k) = q1
      generalize c j k = q2
      rw [div_mul_div_comm q1 (b k) q2, Complex.mul_conj, Complex.normSq_eq_norm_sq, Complex.div_ofReal_re]
      generalize (q1 * q2).re = q
      have hb0 : ‖b k‖ ≠ 0 := norm_ne_zero_iff.2 hbk
      have h2 := hS k hk
      have h3 : (fftR R k).re = 2 * (err k ^ 2 * ‖b k‖ ^ 2) / n := by rw [← h2]; field_simp
      rw [h3]
      field_simp

/-- The cost of a fit with priors, halves of the squared distances of the data to the model and of the parameters to the priors. -/
noncomputable def costOf (F : (Fin d → ℝ) → ZMod n → ℂ) (x₀ : Fin d → ℝ) (err errT : ZMod n → ℝ) (σ : Fin d → ℝ) (X Z : ZMod n → ℂ)
    (g : Fin d → ℝ) (s : ℝ) (v : Fin d → ℝ) : ℝ :=
  (∑ k, ‖F x₀ k + s * X k - F v k‖ ^ 2 / (s * err k) ^ 2 + ∑ k, ‖Z k - F v k‖ ^ 2 / errT k ^ 2 +
    ∑ i, if σ i = 0 then 0 else ((x₀ i + s * (σ i * g i) - v i) / (s * σ i)) ^ 2) / 2

/-- The noise and the errors of the priors in units of their standard deviations. -/
noncomputable def unitErr (err : ZMod n → ℝ) (σ : Fin d → ℝ) (X : ZMod n → ℂ) (g : Fin d → ℝ) : PiLp 2 fun _ : ZMod n ⊕ Fin d => ℂ :=
  WithLp.toLp 2 (Sum.elim (fun k => X k / err k) fun i => ((if σ i = 0 then 0 else g i : ℝ) : ℂ))

theorem cost_unitless {X Z : ZMod n → ℂ} {g : Fin d → ℝ} {s : ℝ} (hs : 0 < s) : costOf F x₀ err errT σ X Z g s = fun v => (2 * s ^ 2)⁻¹ *
    (‖unitless F err σ x₀ + s • unitErr err σ X g - unitless F err σ v‖ ^ 2 + s ^ 2 * ∑ k, ‖Z k - F v k‖ ^ 2 / errT k ^ 2) := by
  funext v
  have h1 : ‖unitless F err σ x₀ + s • unitErr err σ X g - unitless F err σ v‖ ^ 2 =
      s ^ 2 * (∑ k, ‖F x₀ k + s * X k - F v k‖ ^ 2 / (s * err k) ^ 2 +
        ∑ i, if σ i = 0 then 0 else ((x₀ i + s * (σ i * g i) - v i) / (s * σ i)) ^ 2) := by
    rw [PiLp.norm_sq_eq_of_L2, Fintype.sum_sum_type, mul_add, Finset.mul_sum, Finset.mul_sum]
    congr 1
    · refine Finset.sum_congr rfl fun k _ => ?_
      have hz : (unitless F err σ x₀ + s • unitErr err σ X g - unitless F err σ v) (Sum.inl k) = (F x₀ k + s * X k - F v k) / err k := by
        simp only [unitless, unitErr, PiLp.sub_apply, PiLp.add_apply, PiLp.smul_apply, Complex.real_smul, Sum.elim_inl]
        ring
      rw [hz, norm_div, div_pow, Complex.norm_real, Real.norm_eq_abs, sq_abs, mul_pow]
      by_cases hk : err k = 0
      · simp [hk]
      · field_simp
    · refine Finset.sum_congr rfl fun i _ => ?_
      have hz : (unitless F err σ x₀ + s • unitErr err σ X g - unitless F err σ v) (Sum.inr i) =
          ((x₀ i / σ i + s * (if σ i = 0 then 0 else g i) - v i / σ i : ℝ) : ℂ) := by
        simp only [unitless, unitErr, PiLp.sub_apply, PiLp.add_apply, PiLp.smul_apply, Complex.real_smul, Sum.elim_inr]
        push_cast
        rfl
      rw [hz, Complex.norm_real, Real.norm_eq_abs, sq_abs]
      by_cases hk : σ i = 0
      · simp [hk]
      · simp only [if_neg hk]
        field_simp
  rw [h1]
  unfold costOf
  field_simp
  ring

theorem rest_contDiff (hF : ContDiffAt ℝ 2 F x₀) (Z : ZMod n → ℂ) :
    ContDiffAt ℝ 2 (fun v => ∑ k, ‖Z k - F v k‖ ^ 2 / errT k ^ 2) x₀ := by
  refine ContDiffAt.sum fun k _ => ?_
  exact ((contDiffAt_const.sub ((contDiffAt_pi.1 hF) k)).norm_sq ℝ).div_const _

theorem cost_contDiff (hF : ContDiffAt ℝ 2 F x₀) {v₀ : Fin d → ℝ} {X Z : ZMod n → ℂ} {g : Fin d → ℝ} {s : ℝ} (hs : 0 < s) :
    ContDiffAt ℝ 2 (costOf F v₀ err errT σ X Z g s) x₀ := by
  rw [cost_unitless hs]
  exact contDiffAt_const.mul (((contDiffAt_const.sub (unitless_contDiff hF)).norm_sq ℝ).add (contDiffAt_const.mul (rest_contDiff hF Z)))

theorem gram_psd (c : Fin d → ZMod n → ℂ) : (gram err c).PosSemidef := by
  refine Matrix.PosSemidef.of_dotProduct_mulVec_nonneg (Matrix.IsHermitian.ext fun i j => ?_) fun u => ?_
  · rw [gram_symm]; simp
  · have h1 : star u ⬝ᵥ (gram err c).mulVec u = ∑ i, ∑ j, u i * u j * gram err c i j := by
      simp only [dotProduct, Matrix.mulVec, star_trivial, Finset.mul_sum]
      exact Finset.sum_congr rfl fun i _ => Finset.sum_congr rfl fun j _ => by ring
    rw [h1, gram_quad]
    refine Finset.sum_nonneg fun k _ => div_nonneg ?_ (sq_nonneg _)
    rw [mul_comm, Complex.mul_conj, Complex.ofReal_re]
    exact Complex.normSq_nonneg _

/-- Covariances of combinations. -/
theorem cov_comb {Ω : Type*} [MeasurableSpace Ω] {μ : Measure Ω} [IsProbabilityMeasure μ] {t : Fin d → Ω → ℝ}
    (ht : ∀ a, MemLp (t a) 2 μ) (C : Matrix (Fin d) (Fin d) ℝ) {T : Matrix (Fin d) (Fin d) ℝ} (hT : ∀ a b, ∫ ω, t a ω * t b ω ∂μ = T a b)
    (i j : Fin d) : ∫ ω, (∑ a, C i a * t a ω) * (∑ b, C j b * t b ω) ∂μ = (C * T * C.transpose) i j := by
  have h1 : ∀ ω, (∑ a, C i a * t a ω) * (∑ b, C j b * t b ω) = ∑ a, ∑ b, C i a * C j b * (t a ω * t b ω) := by
    intro ω
    rw [Finset.sum_mul_sum]
    exact Finset.sum_congr rfl fun a _ => Finset.sum_congr rfl fun b _ => by ring
  simp only [h1]
  have hi : ∀ a b, Integrable (fun ω => C i a * C j b * (t a ω * t b ω)) μ := fun a b =>
    ((ht a).integrable_mul (ht b)).const_mul _
  rw [integral_finsetSum _ fun a _ => integrable_finsetSum _ fun b _ => hi a b]
  simp only [integral_finsetSum _ fun b _ => hi _ b, integral_const_mul, hT]
  rw [Matrix.mul_apply, Finset.sum_comm]
  refine Finset.sum_congr rfl fun b _ => ?_
  rw [Matrix.mul_apply, Matrix.transpose_apply, Finset.sum_mul]
  exact Finset.sum_congr rfl fun a _ => by ring

/-- Fits with priors which count every pair of bins twice. -/
theorem belief_core (hF : ContDiffAt ℝ 2 F x₀) (heven : ∀ k, err (-k) = err k)
    (hherm : ∀ k, err k ≠ 0 → ∀ᶠ v in 𝓝 x₀, F v (-k) = starRingEnd ℂ (F v k))
    (hinj : ∀ u, (∀ k, err k ≠ 0 → fderiv ℝ F x₀ u k = 0) → (∀ i, σ i ≠ 0 → u i = 0) → u = 0) {b : ZMod n → ℂ}
    (hb : ∀ k, err k ≠ 0 → b k ≠ 0 ∧ b (-k) = starRingEnd ℂ (b k)) {Ω : Type*} [MeasurableSpace Ω] {μ : Measure Ω}
    [IsProbabilityMeasure μ] {noise : Ω → ZMod n → ℝ} {R : ZMod n → ℝ} (hst : OF.Stationary μ noise R)
    (hS : ∀ k, err k ≠ 0 → n * (fftR R k).re = 2 * (err k ^ 2 * ‖b k‖ ^ 2)) {g : Ω → Fin d → ℝ} (hg : FairPriors μ noise σ g)
    {x : Ω → ℝ → List ℝ} {cov : Ω → ℝ → ℕ → ℕ → ℝ}
    (hr : ∀ ω, ∃ (y : ℝ → Fin d → ℝ) (Z : ZMod n → ℂ), Tendsto y (𝓝[>] 0) (𝓝 x₀) ∧ ∀ᶠ s in 𝓝[>] 0, x ω s = List.ofFn (y s) ∧
      IsLocalMin (costOf F x₀ err errT σ (fun k => fftR (noise ω) k / b k) Z (g ω) s) (y s) ∧
      ∀ i j : Fin d, cov ω s i j = (Matrix.of fun i j => fderiv ℝ (fun v => fderiv ℝ
        (costOf F x₀ err errT σ (fun k => fftR (noise ω) k / b k) Z (g ω) s) v (Pi.single j 1)) (y s) (Pi.single i 1))⁻¹ i j) :
    ∃ (D : Ω → Fin d → ℝ) (C G : Matrix (Fin d) (Fin d) ℝ),
      (∀ ω (i : Fin d), Tendsto (fun s => ((x ω s).getD i 0 - x₀ i) / s) (𝓝[>] 0) (𝓝 (D ω i))) ∧
      (∀ ω (i j : Fin d), Tendsto (fun s => cov ω s i j / s ^ 2) (𝓝[>] 0) (𝓝 (C i j))) ∧ G.PosSemidef ∧ C * (G + priorInfo σ) = 1 ∧
      (∀ i, MemLp (fun ω => D ω i) 2 μ) ∧ (∀ i, ∫ ω, D ω i ∂μ = 0) ∧
      (∀ i j, ∫ ω, D ω i * D ω j ∂μ = (C * (2 • G + priorInfo σ) * C) i j) ∧
      (∀ i, 0 < C i i ∧ C i i ≤ ∫ ω, D ω i ^ 2 ∂μ) ∧ ∀ i, σ i = 0 → C i i < ∫ ω, D ω i ^ 2 ∂μ := by
  have hF1 : ContDiffAt ℝ 1 F x₀ := hF.of_le (by norm_num)
  set c : Fin d → ZMod n → ℂ := fun j => fderiv ℝ F x₀ (Pi.single j 1) with hc
  set G := gram err c with hG
  obtain ⟨hinj', hpd⟩ := info_det (σ := σ) hF hinj
  rw [← hc, ← hG] at hpd
  set A := G + priorInfo σ with hA
  have hunit : IsUnit A.det := hpd.isUnit.map Matrix.detMonoidHom
  have hdet : A.det ≠ 0 := hunit.ne_zero
  set C := A⁻¹ with hC
  have hCA : C * A = 1 := Matrix.nonsing_inv_mul _ hunit
  have hAC : A * C = 1 := Matrix.mul_nonsing_inv _ hunit
  have hGp : G.PosSemidef := gram_psd c
  have hAs : A.transpose = A := by simpa using hpd.isHermitian.eq
  have hCs : C.transpose = C := by rw [hC, Matrix.transpose_nonsing_inv, hAs]
  obtain ⟨h, hh, hcov⟩ := data_gradient hF1 heven hherm hb hst hS
  set q : Fin d → Ω → ℝ := fun j ω => ∑ m, h j m * noise ω m with hq
  set p : Fin d → Ω → ℝ := fun j ω => if σ j = 0 then 0 else g ω j / σ j with hp
  have hqL : ∀ j, MemLp (q j) 2 μ := fun j => memLp_finsetSum _ fun m _ => (hst.sq_int m).const_mul _
  have hpL : ∀ j, MemLp (p j) 2 μ := by
    intro j
    simp only [hp]
    split_ifs with h0
    · exact MemLp.zero
    · simp only [div_eq_mul_inv]
      exact (hg.sq j h0).mul_const _
  have hqp : ∀ i j, ∫ ω, q i ω * p j ω ∂μ = 0 := by
    intro i j
    simp only [hp, hq]
    split_ifs with h0
    · simp
    · have e : ∀ ω, (∑ m, h i m * noise ω m) * (g ω j / σ j) = ∑ m, h i m / σ j * (noise ω m * g ω j) := fun ω => by
        rw [Finset.sum_mul]
        exact Finset.sum_congr rfl fun m _ => by ring
      simp only [e]
      have hi : ∀ m, Integrable (fun ω => h i m / σ j * (noise ω m * g ω j)) μ := fun m =>
        ((hst.sq_int m).integrable_mul (hg.sq j h0)).const_mul _
      rw [integral_finsetSum _ fun m _ => hi m]
      simp only [integral_const_mul, hg.cross j _ h0, mul_zero, Finset.sum_const_zero]
  have hpp : ∀ i j, ∫ ω, p i ω * p j ω ∂μ = priorInfo σ i j := by
    intro i j
    simp only [hp, priorInfo, Matrix.diagonal_apply]
    by_cases h0 : σ i = 0
    · simp [h0]
    · by_cases h1 : σ j = 0
      · have : i ≠ j := fun h => h0 (by rw [h, h1])
        simp [h1, this]
      · simp only [if_neg h0, if_neg h1]
        have e : ∀ ω, g ω i / σ i * (g ω j / σ j) = (σ i * σ j)⁻¹ * (g ω i * g ω j) := fun ω => by field_simp
        simp only [e, integral_const_mul, hg.cov i j h0 h1]
        split_ifs with h2
        · subst h2; field_simp
        · simp
  set t : Fin d → Ω → ℝ := fun j ω => q j ω + p j ω with ht
  have htL : ∀ j, MemLp (t j) 2 μ := fun j => (hqL j).add (hpL j)
  have htt : ∀ i j, ∫ ω, t i ω * t j ω ∂μ = (2 • G + priorInfo σ) i j := by
    intro i j
    have e : ∀ ω, t i ω * t j ω = (q i ω * q j ω + q i ω * p j ω) + (q j ω * p i ω + p i ω * p j ω) := fun ω => by
      simp only [ht]; ring
    simp only [e]
    have i1 : Integrable (fun ω => q i ω * q j ω) μ := (hqL i).integrable_mul (hqL j)
    have i2 : Integrable (fun ω => q i ω * p j ω) μ := (hqL i).integrable_mul (hpL j)
    have i3 : Integrable (fun ω => q j ω * p i ω) μ := (hqL j).integrable_mul (hpL i)
    have i4 : Integrable (fun ω => p i ω * p j ω) μ := (hpL i).integrable_mul (hpL j)
    have i5 : Integrable (fun ω => q i ω * q j ω + q i ω * p j ω) μ := i1.add i2
    have i6 : Integrable (fun ω => q j ω * p i ω + p i ω * p j ω) μ := i3.add i4
    rw [integral_add i5 i6, integral_add i1 i2, integral_add i3 i4, hqp, hqp, hpp, hcov]
    simp [hG, hc, two_mul, Matrix.add_apply, two_smul]
  have ht0 : ∀ j, ∫ ω, t j ω ∂μ = 0 := by
    intro j
    have : ∫ ω, p j ω ∂μ = 0 := by
      simp only [hp]
      split_ifs with h0
      · simp
      · simp only [div_eq_mul_inv, integral_mul_const, hg.mean j h0, zero_mul]
    simp only [ht]
    rw [integral_add ((hqL j).integrable one_le_two) ((hpL j).integrable one_le_two), this, add_zero]
    exact hst.lin (h j)
  have hinner : ∀ ω j, ⟪fderiv ℝ (unitless F err σ) x₀ (Pi.single j 1),
      unitErr err σ (fun k => fftR (noise ω) k / b k) (g ω)⟫ = t j ω := by
    intro ω j
    unfold unitErr
    rw [inner_unitless hF, ← hh j (noise ω), Finset.sum_eq_single j]
    · simp only [ht, hq, hp, Pi.single_eq_same, one_mul]
      split_ifs <;> simp
    · intro i _ hi; simp [hi]
    · simp
  set D : Ω → Fin d → ℝ := fun ω i => ∑ a, C i a * t a ω with hD
  have hDL : ∀ i, MemLp (fun ω => D ω i) 2 μ := fun i => memLp_finsetSum _ fun a _ => (htL a).const_mul _
  have hDD : ∀ i j, ∫ ω, D ω i * D ω j ∂μ = (C * (2 • G + priorInfo σ) * C) i j := by
    intro i j
    have := cov_comb htL C htt i j
    rw [hCs] at this
    exact this
  have hsplit : C * (2 • G + priorInfo σ) * C = C + C * G * C := by
    have : 2 • G + priorInfo σ = A + G := by rw [hA, two_smul]; abel
    rw [this, Matrix.mul_add, hCA, Matrix.add_mul, Matrix.one_mul]
  have hquad : ∀ i, (C * G * C) i i = star (C i) ⬝ᵥ G.mulVec (C i) := by
    intro i
    rw [Matrix.mul_apply]
    simp only [dotProduct, Matrix.mulVec, star_trivial]
    have : ∀ j, C j i = C i j := fun j => congrFun (congrFun hCs i) j
    simp only [Matrix.mul_apply, Finset.sum_mul, Finset.mul_sum, this]
    rw [Finset.sum_comm]
    exact Finset.sum_congr rfl fun a _ => Finset.sum_congr rfl fun b _ => by ring
  have hvar : ∀ i, ∫ ω, D ω i ^ 2 ∂μ = C i i + star (C i) ⬝ᵥ G.mulVec (C i) := by
    intro i
    simp only [pow_two]
    rw [hDD, hsplit, Matrix.add_apply, hquad]
  refine ⟨D, C, G, ?_, ?_, hGp, hCA, hDL, ?_, hDD, ?_, ?_⟩
  · intro ω i
    obtain ⟨y, Z, hy, hev⟩ := hr ω
    have hlim := (belief_limits (unitless_contDiff hF) hinj' (rest_contDiff (errT := errT) hF Z) hy
      (e := unitErr err σ (fun k => fftR (noise ω) k / b k) (g ω)) (fun i j => inner_info hF i j) hdet).2.1 (by
        filter_upwards [hev, self_mem_nhdsWithin] with s hs hs0
        have hs0 : 0 < s := hs0
        have hm := hs.2.1
        rw [cost_unitless hs0] at hm
        filter_upwards [hm] with v hv
        exact le_of_mul_le_mul_left hv (by positivity))
    simp only [hinner] at hlim
    have hi := (tendsto_pi_nhds.1 hlim) i
    refine hi.congr' ?_
    filter_upwards [hev] with s hs
    rw [hs.1]
    simp [div_eq_inv_mul]
  · intro ω i j
    obtain ⟨y, Z, hy, hev⟩ := hr ω
    have hlim := (belief_limits (unitless_contDiff hF) hinj' (rest_contDiff (errT := errT) hF Z) hy
      (e := unitErr err σ (fun k => fftR (noise ω) k / b k) (g ω)) (fun i j => inner_info hF i j) hdet).2.2
    refine (tendsto_pi_nhds.1 (tendsto_pi_nhds.1 hlim i) j).congr' ?_
    filter_upwards [hev, self_mem_nhdsWithin] with s hs hs0
    have hs0 : 0 < s := hs0
    rw [hs.2.2, cost_unitless hs0, Matrix.smul_apply, smul_eq_mul, div_eq_inv_mul]
  · intro i
    simp only [hD]
    rw [integral_finsetSum _ fun a _ => ((htL a).integrable one_le_two).const_mul _]
    simp only [integral_const_mul, ht0, mul_zero, Finset.sum_const_zero]
  · intro i
    refine ⟨hpd.inv.diag_pos, ?_⟩
    rw [hvar]
    linarith [hGp.dotProduct_mulVec_nonneg (C i)]
  · intro i hi
    rw [hvar]
    have h0 := hGp.dotProduct_mulVec_nonneg (C i)
    rcases h0.lt_or_eq with h1 | h1
    · linarith
    · exfalso
      have h2 := (hGp.dotProduct_mulVec_zero_iff (C i)).1 h1.symm
      have h3 := congrFun (congrFun hAC i) i
      rw [hA, Matrix.add_mul, Matrix.add_apply] at h3
      have : ∀ j, C j i = C i j := fun j => congrFun (congrFun hCs i) j
      have h4 : (G * C) i i = 0 := by
        have := congrFun h2 i
        rw [Matrix.mul_apply]
        simpa [Matrix.mulVec, dotProduct, ‹∀ j, C j i = C i j›] using this
      have h5 : (priorInfo σ * C) i i = 0 := by
        unfold priorInfo
        rw [Matrix.diagonal_mul]
        simp [hi]
      rw [h4, h5] at h3
      simp at h3

end core

end Verif.Device
