import Verif.OFLawSpec
import Verif.OFSpreadLemmas
import Mathlib.Probability.Distributions.Gaussian.Multivariate

/-! Auxiliary lemmas of property C144: orthonormal combinations of normal draws. -/

namespace Verif.OF
open Verif Verif.Dft MeasureTheory ProbabilityTheory

variable {n : ℕ} [NeZero n]

/-- Orthonormal combinations of independent standard normal draws are again independent and standard normal. -/
theorem lin_law {ι : Type*} [Fintype ι] [DecidableEq ι] (b : ι → ZMod n → ℝ)
    (hb : ∀ i i', ∑ j, b i j * b i' j = if i = i' then 1 else 0) :
    (normalDraws n).map (fun ω i => lin (b i) ω) = Measure.pi fun _ : ι => gaussianReal 0 1 := by
  have hmeas : Measurable fun (ω : ZMod n → ℝ) (i : ι) => lin (b i) ω := by
    unfold lin
    fun_prop
  have : IsProbabilityMeasure ((normalDraws n).map fun ω i => lin (b i) ω) :=
    Measure.isProbabilityMeasure_map hmeas.aemeasurable
  refine charFun_eq_pi_iff.1 fun t => ?_
  have hlp : Measurable (WithLp.toLp 2 : (ι → ℝ) → PiLp 2 fun _ : ι => ℝ) := by fun_prop
  rw [Measure.map_map hlp hmeas, charFun_apply, integral_map (hlp.comp hmeas).aemeasurable (by fun_prop)]
  have h1 := congrFun (congrArg charFun (map_pi_eq_stdGaussian (ι := ZMod n))) (WithLp.toLp 2 fun j => ∑ i, t i * b i j)
  rw [charFun_stdGaussian, charFun_apply, integral_map (by fun_prop) (by fun_prop)] at h1
  have e : ∀ ω : ZMod n → ℝ, inner ℝ (((WithLp.toLp 2) ∘ fun ω i => lin (b i) ω) ω) t =
      inner ℝ (WithLp.toLp 2 ω) (WithLp.toLp 2 fun j => ∑ i, t i * b i j : EuclideanSpace ℝ (ZMod n)) := by
    intro ω
    simp only [PiLp.inner_apply, Function.comp, lin, RCLike.inner_apply, conj_trivial, Finset.mul_sum, Finset.sum_mul]
    rw [Finset.sum_comm]
    exact Finset.sum_congr rfl fun i _ => Finset.sum_congr rfl fun j _ => by ring
  simp only [e]
  refine h1.trans ?_
  simp only [charFun_gaussianReal]
  rw [← Complex.exp_sum]
  congr 1
  have hn : ‖(WithLp.toLp 2 fun j => ∑ i, t i * b i j : EuclideanSpace ℝ (ZMod n))‖ ^ 2 = ∑ i, t i ^ 2 := by
    rw [EuclideanSpace.real_norm_sq_eq]
    simp only [pow_two, Finset.sum_mul_sum]
    rw [Finset.sum_comm]
    refine Finset.sum_congr rfl fun i _ => ?_
    rw [Finset.sum_comm, Finset.sum_eq_single i]
    · have := hb i i
      rw [if_pos rfl] at this
      calc ∑ j, t i * b i j * (t i * b i j) = t i * t i * ∑ j, b i j * b i j := by
            rw [Finset.mul_sum]
            exact Finset.sum_congr rfl fun j _ => by ring
        _ = t i * t i := by rw [this, mul_one]
    · intro i' _ hi
      have := hb i i'
      rw [if_neg hi.symm] at this
      calc ∑ j, t i * b i j * (t i' * b i' j) = t i * t i' * ∑ j, b i j * b i' j := by
            rw [Finset.mul_sum]
            exact Finset.sum_congr rfl fun j _ => by ring
        _ = 0 := by rw [this, mul_zero]
    · simp
  rw [← Complex.ofReal_pow, hn, Complex.ofReal_sum, ← Finset.sum_neg_distrib, Finset.sum_div]
  refine Finset.sum_congr rfl fun i _ => ?_
  push_cast
  ring

/-- A symmetric idempotent map is the sum of the squares of orthonormal combinations. -/
theorem idem_basis (L : (ZMod n → ℝ) →ₗ[ℝ] (ZMod n → ℝ)) (hs : ∀ x y, ∑ j, L x j * y j = ∑ j, x j * L y j)
    (hi : ∀ x, L (L x) = L x) :
    ∃ d : ℕ, ∃ b : Fin d → ZMod n → ℝ, (∀ i i', ∑ j, b i j * b i' j = if i = i' then 1 else 0) ∧
      (∀ i, L (b i) = b i) ∧ ∀ x, ∑ j, L x j * x j = ∑ i, lin (b i) x ^ 2 := by
  let E := EuclideanSpace ℝ (ZMod n)
  let eq := WithLp.linearEquiv 2 ℝ (ZMod n → ℝ)
  let M : E →ₗ[ℝ] E := eq.symm.toLinearMap ∘ₗ L ∘ₗ eq.toLinearMap
  let V : Submodule ℝ E := LinearMap.range M
  let o := stdOrthonormalBasis ℝ V
  have hM : ∀ x : E, M x = WithLp.toLp 2 (L x.ofLp) := fun x => rfl
  have hin : ∀ x y : E, inner ℝ x y = ∑ j, x.ofLp j * y.ofLp j := fun x y => by
    rw [PiLp.inner_apply]
    exact Finset.sum_congr rfl fun j _ => by simp [mul_comm]
  have hfix : ∀ v : V, L (v : E).ofLp = (v : E).ofLp := by
    rintro ⟨v, hv⟩
    obtain ⟨x, hx⟩ := hv
    show L v.ofLp = v.ofLp
    rw [← hx, hM]
    exact hi _
  refine ⟨_, fun i => (o i : E).ofLp, fun i i' => ?_, fun i => hfix (o i), fun x => ?_⟩
  · have := orthonormal_iff_ite.1 o.orthonormal i i'
    rw [Submodule.coe_inner, hin] at this
    exact this
  · let v : V := ⟨M (WithLp.toLp 2 x), ⟨_, rfl⟩⟩
    have h1 := o.sum_sq_inner_right v
    have h2 : ∀ i, inner ℝ (o i) v = lin (o i : E).ofLp x := by
      intro i
      rw [Submodule.coe_inner, hin]
      show ∑ j, (o i : E).ofLp j * L x j = _
      rw [← hs, hfix]
      rfl
    simp only [h2] at h1
    rw [h1, Submodule.coe_norm, ← real_inner_self_eq_norm_sq, hin]
    show _ = ∑ j, L x j * L x j
    rw [← hs, hi]

theorem sumsq_measurable (d : ℕ) : Measurable fun x : Fin d → ℝ => ∑ i, x i ^ 2 := by fun_prop

instance (d : ℕ) : IsProbabilityMeasure (chiSquared d) :=
  Measure.isProbabilityMeasure_map (sumsq_measurable d).aemeasurable

theorem chiSquared_mean (d : ℕ) : ∫ x, x ∂(chiSquared d) = d := by
  unfold chiSquared
  rw [integral_map (sumsq_measurable d).aemeasurable (by fun_prop)]
  have h1 : ∀ i : Fin d, MeasurePreserving (Function.eval i) (Measure.pi fun _ : Fin d => gaussianReal 0 1) (gaussianReal 0 1) :=
    fun i => measurePreserving_eval _ i
  have h2 : Integrable (fun x : ℝ => x ^ 2) (gaussianReal 0 1) := by
    have := (memLp_id_gaussianReal (μ := 0) (v := 1) 2).integrable_sq
    simpa using this
  have h3 : ∫ x : ℝ, x ^ 2 ∂(gaussianReal 0 1) = 1 := by
    have := variance_of_integral_eq_zero (X := fun x : ℝ => x) (μ := gaussianReal 0 1) (by fun_prop) (by simp)
    rw [variance_fun_id_gaussianReal] at this
    rw [← this]
    simp
  have h5 : ∀ i : Fin d, Integrable (fun x : Fin d → ℝ => x i ^ 2) (Measure.pi fun _ : Fin d => gaussianReal 0 1) :=
    fun i => (h1 i).integrable_comp_of_integrable h2
  rw [integral_finsetSum _ fun i _ => h5 i]
  have h4 : ∀ i : Fin d, ∫ x : Fin d → ℝ, x i ^ 2 ∂(Measure.pi fun _ : Fin d => gaussianReal 0 1) = 1 := by
    intro i
    have h6 := h3
    rw [← (h1 i).map_eq, integral_map (h1 i).measurable.aemeasurable (by fun_prop)] at h6
    exact h6
  simp [h4]

/-- Bins of a symmetric set as a linear map. -/
theorem band (S : Finset (ZMod n)) (hS : ∀ k ∈ S, -k ∈ S) :
    ∃ L : (ZMod n → ℝ) →ₗ[ℝ] (ZMod n → ℝ), (∀ x y, ∑ j, L x j * y j = ∑ j, x j * L y j) ∧ (∀ x, L (L x) = L x) ∧
      (∀ x, ∑ j, L x j * x j = total S x) ∧ ∀ x, (∀ k, k ∉ S → fftR x k = 0) → L x = x := by
  classical
  have hn : (n : ℝ) ≠ 0 := Nat.cast_ne_zero.2 (NeZero.ne n)
  set p : ZMod n → ℝ := fun k => if k ∈ S then 1 else 0 with hp
  have hs : ∀ k, p (-k) = p k := by
    intro k
    have : -k ∈ S ↔ k ∈ S := ⟨fun h => by simpa using hS _ h, hS k⟩
    simp only [hp, this]
  have hf : ∀ x k, fftR (Noise.genNoise p 1 x) k = fftR x k * (p k : ℂ) := by
    intro x k
    rw [Noise.genNoise_fft p 1 _ hs]
    congr 2
    by_cases h : k ∈ S <;> simp [hp, h]
  have hpp : ∀ k, p k * p k = p k := fun k => by by_cases h : k ∈ S <;> simp [hp, h]
  refine ⟨⟨⟨fun x => Noise.genNoise p 1 x, fun x y => ?_⟩, fun c x => ?_⟩, fun x y => ?_, fun x => ?_, fun x => ?_, fun x hx => ?_⟩
  · refine fftR_injective fun k => ?_
    rw [show Noise.genNoise p 1 x + Noise.genNoise p 1 y = fun j => Noise.genNoise p 1 x j + Noise.genNoise p 1 y j from rfl,
      fftR_add, hf, hf, hf, show x + y = fun j => x j + y j from rfl, fftR_add]
    ring
  · refine fftR_injective fun k => ?_
    simp only [RingHom.id_apply]
    rw [show c • Noise.genNoise p 1 x = fun j => c * Noise.genNoise p 1 x j from rfl, fftR_smul, hf, hf,
      show c • x = fun j => c * x j from rfl, fftR_smul]
    ring
  · show ∑ j, Noise.genNoise p 1 x j * y j = ∑ j, x j * Noise.genNoise p 1 y j
    rw [genNoise_conv p 1 hs, genNoise_conv p 1 hs]
    simp only [Finset.mul_sum, Finset.sum_mul]
    rw [Finset.sum_comm]
    refine Finset.sum_congr rfl fun i _ => Finset.sum_congr rfl fun j _ => ?_
    rw [← impulse_even p 1 hs, neg_sub]
    ring
  · refine fftR_injective fun k => ?_
    show fftR (Noise.genNoise p 1 (Noise.genNoise p 1 x)) k = fftR (Noise.genNoise p 1 x) k
    rw [hf, hf, mul_assoc, ← Complex.ofReal_mul, hpp]
  · show ∑ j, Noise.genNoise p 1 x j * x j = total S x
    have h1 := congrArg Complex.re (parseval_mul (Noise.genNoise p 1 x) x)
    rw [← Complex.ofReal_natCast, Complex.re_mul_ofReal, Complex.ofReal_re, Complex.re_sum] at h1
    have h2 : ∀ k, (starRingEnd ℂ (fftR (Noise.genNoise p 1 x) k) * fftR x k).re = if k ∈ S then ‖fftR x k‖ ^ 2 else 0 := by
      intro k
      rw [hf, map_mul, Complex.conj_ofReal]
      by_cases h : k ∈ S
      · simp only [hp, h, if_true, Complex.ofReal_one, mul_one]
        rw [← Complex.normSq_eq_conj_mul_self, Complex.ofReal_re, Complex.normSq_eq_norm_sq]
      · simp [hp, h]
    simp only [h2] at h1
    rw [← Finset.sum_filter, Finset.filter_mem_eq_inter, Finset.univ_inter] at h1
    rw [total, ← Finset.sum_div, eq_div_iff hn, ← h1]
  · refine fftR_injective fun k => ?_
    show fftR (Noise.genNoise p 1 x) k = fftR x k
    rw [hf]
    by_cases h : k ∈ S
    · simp [hp, h]
    · simp [hp, h, hx k h]

/-- The joint law of orthonormal combinations and of the square which is left. -/
theorem idem_joint (L : (ZMod n → ℝ) →ₗ[ℝ] (ZMod n → ℝ)) (hs : ∀ x y, ∑ j, L x j * y j = ∑ j, x j * L y j)
    (hi : ∀ x, L (L x) = L x) {r : ℕ} (z : Fin r → ZMod n → ℝ)
    (hz : ∀ i i', ∑ j, z i j * z i' j = if i = i' then 1 else 0) (hLz : ∀ i, L (z i) = 0) {q : (ZMod n → ℝ) → ℝ}
    (hq : ∀ x, ∑ j, L x j * x j = q x) {D : ℕ} (hD : ∫ ω, q ω ∂(normalDraws n) = D) :
    (normalDraws n).map (fun ω => ((fun i => lin (z i) ω), q ω)) =
      (Measure.pi fun _ : Fin r => gaussianReal 0 1).prod (chiSquared D) := by
  obtain ⟨d, b, hb, hLb, hx⟩ := idem_basis L hs hi
  have hzb : ∀ i i', ∑ j, z i j * b i' j = 0 := by
    intro i i'
    rw [← hLb i', ← hs, hLz]
    simp
  let c : Fin r ⊕ Fin d → ZMod n → ℝ := Sum.elim z b
  have hc : ∀ i i', ∑ j, c i j * c i' j = if i = i' then 1 else 0 := by
    rintro (i | i) (i' | i')
    · simpa [c] using hz i i'
    · simpa [c] using hzb i i'
    · simp only [c, Sum.elim_inl, Sum.elim_inr, reduceCtorEq, if_false]
      simpa only [mul_comm] using hzb i' i
    · simpa [c] using hb i i'
  have hlaw := lin_law c hc
  have hmeas : Measurable fun (ω : ZMod n → ℝ) (i : Fin r ⊕ Fin d) => lin (c i) ω := by
    unfold lin
    fun_prop
  have hsplit := measurePreserving_sumPiEquivProdPi (ι := Fin r) (ι' := Fin d) (X := fun _ => ℝ) fun _ => gaussianReal 0 1
  have e : (fun ω : ZMod n → ℝ => ((fun i => lin (z i) ω), q ω)) =
      (Prod.map id fun x : Fin d → ℝ => ∑ i, x i ^ 2) ∘ (MeasurableEquiv.sumPiEquivProdPi fun _ => ℝ) ∘
        fun ω i => lin (c i) ω := by
    funext ω
    rw [← hq, hx]
    rfl
  have hjoint : (normalDraws n).map (fun ω => ((fun i => lin (z i) ω), q ω)) =
      (Measure.pi fun _ : Fin r => gaussianReal 0 1).prod (chiSquared d) := by
    rw [e, ← Measure.map_map (by fun_prop) ((MeasurableEquiv.measurable _).comp hmeas),
      ← Measure.map_map (MeasurableEquiv.measurable _) hmeas, hlaw, hsplit.map_eq, chiSquared,
      ← Measure.map_prod_map _ _ measurable_id (sumsq_measurable d), Measure.map_id]
  have hqm : Measurable q := by
    have : q = fun ω => ∑ i, lin (b i) ω ^ 2 := by
      funext ω
      rw [← hq, hx]
    rw [this]
    unfold lin
    fun_prop
  have hzm : Measurable fun (ω : ZMod n → ℝ) (i : Fin r) => lin (z i) ω := by
    unfold lin
    fun_prop
  have hsnd : (normalDraws n).map q = chiSquared d := by
    have := congrArg (Measure.map Prod.snd) hjoint
    rw [Measure.map_map measurable_snd (hzm.prodMk hqm), Measure.map_snd_prod, measure_univ, one_smul] at this
    exact this
  have hd : d = D := by
    have h1 := chiSquared_mean d
    rw [← hsnd, integral_map hqm.aemeasurable (by fun_prop), hD] at h1
    exact_mod_cast h1.symm
  rw [hjoint, hd]

/-- The law of the square alone. -/
theorem idem_law (L : (ZMod n → ℝ) →ₗ[ℝ] (ZMod n → ℝ)) (hs : ∀ x y, ∑ j, L x j * y j = ∑ j, x j * L y j)
    (hi : ∀ x, L (L x) = L x) {q : (ZMod n → ℝ) → ℝ} (hqm : Measurable q)
    (hq : ∀ x, ∑ j, L x j * x j = q x) {D : ℕ} (hD : ∫ ω, q ω ∂(normalDraws n) = D) :
    (normalDraws n).map q = chiSquared D := by
  have := congrArg (Measure.map Prod.snd)
    (idem_joint L hs hi (r := 0) (fun i => i.elim0) (fun i => i.elim0) (fun i => i.elim0) hq hD)
  rw [Measure.map_map measurable_snd (Measurable.prodMk (measurable_pi_iff.2 fun i => i.elim0) hqm), Measure.map_snd_prod,
    measure_univ, one_smul] at this
  exact this

theorem total_measurable (S : Finset (ZMod n)) : Measurable (total S) := by
  unfold total
  simp only [Noise.norm_sq_fftR]
  fun_prop

theorem total_law (S : Finset (ZMod n)) (hS : ∀ k ∈ S, -k ∈ S) : (normalDraws n).map (total S) = chiSquared S.card := by
  obtain ⟨L, h1, h2, h3, -⟩ := band S hS
  exact idem_law L h1 h2 (total_measurable S) h3 (total_mean S).2

/-- The joint law of one combination and of what it leaves. -/
theorem total_sub_law (S : Finset (ZMod n)) (hS : ∀ k ∈ S, -k ∈ S) (z : ZMod n → ℝ) (hz : ∑ j, z j ^ 2 = 1)
    (hzS : ∀ k, k ∉ S → fftR z k = 0) :
    (normalDraws n).map (fun ω => (lin z ω, total S ω - lin z ω ^ 2)) =
      (gaussianReal 0 1).prod (chiSquared (S.card - 1)) := by
  obtain ⟨L, h1, h2, h3, h4⟩ := band S hS
  have hLz := h4 z hzS
  have hS1 : 1 ≤ S.card := by
    rw [Nat.one_le_iff_ne_zero, Finset.card_ne_zero]
    by_contra h
    rw [Finset.not_nonempty_iff_eq_empty] at h
    have : z = fun _ => 0 := fftR_injective fun k => by
      rw [hzS k (by simp [h]), fftR_apply]
      simp
    rw [this] at hz
    simp at hz
  let M : (ZMod n → ℝ) →ₗ[ℝ] (ZMod n → ℝ) := L - (LinearMap.toSpanSingleton ℝ (ZMod n → ℝ) z) ∘ₗ
    { toFun := lin z
      map_add' := fun x y => by simp only [lin, Pi.add_apply, mul_add, Finset.sum_add_distrib]
      map_smul' := fun c x => by
        simp only [lin, Pi.smul_apply, smul_eq_mul, RingHom.id_apply, Finset.mul_sum]
        exact Finset.sum_congr rfl fun j _ => by ring }
  have hM : ∀ x j, M x j = L x j - lin z x * z j := fun x j => rfl
  have hzz : lin z z = 1 := by
    rw [← hz]
    exact Finset.sum_congr rfl fun j _ => by ring
  have hLin : ∀ x, lin z (L x) = lin z x := by
    intro x
    have := h1 z x
    rw [hLz] at this
    exact this.symm
  have hMz : M z = 0 := by
    funext j
    rw [hM, hLz, hzz, one_mul, sub_self]
    rfl
  have := idem_joint M (fun x y => ?_) (fun x => ?_) (r := 1) (fun _ => z) (fun i i' => ?_) (fun _ => hMz)
    (q := fun ω => total S ω - lin z ω ^ 2) (fun x => ?_) (D := S.card - 1) ?_
  · have hl : Measurable (lin z) := by
      unfold lin
      fun_prop
    have h6 : Measurable fun ω : ZMod n → ℝ => ((fun _ => lin z ω : Fin 1 → ℝ), total S ω - lin z ω ^ 2) :=
      Measurable.prodMk (measurable_pi_iff.2 fun _ => hl) ((total_measurable S).sub (hl.pow_const 2))
    have h5 := congrArg (Measure.map (Prod.map (Function.eval (0 : Fin 1)) (id : ℝ → ℝ))) this
    rw [Measure.map_map ((measurable_pi_apply 0).prodMap measurable_id) h6,
      ← Measure.map_prod_map _ _ (measurable_pi_apply 0) measurable_id, Measure.map_id, (measurePreserving_eval (fun _ : Fin 1 => gaussianReal 0 1) 0).map_eq] at h5
    exact h5
  · simp only [hM, sub_mul, mul_sub, Finset.sum_sub_distrib, h1]
    congr 1
    have e1 : ∑ j, lin z x * z j * y j = lin z x * lin z y := by
      simp only [mul_assoc, ← Finset.mul_sum]
      rfl
    have e2 : ∑ j, x j * (lin z y * z j) = lin z y * lin z x := by
      rw [lin, lin, Finset.mul_sum]
      exact Finset.sum_congr rfl fun j _ => by ring
    rw [e1, e2, mul_comm]
  · have e1 : M x = L x - lin z x • z := rfl
    have e2 : M (M x) = M (L x) - lin z x • M z := by
      conv_lhs => rw [e1]
      rw [map_sub, map_smul]
    rw [e2, hMz, smul_zero, sub_zero]
    funext j
    rw [hM, hM, h2, hLin]
  · rw [Subsingleton.elim i i', if_pos rfl, ← hz]
    exact Finset.sum_congr rfl fun j _ => by ring
  · simp only [hM, sub_mul, Finset.sum_sub_distrib, h3]
    congr 1
    simp only [mul_assoc, ← Finset.mul_sum]
    rw [pow_two]
    rfl
  · rw [(total_sub S hS z hz hzS).2.1, Nat.cast_sub hS1, Nat.cast_one]

theorem lin_measurable (z : ZMod n → ℝ) : Measurable (lin z) := by
  unfold lin
  fun_prop

/-- Any combination of the draws is normal. -/
theorem lin_gauss (a : ZMod n → ℝ) : (normalDraws n).map (lin a) = gaussianReal 0 (∑ j, a j ^ 2).toNNReal := by
  have : IsProbabilityMeasure ((normalDraws n).map (lin a)) :=
    Measure.isProbabilityMeasure_map (lin_measurable a).aemeasurable
  have h0 : 0 ≤ ∑ j, a j ^ 2 := Finset.sum_nonneg fun j _ => sq_nonneg _
  rcases h0.eq_or_lt with h | h
  · have ha : a = fun _ => 0 := by
      funext j
      have := (Finset.sum_eq_zero_iff_of_nonneg fun j _ => sq_nonneg _).1 h.symm j (Finset.mem_univ j)
      exact pow_eq_zero_iff (two_ne_zero) |>.1 this
    rw [← h, Real.toNNReal_zero, gaussianReal_zero_var]
    have e : lin a = fun _ => 0 := by
      funext ω
      simp [lin, ha]
    rw [e, Measure.map_const, measure_univ, one_smul]
  · set s := Real.sqrt (∑ j, a j ^ 2) with hs
    have hs0 : 0 < s := Real.sqrt_pos.2 h
    have hss : s ^ 2 = ∑ j, a j ^ 2 := Real.sq_sqrt h0
    have hl := lin_law (fun (_ : Fin 1) j => (1 / s) * a j) fun i i' => by
      rw [Subsingleton.elim i i', if_pos rfl]
      calc ∑ j, (1 / s) * a j * ((1 / s) * a j) = (1 / s ^ 2) * ∑ j, a j ^ 2 := by
            rw [Finset.mul_sum]
            exact Finset.sum_congr rfl fun j _ => by field_simp
        _ = 1 := by rw [← hss]; field_simp
    have h5 := congrArg (Measure.map (Function.eval (0 : Fin 1))) hl
    rw [Measure.map_map (measurable_pi_apply 0) (measurable_pi_iff.2 fun _ => lin_measurable _),
      (measurePreserving_eval (fun _ : Fin 1 => gaussianReal 0 1) 0).map_eq] at h5
    have h6 := congrArg (Measure.map fun x => s * x) h5
    rw [Measure.map_map (by fun_prop) ((measurable_pi_apply 0).comp (measurable_pi_iff.2 fun _ => lin_measurable _)),
      gaussianReal_map_const_mul] at h6
    have e : ((fun x => s * x) ∘ Function.eval (0 : Fin 1) ∘ fun ω _ => lin (fun j => (1 / s) * a j) ω) = lin a := by
      funext ω
      simp only [Function.comp, Function.eval, lin, Finset.mul_sum]
      exact Finset.sum_congr rfl fun j _ => by field_simp
    rw [e] at h6
    rw [h6, mul_zero]
    congr 1
    ext
    simp only [NNReal.coe_mk, mul_one]
    rw [Real.coe_toNNReal _ h0]
    exact hss

/-- Combinations which the map removes are independent of the square it leaves. -/
theorem idem_indep (L : (ZMod n → ℝ) →ₗ[ℝ] (ZMod n → ℝ)) (hs : ∀ x y, ∑ j, L x j * y j = ∑ j, x j * L y j)
    (hi : ∀ x, L (L x) = L x) {ι : Type*} [Fintype ι] (Z : ι → ZMod n → ℝ) (hLZ : ∀ i, L (Z i) = 0)
    {q : (ZMod n → ℝ) → ℝ} (hqm : Measurable q)
    (hq : ∀ x, ∑ j, L x j * x j = q x) {D : ℕ} (hD : ∫ ω, q ω ∂(normalDraws n) = D) :
    IndepFun (fun ω i => lin (Z i) ω) q (normalDraws n) := by
  let M : (ZMod n → ℝ) →ₗ[ℝ] (ZMod n → ℝ) := LinearMap.id - L
  have hM : ∀ x j, M x j = x j - L x j := fun x j => rfl
  have hMs : ∀ x y, ∑ j, M x j * y j = ∑ j, x j * M y j := by
    intro x y
    simp only [hM, sub_mul, mul_sub, Finset.sum_sub_distrib, hs]
  have hMi : ∀ x, M (M x) = M x := by
    intro x
    have : L (M x) = 0 := by
      show L (x - L x) = 0
      rw [map_sub, hi, sub_self]
    funext j
    rw [hM, this]
    simp
  obtain ⟨r, b, hb, hMb, hx⟩ := idem_basis M hMs hMi
  have hLb : ∀ i, L (b i) = 0 := by
    intro i
    funext j
    have := congrFun (hMb i) j
    rw [hM] at this
    simp only [Pi.zero_apply]
    linarith
  have hbil : ∀ x y, ∑ j, M x j * y j = ∑ i, lin (b i) x * lin (b i) y := by
    intro x y
    have h1 := hx (fun j => x j + y j)
    have h2 := hx x
    have h3 := hx y
    have h4 : ∀ i, lin (b i) (fun j => x j + y j) = lin (b i) x + lin (b i) y := fun i => by
      simp only [lin, mul_add, Finset.sum_add_distrib]
    have h5 : M (fun j => x j + y j) = M x + M y := map_add M x y
    simp only [h4, h5, Pi.add_apply] at h1
    have h6 : ∑ j, (M x j + M y j) * (x j + y j) = (∑ j, M x j * x j) + 2 * (∑ j, M x j * y j) + ∑ j, M y j * y j := by
      have : ∑ j, M y j * x j = ∑ j, M x j * y j := by
        rw [hMs]
        exact Finset.sum_congr rfl fun j _ => mul_comm _ _
      have e : ∑ j, (M x j + M y j) * (x j + y j) =
          (∑ j, M x j * x j) + (∑ j, M x j * y j) + (∑ j, M y j * x j) + ∑ j, M y j * y j := by
        simp only [← Finset.sum_add_distrib]
        exact Finset.sum_congr rfl fun j _ => by ring
      rw [e, this]
      ring
    have h7 : ∑ i, (lin (b i) x + lin (b i) y) ^ 2 =
        (∑ i, lin (b i) x ^ 2) + 2 * (∑ i, lin (b i) x * lin (b i) y) + ∑ i, lin (b i) y ^ 2 := by
      rw [Finset.mul_sum, ← Finset.sum_add_distrib, ← Finset.sum_add_distrib]
      exact Finset.sum_congr rfl fun j _ => by ring
    rw [h6, h7] at h1
    linarith
  have hMZ : ∀ i, M (Z i) = Z i := by
    intro i
    funext j
    rw [hM, hLZ]
    simp
  have hZ : ∀ ω i, lin (Z i) ω = ∑ k, lin (b k) (Z i) * lin (b k) ω := by
    intro ω i
    rw [← hbil, hMZ]
    rfl
  have hjoint := idem_joint L hs hi b hb hLb hq hD
  have hbm : Measurable fun (ω : ZMod n → ℝ) (k : Fin r) => lin (b k) ω := measurable_pi_iff.2 fun _ => lin_measurable _
  have hind : IndepFun (fun ω k => lin (b k) ω) q (normalDraws n) := by
    rw [indepFun_iff_map_prod_eq_prod_map_map hbm.aemeasurable hqm.aemeasurable, hjoint, lin_law b hb,
      idem_law L hs hi hqm hq hD]
  have := hind.comp (φ := fun (y : Fin r → ℝ) (i : ι) => ∑ k, lin (b k) (Z i) * y k) (ψ := id)
    (by fun_prop) measurable_id
  refine this.congr ?_ (Filter.EventuallyEq.refl _ _)
  exact Filter.Eventually.of_forall fun ω => funext fun i => (hZ ω i).symm

end Verif.OF
