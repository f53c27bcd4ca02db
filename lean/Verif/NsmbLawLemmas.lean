import Verif.OFLawLemmas
import Verif.NsmbStatProps

/-! Auxiliary lemmas of property C144: fits with several templates. -/

namespace Verif.OF
open Verif Verif.Dft MeasureTheory ProbabilityTheory Matrix

variable {n : ℕ} [NeZero n]

/-- Whitened templates: the inner products of generated noise with several pulses. -/
theorem gen_ips {psd : ZMod n → ℝ} {fs : ℝ} {ac : Bool} (hpsd : ∀ k, 0 < psd k) (hs : ∀ k, psd (-k) = psd k) (hfs : 0 < fs)
    {ι : Type*} (S : ι → ZMod n → ℝ) :
    ∃ z : ι → ZMod n → ℝ,
      (∀ i w, ip fs (weight (fun k => (psd k : WithTop ℝ)) ac) (S i) (Noise.genNoise psd fs w) = lin (z i) w) ∧
      (∀ i j, ∑ t, z i t * z j t = ip fs (weight (fun k => (psd k : WithTop ℝ)) ac) (S i) (S j)) ∧
      ∀ i k, k ∉ usedBins psd ac → fftR (z i) k = 0 := by
  choose z h1 _ h3 using fun i => gen_ip (ac := ac) hpsd hs hfs (S i)
  refine ⟨z, h1, fun i j => ?_, h3⟩
  obtain ⟨R, h, hR⟩ := genNoise_stationary psd hs (fun k => (hpsd k).le) hfs.le (normalDraws_stationary (n := n))
  have hpsd' : ∀ k, (0 : WithTop ℝ) < psd k := fun k => by exact_mod_cast hpsd k
  have hs' : ∀ k, ((psd (-k) : ℝ) : WithTop ℝ) = psd k := fun k => by rw [hs]
  rw [← h.ip_mul hR hpsd' hs' hfs ac (S i) (S j)]
  simp only [h1, lin]
  rw [normalDraws_stationary.lin2 (z i) (z j)]
  refine Finset.sum_congr rfl fun a _ => ?_
  rw [Finset.sum_eq_single a]
  · simp
  · intro b _ hb
    rw [if_neg (sub_ne_zero.2 hb.symm), mul_zero]
  · simp

/-- Removing the span of several combinations from the power in a set of bins. -/
theorem gram_map (S : Finset (ZMod n)) (hS : ∀ k ∈ S, -k ∈ S) {ι : Type*} [Fintype ι]
    (z : ι → ZMod n → ℝ) (hz : ∀ i k, k ∉ S → fftR (z i) k = 0) (G X : Matrix ι ι ℝ)
    (hG : ∀ i j, ∑ t, z i t * z j t = G i j) (hXt : Xᵀ = X) (hGXG : G * X * G = G) :
    ∃ L : (ZMod n → ℝ) →ₗ[ℝ] (ZMod n → ℝ), (∀ x y, ∑ j, L x j * y j = ∑ j, x j * L y j) ∧ (∀ x, L (L x) = L x) ∧
      (∀ i, L (z i) = 0) ∧
      ∀ x, ∑ j, L x j * x j = total S x - (X *ᵥ fun i => lin (z i) x) ⬝ᵥ fun i => lin (z i) x := by
  classical
  obtain ⟨B, h1, h2, h3, h4⟩ := band S hS
  have hBz : ∀ i, B (z i) = z i := fun i => h4 _ (hz i)
  have hlinB : ∀ i x, lin (z i) (B x) = lin (z i) x := by
    intro i x
    have := h1 (z i) x
    rw [hBz] at this
    exact this.symm
  let ε : (ZMod n → ℝ) →ₗ[ℝ] (ι → ℝ) :=
    { toFun := fun x i => lin (z i) x
      map_add' := fun x y => by
        funext i
        simp only [lin, Pi.add_apply, mul_add, Finset.sum_add_distrib]
      map_smul' := fun c x => by
        funext i
        simp only [lin, Pi.smul_apply, smul_eq_mul, RingHom.id_apply, Finset.mul_sum]
        exact Finset.sum_congr rfl fun j _ => by ring }
  let L : (ZMod n → ℝ) →ₗ[ℝ] (ZMod n → ℝ) := B - (Fintype.linearCombination ℝ z) ∘ₗ X.mulVecLin ∘ₗ ε
  have hL : ∀ x j, L x j = B x j - ∑ i, (X *ᵥ ε x) i * z i j := by
    intro x j
    show B x j - (Fintype.linearCombination ℝ z) (X *ᵥ ε x) j = _
    rw [Fintype.linearCombination_apply, Finset.sum_apply]
    rfl
  have hε : ∀ x i, ε x i = lin (z i) x := fun _ _ => rfl
  have hcross : ∀ x y, ∑ j, (∑ i, (X *ᵥ ε x) i * z i j) * y j = (X *ᵥ ε x) ⬝ᵥ ε y := by
    intro x y
    simp only [Finset.sum_mul, dotProduct, hε, lin, Finset.mul_sum]
    rw [Finset.sum_comm]
    exact Finset.sum_congr rfl fun i _ => Finset.sum_congr rfl fun j _ => by ring
  have hsymm : ∀ a b : ι → ℝ, (X *ᵥ a) ⬝ᵥ b = (X *ᵥ b) ⬝ᵥ a := by
    intro a b
    rw [dotProduct_comm, dotProduct_mulVec, ← mulVec_transpose, hXt]
  have hLs : ∀ x y, ∑ j, L x j * y j = ∑ j, x j * L y j := by
    intro x y
    simp only [hL, sub_mul, mul_sub, Finset.sum_sub_distrib, h1]
    congr 1
    rw [hcross, hsymm, ← hcross]
    exact Finset.sum_congr rfl fun j _ => mul_comm _ _
  have hεz : ∀ i j, ε (z i) j = G j i := fun i j => hG j i
  have hLz : ∀ i, L (z i) = 0 := by
    intro l
    have hv : ∀ k, ∑ j, L (z l) j * z k j = 0 := by
      intro k
      simp only [hL, sub_mul, Finset.sum_sub_distrib, hBz]
      rw [hcross, hG]
      have e1 : ε (z l) = fun j => G j l := funext fun j => hεz l j
      have e2 : ε (z k) = fun j => G j k := funext fun j => hεz k j
      have hGt : ∀ i j, G i j = G j i := fun i j => by
        rw [← hG, ← hG]
        exact Finset.sum_congr rfl fun t _ => mul_comm _ _
      have e3 : (X *ᵥ ε (z l)) ⬝ᵥ ε (z k) = (G * X * G) k l := by
        rw [e1, e2, dotProduct_comm, Matrix.mul_assoc, Matrix.mul_apply]
        refine Finset.sum_congr rfl fun i _ => ?_
        show G i k * _ = _
        rw [hGt i k, Matrix.mul_apply]
        rfl
      rw [e3, hGXG, hGt l k, sub_self]
    have hvv : ∑ j, L (z l) j * L (z l) j = 0 := by
      have : ∑ j, L (z l) j * L (z l) j = (∑ j, L (z l) j * z l j) - ∑ i, (X *ᵥ ε (z l)) i * ∑ j, L (z l) j * z i j := by
        conv_lhs =>
          enter [2, j, 2]
          rw [hL, hBz]
        simp only [mul_sub, Finset.sum_sub_distrib, Finset.mul_sum]
        congr 1
        rw [Finset.sum_comm]
        exact Finset.sum_congr rfl fun i _ => Finset.sum_congr rfl fun j _ => by ring
      rw [this, hv]
      simp [hv]
    funext j
    have := (Finset.sum_eq_zero_iff_of_nonneg fun j _ => mul_self_nonneg (L (z l) j)).1 hvv j (Finset.mem_univ j)
    exact mul_self_eq_zero.1 this
  refine ⟨L, hLs, fun x => ?_, hLz, fun x => ?_⟩
  · have e1 : L x = B x - ∑ i, (X *ᵥ ε x) i • z i := by
      funext j
      rw [hL, Pi.sub_apply, Finset.sum_apply]
      rfl
    have e2 : L (L x) = L (B x) := by
      conv_lhs => rw [e1]
      rw [map_sub, map_sum]
      simp [hLz]
    rw [e2]
    funext j
    have : ε (B x) = ε x := funext fun i => hlinB i x
    rw [hL, hL, h2, this]
  · simp only [hL, sub_mul, Finset.sum_sub_distrib, h3, hcross]
    rfl

end Verif.OF
