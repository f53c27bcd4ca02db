import Verif.NoiseResidSpec
import Verif.NoiseObjProps
import Mathlib.LinearAlgebra.Matrix.ToLinearEquiv

/-! Lemmas for `NoiseResidProps`. -/

namespace Verif.Noise
open Verif Verif.Dft

/-- The quadratic form of a Gram matrix. -/
theorem gram_form {m c : ℕ} (S : Fin m → Fin c → ℂ) (s : ℝ) (M : Matrix (Fin c) (Fin c) ℂ)
    (hM : ∀ i j, M i j = ∑ t, starRingEnd ℂ (S t i) * S t j * (s : ℂ)) (w : Fin c → ℂ) :
    ∑ i, starRingEnd ℂ (w i) * (∑ k, M i k * w k) = ((∑ t, ‖∑ i, w i * S t i‖ ^ 2 * s : ℝ) : ℂ) := by
  have hrow : ∀ i, ∑ k, M i k * w k = ∑ t, starRingEnd ℂ (S t i) * (∑ k, w k * S t k) * (s : ℂ) := by
    intro i
    simp only [hM, Finset.sum_mul, Finset.mul_sum]
    rw [Finset.sum_comm]
    refine Finset.sum_congr rfl fun t _ => Finset.sum_congr rfl fun k _ => by ring
  simp only [hrow, Finset.mul_sum]
  rw [Finset.sum_comm]
  push_cast
  refine Finset.sum_congr rfl fun t _ => ?_
  have h2 : ∑ i, starRingEnd ℂ (w i) * (starRingEnd ℂ (S t i) * (∑ k, w k * S t k) * (s : ℂ)) =
      starRingEnd ℂ (∑ k, w k * S t k) * (∑ k, w k * S t k) * (s : ℂ) := by
    rw [map_sum]
    simp only [map_mul]
    rw [Finset.sum_mul, Finset.sum_mul]
    refine Finset.sum_congr rfl fun i _ => by ring
  have h3 : ∀ z : ℂ, starRingEnd ℂ z * z * (s : ℂ) = (‖z‖ : ℂ) ^ 2 * s := by
    intro z
    rw [mul_comm (starRingEnd ℂ z), Complex.mul_conj, Complex.normSq_eq_norm_sq]
    push_cast
    ring
  have h4 : ∀ i, starRingEnd ℂ (w i) * (starRingEnd ℂ (S t i) * (∑ k, w k * S t k) * (s : ℂ)) =
      ∑ j, starRingEnd ℂ (w i) * (starRingEnd ℂ (S t i) * (w j * S t j) * (s : ℂ)) := by
    intro i
    simp only [Finset.mul_sum, Finset.sum_mul]
  rw [h3] at h2
  rw [← h2]
  refine Finset.sum_congr rfl fun i _ => ?_
  simp only [Finset.mul_sum, Finset.sum_mul]

/-- A Gram matrix is definite where it is invertible. -/
theorem gram_definite {m c : ℕ} (S : Fin m → Fin c → ℂ) (s : ℝ) (hs : 0 ≤ s) (M : Matrix (Fin c) (Fin c) ℂ)
    (hM : ∀ i j, M i j = ∑ t, starRingEnd ℂ (S t i) * S t j * (s : ℂ)) (hdet : M.det ≠ 0) (w : Fin c → ℂ)
    (h : ∑ t, ‖∑ i, w i * S t i‖ ^ 2 * s = 0) : w = 0 := by
  have h1 := (Finset.sum_eq_zero_iff_of_nonneg (fun t _ => by positivity)).1 h
  have h2 : M.mulVec w = 0 := by
    funext i
    have hrow : ∑ k, M i k * w k = ∑ t, starRingEnd ℂ (S t i) * ((∑ k, w k * S t k) * (s : ℂ)) := by
      simp only [hM, Finset.sum_mul, Finset.mul_sum]
      rw [Finset.sum_comm]
      refine Finset.sum_congr rfl fun t _ => Finset.sum_congr rfl fun k _ => by ring
    have : M.mulVec w i = ∑ k, M i k * w k := rfl
    rw [this, hrow]
    refine Finset.sum_eq_zero fun t ht => ?_
    have h3 := h1 t ht
    rcases mul_eq_zero.1 h3 with h4 | h4
    · have : ∑ k, w k * S t k = 0 := by
        rw [← norm_eq_zero]
        exact pow_eq_zero_iff (two_ne_zero) |>.1 h4
      rw [this]
      simp
    · rw [h4]
      simp
  by_contra hw
  exact hdet (Matrix.exists_mulVec_eq_zero_iff.1 ⟨w, hw, h2⟩)

/-- The inverse of a diagonal entry of the inverse of a Gram matrix is the least value of the form with
that weight equal to one. -/
theorem gram_least {m c : ℕ} (S : Fin m → Fin c → ℂ) (s : ℝ) (hs : 0 ≤ s) (M : Matrix (Fin c) (Fin c) ℂ)
    (hM : ∀ i j, M i j = ∑ t, starRingEnd ℂ (S t i) * S t j * (s : ℂ)) (hdet : M.det ≠ 0) (j : Fin c) :
    ∃ v : Fin c → ℂ, v j = 1 ∧ ∑ t, ‖∑ i, v i * S t i‖ ^ 2 * s = 1 / ‖M⁻¹ j j‖ ∧
      (∀ i, ∑ k, M i k * v k = if i = j then ((1 / ‖M⁻¹ j j‖ : ℝ) : ℂ) else 0) ∧
      ∀ w : Fin c → ℂ, w j = 1 → ∑ t, ‖∑ i, w i * S t i‖ ^ 2 * s =
        1 / ‖M⁻¹ j j‖ + ∑ t, ‖∑ i, (w i - v i) * S t i‖ ^ 2 * s := by
  obtain ⟨hpos, -, -⟩ := gram_inv S s hs M hM hdet j
  set x : Fin c → ℂ := fun i => M⁻¹ i j with hx
  have hMx : ∀ i, ∑ k, M i k * x k = if i = j then 1 else 0 := by
    intro i
    have := congrFun (congrFun (Matrix.mul_nonsing_inv M (isUnit_iff_ne_zero.2 hdet)) i) j
    rw [Matrix.mul_apply, Matrix.one_apply] at this
    exact this
  have hq := gram_form S s M hM x
  have h1 : ∑ i, starRingEnd ℂ (x i) * (∑ k, M i k * x k) = starRingEnd ℂ (x j) := by
    simp [hMx]
  rw [h1] at hq
  have hnn : 0 ≤ ∑ t, ‖∑ i, x i * S t i‖ ^ 2 * s := Finset.sum_nonneg fun t _ => by positivity
  have hxr : x j = ((‖M⁻¹ j j‖ : ℝ) : ℂ) := by
    have h2 : ‖x j‖ = ∑ t, ‖∑ i, x i * S t i‖ ^ 2 * s := by
      rw [← RCLike.norm_conj, hq, Complex.norm_real, Real.norm_of_nonneg hnn]
    have h3 : M⁻¹ j j = x j := rfl
    rw [h3, h2, ← Complex.conj_ofReal, ← hq, Complex.conj_conj]
  have hp : ((‖M⁻¹ j j‖ : ℝ) : ℂ) ≠ 0 := by exact_mod_cast hpos.ne'
  generalize ‖M⁻¹ j j‖ = p at *
  set v : Fin c → ℂ := fun i => x i / p with hv
  have hvj : v j = 1 := by rw [hv]; dsimp only; rw [hxr, div_self hp]
  have hMv : ∀ i, ∑ k, M i k * v k = if i = j then ((1 / p : ℝ) : ℂ) else 0 := by
    intro i
    have : ∑ k, M i k * v k = (∑ k, M i k * x k) / p := by
      rw [Finset.sum_div]
      exact Finset.sum_congr rfl fun k _ => by rw [hv]; ring
    rw [this, hMx]
    split_ifs <;> simp
  have hgv : ∑ t, ‖∑ i, v i * S t i‖ ^ 2 * s = 1 / p := by
    have := gram_form S s M hM v
    rw [Finset.sum_congr rfl fun i _ => by rw [hMv i]] at this
    simp only [mul_ite, mul_zero, Finset.sum_ite_eq', Finset.mem_univ, if_true, hvj, map_one,
      one_mul] at this
    exact (Complex.ofReal_injective this).symm
  refine ⟨v, hvj, hgv, hMv, fun w hw => ?_⟩
  -- expand the form at `v + d`
  set d : Fin c → ℂ := fun i => w i - v i with hd
  have hdj : d j = 0 := by rw [hd]; dsimp only; rw [hw, hvj, sub_self]
  have hwd : ∀ i, w i = v i + d i := fun i => by rw [hd]; ring
  have hcross1 : ∑ i, starRingEnd ℂ (d i) * (∑ k, M i k * v k) = 0 := by
    rw [Finset.sum_congr rfl fun i _ => by rw [hMv i]]
    simp [hdj]
  have hherm : ∀ i k, M k i = starRingEnd ℂ (M i k) := by
    intro i k
    rw [hM, hM, map_sum]
    refine Finset.sum_congr rfl fun t _ => ?_
    simp only [map_mul, Complex.conj_conj, Complex.conj_ofReal]
    ring
  have hcross2 : ∑ i, starRingEnd ℂ (v i) * (∑ k, M i k * d k) = 0 := by
    have : ∑ i, starRingEnd ℂ (v i) * (∑ k, M i k * d k) =
        starRingEnd ℂ (∑ i, starRingEnd ℂ (d i) * (∑ k, M i k * v k)) := by
      rw [map_sum]
      simp only [map_mul, map_sum, Complex.conj_conj, Finset.mul_sum]
      rw [Finset.sum_comm]
      refine Finset.sum_congr rfl fun i _ => Finset.sum_congr rfl fun k _ => ?_
      rw [hherm i k]
      ring
    rw [this, hcross1, map_zero]
  have e := gram_form S s M hM w
  have e2 : ∑ i, starRingEnd ℂ (w i) * (∑ k, M i k * w k) =
      ∑ i, starRingEnd ℂ (v i) * (∑ k, M i k * v k) + ∑ i, starRingEnd ℂ (d i) * (∑ k, M i k * d k) := by
    have : ∀ i, starRingEnd ℂ (w i) * (∑ k, M i k * w k) =
        starRingEnd ℂ (v i) * (∑ k, M i k * v k) + starRingEnd ℂ (d i) * (∑ k, M i k * d k) +
        (starRingEnd ℂ (d i) * (∑ k, M i k * v k) + starRingEnd ℂ (v i) * (∑ k, M i k * d k)) := by
      intro i
      have h5 : ∑ k, M i k * w k = ∑ k, M i k * v k + ∑ k, M i k * d k := by
        rw [← Finset.sum_add_distrib]
        exact Finset.sum_congr rfl fun k _ => by rw [hwd k]; ring
      rw [h5, hwd i, map_add]
      ring
    rw [Finset.sum_congr rfl fun i _ => this i, Finset.sum_add_distrib, Finset.sum_add_distrib,
      Finset.sum_add_distrib, hcross1, hcross2, add_zero, add_zero]
  rw [e2, gram_form S s M hM v, gram_form S s M hM d, hgv] at e
  have := Complex.ofReal_injective (by rw [← e]; push_cast; rfl :
    ((∑ t, ‖∑ i, w i * S t i‖ ^ 2 * s : ℝ) : ℂ) =
      ((1 / p + ∑ t, ‖∑ i, d i * S t i‖ ^ 2 * s : ℝ) : ℂ))
  exact this

variable {n m c : ℕ} [NeZero n]

/-- The entries of the CSD matrix. -/
theorem csdMat_gram (traces : Fin m → Fin c → ZMod n → ℝ) (fs : ℝ) (k : Half n) (i j : Fin c) :
    csdMat (csdOf traces fs) k i j = ∑ t, starRingEnd ℂ (segFft (traces t i) k) * segFft (traces t j) k *
      ((csdScale n fs k / m : ℝ) : ℂ) := by
  simp only [csdMat, csdOf, csd1]
  rw [Finset.sum_div]
  refine Finset.sum_congr rfl fun t _ => ?_
  push_cast
  ring

theorem combined_eq (traces : Fin m → Fin c → ZMod n → ℝ) (fs : ℝ) (k : Half n) (w : Fin c → ℂ) :
    combined traces fs k w = ∑ t, ‖∑ i, w i * segFft (traces t i) k‖ ^ 2 * (csdScale n fs k / m) := by
  unfold combined avg
  rw [← Finset.sum_mul]
  ring

/-- The transform used for the CSD is linear. -/
theorem segFft_sum (x : Fin c → ZMod n → ℝ) (a : Fin c → ℝ) (k : Half n) :
    segFft (fun s => ∑ i, a i * x i s) k = ∑ i, (a i : ℂ) * segFft (x i) k := by
  have h : (fun j => hann n j * ((∑ i, a i * x i j) - (∑ s, ∑ i, a i * x i s) / n)) =
      fun j => ∑ i, a i * (hann n j * (x i j - (∑ s, x i s) / n)) := by
    funext j
    rw [Finset.sum_comm, Finset.sum_div, ← Finset.sum_sub_distrib, Finset.mul_sum]
    refine Finset.sum_congr rfl fun i _ => ?_
    rw [← Finset.mul_sum]
    ring
  unfold segFft
  rw [h]
  simp only [rfft, fftR, ZMod.dft_apply, smul_eq_mul]
  simp only [Complex.ofReal_sum, Complex.ofReal_mul, Finset.mul_sum]
  rw [Finset.sum_comm]
  refine Finset.sum_congr rfl fun i _ => Finset.sum_congr rfl fun s _ => ?_
  push_cast
  ring

/-- A successful `calculate_uncorr_noise` on an object whose CSD is missing or current. -/
theorem uncorr_ok {o o' : Obj m c n} (hcur : ∀ d, o.csd = some d → d = csdOf o.traces o.fs)
    (h : calculateUncorrNoise o = (.ok (), o')) :
    (∀ k, (csdMat (csdOf o.traces o.fs) k).det ≠ 0) ∧ o'.uncorr = some (uncorrOf (csdOf o.traces o.fs)) ∧
      o'.corr = some (corrOf (csdOf o.traces o.fs)) := by
  unfold calculateUncorrNoise at h
  cases hc : o.csd with
  | some d =>
    obtain rfl := hcur d hc
    rw [hc] at h
    simp only [storeUncorr] at h
    split_ifs at h with hdet
    · simp at h
    · obtain rfl := (Prod.mk.inj h).2
      push Not at hdet
      exact ⟨hdet, rfl, rfl⟩
  | none =>
    rw [hc] at h
    simp only [calculateCsd] at h
    by_cases h1 : c = 1
    · rw [if_pos h1] at h; simp at h
    · rw [if_neg h1] at h
      simp only [storeUncorr] at h
      split_ifs at h with hdet
      · simp at h
      · obtain rfl := (Prod.mk.inj h).2
        push Not at hdet
        exact ⟨hdet, rfl, rfl⟩

end Verif.Noise
