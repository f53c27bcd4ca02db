import Verif.NsmbStatLemmas

/-! Lemmas for C169: the inverse of a Gram matrix and of a part of it. -/

namespace Verif.Nsmb
open Verif Verif.Dft Verif.Nsmb.Spec Matrix

variable {n : ℕ} [NeZero n] {nb : ℕ}

section
variable {ι κ : Type*} [Fintype ι] [Fintype κ] [DecidableEq ι] [DecidableEq κ]

/-- A vector on a part of the indices, with zeros elsewhere. -/
def spread (σ : ι → κ) (x : ι → ℝ) (j : κ) : ℝ := ∑ i, if σ i = j then x i else 0

omit [DecidableEq ι] in
theorem spread_sum (σ : ι → κ) (x : ι → ℝ) (f : κ → ℝ) : ∑ j, spread σ x j * f j = ∑ i, x i * f (σ i) := by
  simp only [spread, Finset.sum_mul]
  rw [Finset.sum_comm]
  exact Finset.sum_congr rfl fun i _ => by simp [ite_mul]

omit [Fintype κ] [DecidableEq ι] in
theorem spread_at {σ : ι → κ} (hσ : Function.Injective σ) (x : ι → ℝ) (i : ι) : spread σ x (σ i) = x i := by
  unfold spread
  rw [Finset.sum_eq_single i]
  · simp
  · intro j _ hj
    rw [if_neg fun h => hj (hσ h)]
  · simp

/-- The inverse of a part of a positive matrix is below that part of the inverse, on the diagonal. -/
theorem inverse_part {G V : Matrix κ κ ℝ} {V' : Matrix ι ι ℝ} {σ : ι → κ} (hσ : Function.Injective σ) (hG : Gᵀ = G)
    (hpos : ∀ x : κ → ℝ, 0 ≤ x ⬝ᵥ (G *ᵥ x)) (hV : G * V = 1) (hV' : G.submatrix σ σ * V' = 1) (i : ι) :
    V' i i ≤ V (σ i) (σ i) := by
  set v : κ → ℝ := fun j => V j (σ i) with hv
  set u : ι → ℝ := fun j => V' j i with hu
  set y := spread σ u with hy
  have h1 : G *ᵥ v = fun j => if j = σ i then 1 else 0 := by
    funext j
    have := congrFun (congrFun hV j) (σ i)
    rw [mul_apply, one_apply] at this
    exact this
  have hGy : ∀ j, (G *ᵥ y) (σ j) = if j = i then 1 else 0 := by
    intro j
    have h2 := congrFun (congrFun hV' j) i
    rw [mul_apply, one_apply] at h2
    rw [← h2, mulVec, dotProduct]
    have := spread_sum σ u fun l => G (σ j) l
    rw [← hy] at this
    calc ∑ l, G (σ j) l * y l = ∑ l, y l * G (σ j) l := Finset.sum_congr rfl fun l _ => mul_comm _ _
      _ = ∑ l, u l * G (σ j) (σ l) := this
      _ = _ := Finset.sum_congr rfl fun l _ => mul_comm _ _
  have a1 : v ⬝ᵥ (G *ᵥ v) = V (σ i) (σ i) := by
    rw [h1]
    simp [dotProduct, hv]
  have a2 : y ⬝ᵥ (G *ᵥ v) = V' i i := by
    rw [h1]
    simp [dotProduct, hy, spread_at hσ, hu]
  have a3 : y ⬝ᵥ (G *ᵥ y) = V' i i := by
    rw [dotProduct, hy, spread_sum σ u fun l => (G *ᵥ spread σ u) l]
    simp only [← hy, hGy]
    simp [hu]
  have a4 : v ⬝ᵥ (G *ᵥ y) = V' i i := by
    rw [← a2, dotProduct_mulVec, ← mulVec_transpose, hG, dotProduct_comm]
  have h := hpos (v - y)
  rw [mulVec_sub, sub_dotProduct, dotProduct_sub, dotProduct_sub, a1, a2, a3, a4] at h
  linarith

/-- For one index: the inverse of the entry, reached if and only if the other entries of its row vanish. -/
theorem inverse_entry {G V : Matrix κ κ ℝ} (hG : Gᵀ = G) (hpos : ∀ x : κ → ℝ, 0 ≤ x ⬝ᵥ (G *ᵥ x))
    (hdef : ∀ x : κ → ℝ, x ⬝ᵥ (G *ᵥ x) = 0 → x = 0) (hV : G * V = 1) (i : κ) :
    0 < G i i ∧ 1 / G i i ≤ V i i ∧ (1 / G i i = V i i ↔ ∀ j, j ≠ i → G i j = 0) := by
  set e : κ → ℝ := fun j => if j = i then 1 else 0 with he
  have hGe : ∀ j, (G *ᵥ e) j = G j i := by
    intro j
    simp [mulVec, dotProduct, he]
  have hd : e ⬝ᵥ (G *ᵥ e) = G i i := by
    rw [dotProduct]
    simp only [hGe]
    simp [he]
  have h0 : 0 < G i i := by
    refine lt_of_le_of_ne (hd ▸ hpos e) fun h => ?_
    have := congrFun (hdef e (by rw [hd, ← h])) i
    simp [he] at this
  set v : κ → ℝ := fun j => V j i with hv
  have h1 : G *ᵥ v = e := by
    funext j
    have := congrFun (congrFun hV j) i
    rw [mul_apply, one_apply] at this
    exact this
  have hVi : e ⬝ᵥ v = V i i := by simp [dotProduct, he, hv]
  have hq : (v - (1 / G i i) • e) ⬝ᵥ (G *ᵥ (v - (1 / G i i) • e)) = V i i - 1 / G i i := by
    have a1 : v ⬝ᵥ (G *ᵥ v) = V i i := by rw [h1, dotProduct_comm, hVi]
    have a2 : e ⬝ᵥ (G *ᵥ v) = 1 := by rw [h1]; simp [dotProduct, he]
    have a4 : v ⬝ᵥ (G *ᵥ e) = 1 := by rw [← a2, dotProduct_mulVec, ← mulVec_transpose, hG, dotProduct_comm]
    rw [mulVec_sub, sub_dotProduct, dotProduct_sub, dotProduct_sub, mulVec_smul, smul_dotProduct, smul_dotProduct,
      dotProduct_smul, dotProduct_smul, a1, a2, a4, hd]
    simp only [smul_eq_mul]
    field_simp
    ring
  refine ⟨h0, by have := hpos (v - (1 / G i i) • e); linarith, fun h j hj => ?_, fun h => ?_⟩
  · have hx := hdef _ (by rw [hq, h, sub_self])
    have hv' : v = (1 / G i i) • e := sub_eq_zero.1 hx
    have := congrFun h1 j
    rw [hv', mulVec_smul, Pi.smul_apply, hGe, smul_eq_mul] at this
    simp only [he, if_neg hj] at this
    rw [← hG, transpose_apply]
    rcases mul_eq_zero.1 this with h2 | h2
    · exact absurd h2 (one_div_pos.2 h0).ne'
    · exact h2
  · have h2 : G *ᵥ ((1 / G i i) • e) = e := by
      funext j
      rw [mulVec_smul, Pi.smul_apply, hGe, smul_eq_mul]
      by_cases hj : j = i
      · subst hj
        simp only [he, if_true]
        field_simp
      · have hs : G j i = G i j := congrFun (congrFun hG i) j
        rw [hs, h j hj, mul_zero]
        simp [he, hj]
    have hx : v - (1 / G i i) • e = 0 := hdef _ (by rw [mulVec_sub, h1, h2, sub_self, dotProduct_zero])
    rw [hx, zero_dotProduct] at hq
    linarith

end

/-- The Gram matrix of independent templates is positive, and `pinv` inverts it. -/
theorem gram_indep {ι : Type*} [Fintype ι] [DecidableEq ι] {J : ZMod n → ℝ} (hJ : ∀ f, 0 < J f) {S : ι → ZMod n → ℝ} (hI : Indep S) :
    let G : Matrix ι ι ℝ := of fun i j => ipR J (S i) (S j)
    (∀ x, 0 ≤ x ⬝ᵥ (G *ᵥ x)) ∧ (∀ x, x ⬝ᵥ (G *ᵥ x) = 0 → x = 0) ∧ G * pinv G = 1 := by
  intro G
  have hp : ∀ x, power J (resTrace (fun _ => 0) S x) = x ⬝ᵥ (G *ᵥ x) := by
    intro x
    rw [power_resTrace]
    have : ∀ y, ipR J y (fun _ => 0) = 0 := by
      intro y
      refine Finset.sum_eq_zero fun f _ => ?_
      simp [fftR_const]
    simp only [this]
    simp [dotProduct, G]
  have hz : ∀ x, x ⬝ᵥ (G *ᵥ x) = 0 → x = 0 := by
    intro x hx
    refine hI x fun τ => ?_
    have := power_eq_zero hJ ((hp x).trans hx) τ
    simpa [resTrace] using this
  refine ⟨fun x => hp x ▸ power_nonneg hJ _, hz, ?_⟩
  rw [mul_eq_one_comm]
  ext i j
  have := congrFun (pinv_mulVec_of_ker (gram_symm J S) (fun l => if l = j then 1 else 0) fun x hx => hz x (by
    show x ⬝ᵥ (G *ᵥ x) = 0
    rw [show G *ᵥ x = 0 from hx, dotProduct_zero])) i
  rw [mulVec_mulVec] at this
  simpa [mulVec, dotProduct, one_apply] using this

end Verif.Nsmb
