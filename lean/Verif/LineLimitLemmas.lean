import Verif.LineLimitSpec
import Verif.IvLemmas
import Verif.LineFitLemmas
import Mathlib.MeasureTheory.Function.L2Space
import Mathlib.Topology.Algebra.Monoid

/-! Lemmas for property C148: straight-line fits of scattered points. -/

namespace Verif.LineFit
open Verif MeasureTheory ProbabilityTheory Filter Topology
open Verif.Iv (fancy mapM_range filterMap_map_some)

/-! ### Selection -/

theorem mapM_iff {β γ : Type} {g : β → Except Err γ} {P : β → Prop} {h : β → γ}
    (hg : ∀ i a, g i = .ok a ↔ P i ∧ a = h i) {inds : List β} {l : List γ} :
    inds.mapM g = .ok l ↔ (∀ i ∈ inds, P i) ∧ l = inds.map h := by
  induction inds generalizing l with
  | nil =>
    rw [List.mapM_nil]
    constructor
    · intro h
      cases h
      simp
    · rintro ⟨-, rfl⟩
      rfl
  | cons i inds ih =>
    rw [List.mapM_cons]
    constructor
    · intro h'
      cases h1 : g i with
      | error e => rw [h1] at h'; cases h'
      | ok a =>
        rw [h1] at h'
        obtain ⟨hi, rfl⟩ := (hg i a).1 h1
        cases h2 : inds.mapM g with
        | error e => rw [h2] at h'; cases h'
        | ok l' =>
          rw [h2] at h'
          cases h'
          obtain ⟨h3, rfl⟩ := ih.1 h2
          exact ⟨by simpa using ⟨hi, h3⟩, rfl⟩
    · rintro ⟨hi, rfl⟩
      rw [List.forall_mem_cons] at hi
      rw [(hg i _).2 ⟨hi.1, rfl⟩, ih.2 ⟨hi.2, rfl⟩]
      rfl

theorem fancy_place {α : Type} {n : ℕ} {f : ℕ → α} {inds : List ℤ} {l : List α} :
    fancy ((List.range n).map f) inds = .ok l ↔
      (∀ i ∈ inds, -(n : ℤ) ≤ i ∧ i < n) ∧ l = inds.map fun i => f (place n i) := by
  unfold fancy
  have hlen : ((List.range n).map f).length = n := by simp
  rw [hlen]
  have hone : ∀ (i : ℤ) (a : α), (match ((List.range n).map f)[(if i < 0 then i + (n : ℤ) else i).toNat]? with
      | some a => if i < -(n : ℤ) then Except.error Err.indexError else .ok a
      | none => .error .indexError) = .ok a ↔ (-(n : ℤ) ≤ i ∧ i < n) ∧ a = f (place n i) := by
    intro i a
    show (match ((List.range n).map f)[place n i]? with
      | some a => if i < -(n : ℤ) then Except.error Err.indexError else .ok a
      | none => .error .indexError) = .ok a ↔ _
    by_cases h : place n i < n
    · have e : ((List.range n).map f)[place n i]? = some (f (place n i)) := by simp [h]
      rw [e]
      simp only
      split_ifs with h1
      · simp only [false_iff, not_and]
        intro h2
        omega
      · rw [Except.ok.injEq]
        constructor
        · rintro rfl
          refine ⟨⟨by omega, ?_⟩, rfl⟩
          unfold place at h
          split_ifs at h <;> omega
        · rintro ⟨-, rfl⟩
          rfl
    · have e : ((List.range n).map f)[place n i]? = none := by simp; omega
      rw [e]
      simp only [reduceCtorEq, false_iff, not_and]
      intro h2
      unfold place at h
      split_ifs at h <;> omega
  exact mapM_iff hone

theorem place_lt {n : ℕ} {i : ℤ} (h : -(n : ℤ) ≤ i ∧ i < n) : place n i < n := by
  unfold place
  split_ifs <;> omega

theorem mapM_all {β : Type} {f : ℕ → Except Err β} {g : ℕ → β} {n : ℕ} (h : ∀ i < n, f i = .ok (g i)) :
    (List.range n).mapM f = .ok ((List.range n).map g) := by
  suffices ∀ l : List ℕ, (∀ i ∈ l, i < n) → l.mapM f = .ok (l.map g) from this _ fun i hi => List.mem_range.1 hi
  intro l hl
  induction l with
  | nil => rfl
  | cons a l ih =>
    rw [List.forall_mem_cons] at hl
    rw [List.mapM_cons, h a hl.1]
    show (l.mapM f >>= fun l' => Except.ok (g a :: l')) = _
    rw [ih hl.2]
    rfl

theorem curveFit_points {l : List Pt} {f : Fit} :
    curveFit (l.map some) = .ok f ↔ 2 ≤ l.length ∧ (∀ p ∈ l, p.σ ≠ 0) ∧ det l ≠ 0 ∧ f = solve l := by
  constructor
  · intro h
    obtain ⟨l', e, h1, h2, h3, h4⟩ := curveFit_ok h
    have := Iv.map_some_inj e
    subst this
    exact ⟨h1, h2, h3, h4⟩
  · rintro ⟨h1, h2, h3, rfl⟩
    unfold curveFit
    rw [if_neg, if_neg, filterMap_map_some, if_neg]
    · rintro (⟨p, hp, h0⟩ | h0)
      · exact h2 p hp h0
      · exact h3 h0
    · rw [List.length_map]; omega
    · rintro (h0 | h0)
      · rw [List.map_eq_nil_iff] at h0
        rw [h0] at h1
        simp at h1
      · simp at h0

/-! ### Continuity -/

variable {ι : Type*} {L : Filter ι}

/-- A point from its three numbers. -/
def point (x y σ : ℕ → ℝ) (j : ℕ) : Pt := ⟨x j, y j, σ j⟩

theorem wsum_map (f : Pt → ℝ) (J : List ℕ) (x y σ : ℕ → ℝ) :
    wsum f (J.map (point x y σ)) = (J.map fun j => f (point x y σ j) / σ j ^ 2).sum := by
  unfold wsum
  rw [List.map_map]
  rfl

theorem tendsto_wsum {J : List ℕ} {x y σ : ι → ℕ → ℝ} {x0 y0 σ0 : ℕ → ℝ} {f : Pt → ℝ}
    (hf : ∀ j ∈ J, Tendsto (fun i => f (point (x i) (y i) (σ i) j)) L (𝓝 (f (point x0 y0 σ0 j))))
    (hσ : ∀ j ∈ J, Tendsto (fun i => σ i j) L (𝓝 (σ0 j))) (h0 : ∀ j ∈ J, σ0 j ≠ 0) :
    Tendsto (fun i => wsum f (J.map (point (x i) (y i) (σ i)))) L (𝓝 (wsum f (J.map (point x0 y0 σ0)))) := by
  simp only [wsum_map]
  exact tendsto_list_sum J fun j hj => (hf j hj).div ((hσ j hj).pow 2) (pow_ne_zero 2 (h0 j hj))

/-- Near points have near lines and near covariances. -/
theorem solve_tendsto {J : List ℕ} {x y σ : ι → ℕ → ℝ} {x0 y0 σ0 : ℕ → ℝ}
    (hx : ∀ j ∈ J, Tendsto (fun i => x i j) L (𝓝 (x0 j))) (hy : ∀ j ∈ J, Tendsto (fun i => y i j) L (𝓝 (y0 j)))
    (hσ : ∀ j ∈ J, Tendsto (fun i => σ i j) L (𝓝 (σ0 j))) (h0 : ∀ j ∈ J, σ0 j ≠ 0) (hd : det (J.map (point x0 y0 σ0)) ≠ 0) :
    Tendsto (fun i => det (J.map (point (x i) (y i) (σ i)))) L (𝓝 (det (J.map (point x0 y0 σ0)))) ∧
    Tendsto (fun i => (solve (J.map (point (x i) (y i) (σ i)))).b) L (𝓝 (solve (J.map (point x0 y0 σ0))).b) ∧
    Tendsto (fun i => (solve (J.map (point (x i) (y i) (σ i)))).m) L (𝓝 (solve (J.map (point x0 y0 σ0))).m) ∧
    Tendsto (fun i => (solve (J.map (point (x i) (y i) (σ i)))).cbb) L (𝓝 (solve (J.map (point x0 y0 σ0))).cbb) ∧
    Tendsto (fun i => (solve (J.map (point (x i) (y i) (σ i)))).cmm) L (𝓝 (solve (J.map (point x0 y0 σ0))).cmm) := by
  have s1 := tendsto_wsum (x := x) (y := y) (x0 := x0) (y0 := y0) (f := fun _ => 1) (fun j _ => tendsto_const_nhds) hσ h0
  have sx := tendsto_wsum (x := x) (y := y) (x0 := x0) (y0 := y0) (f := fun p => p.x) hx hσ h0
  have sy := tendsto_wsum (x := x) (y := y) (x0 := x0) (y0 := y0) (f := fun p => p.y) hy hσ h0
  have sxx := tendsto_wsum (x := x) (y := y) (x0 := x0) (y0 := y0) (f := fun p => p.x ^ 2) (fun j hj => (hx j hj).pow 2) hσ h0
  have sxy := tendsto_wsum (x := x) (y := y) (x0 := x0) (y0 := y0) (f := fun p => p.x * p.y)
    (fun j hj => (hx j hj).mul (hy j hj)) hσ h0
  have sd : Tendsto (fun i => det (J.map (point (x i) (y i) (σ i)))) L (𝓝 (det (J.map (point x0 y0 σ0)))) :=
    (s1.mul sxx).sub (sx.pow 2)
  exact ⟨sd, ((sxx.mul sy).sub (sx.mul sxy)).div sd hd, ((s1.mul sxy).sub (sx.mul sy)).div sd hd, sxx.div sd hd, s1.div sd hd⟩

theorem fit_tendsto {J : List ℕ} {x y σ : ι → ℕ → ℝ} {x0 y0 σ0 : ℕ → ℝ} {f : Fit}
    (hx : ∀ j ∈ J, Tendsto (fun i => x i j) L (𝓝 (x0 j))) (hy : ∀ j ∈ J, Tendsto (fun i => y i j) L (𝓝 (y0 j)))
    (hσ : ∀ j ∈ J, Tendsto (fun i => σ i j) L (𝓝 (σ0 j)))
    (h : curveFit ((J.map (point x0 y0 σ0)).map some) = .ok f) :
    ∃ F : ι → Fit, (∀ᶠ i in L, curveFit ((J.map (point (x i) (y i) (σ i))).map some) = .ok (F i)) ∧
      Tendsto (fun i => (F i).b) L (𝓝 f.b) ∧ Tendsto (fun i => (F i).m) L (𝓝 f.m) ∧
      Tendsto (fun i => (F i).cbb) L (𝓝 f.cbb) ∧ Tendsto (fun i => (F i).cmm) L (𝓝 f.cmm) := by
  obtain ⟨h1, h2, h3, rfl⟩ := curveFit_points.1 h
  have h0 : ∀ j ∈ J, σ0 j ≠ 0 := fun j hj => h2 (point x0 y0 σ0 j) (List.mem_map_of_mem hj)
  obtain ⟨sd, sb, sm, sbb, smm⟩ := solve_tendsto hx hy hσ h0 h3
  refine ⟨fun i => solve (J.map (point (x i) (y i) (σ i))), ?_, sb, sm, sbb, smm⟩
  have e1 := sd.eventually_ne h3
  have e2 : ∀ᶠ i in L, ∀ j ∈ J, σ i j ≠ 0 :=
    (List.finite_toSet J).eventually_all.2 fun j hj => (hσ j hj).eventually_ne (h0 j hj)
  filter_upwards [e1, e2] with i hi hi'
  refine curveFit_points.2 ⟨by simpa using h1, ?_, hi, rfl⟩
  intro p hp
  obtain ⟨j, hj, rfl⟩ := List.mem_map.1 hp
  exact hi' j hj

/-! ### Statistics -/

variable {Ω : Type*} [MeasurableSpace Ω] {μ : Measure Ω}

/-- A linear combination of scattered numbers. -/
theorem scatter_sum {w : Ω → ℕ → ℝ} {σ : ℕ → ℝ} {n : ℕ} (h : Scatter μ w σ n) {S : Finset ℕ} (hS : ∀ j ∈ S, j < n) (a : ℕ → ℝ) :
    MemLp (fun ω => ∑ j ∈ S, a j * w ω j) 2 μ ∧
    ∫ ω, (∑ j ∈ S, a j * w ω j) ^ 2 ∂μ = ∑ j ∈ S, (a j * σ j) ^ 2 := by
  have h1 : ∀ j ∈ S, MemLp (fun ω => a j * w ω j) 2 μ := fun j hj => (h.sq_int j (hS j hj)).const_mul (a j)
  refine ⟨memLp_finsetSum S h1, ?_⟩
  have h2 : ∀ j ∈ S, ∀ k ∈ S, Integrable (fun ω => (a j * w ω j) * (a k * w ω k)) μ := fun j hj k hk =>
    (h1 j hj).integrable_mul (h1 k hk)
  have e : ∀ ω, (∑ j ∈ S, a j * w ω j) ^ 2 = ∑ j ∈ S, ∑ k ∈ S, (a j * w ω j) * (a k * w ω k) := fun ω => by
    rw [sq, Finset.sum_mul_sum]
  simp only [e]
  rw [integral_finsetSum _ fun j hj => integrable_finsetSum _ fun k hk => h2 j hj k hk]
  refine Finset.sum_congr rfl fun j hj => ?_
  rw [integral_finsetSum _ fun k hk => h2 j hj k hk]
  have e2 : ∀ k ∈ S, ∫ ω, (a j * w ω j) * (a k * w ω k) ∂μ = if j = k then (a j * σ j) ^ 2 else 0 := fun k hk => by
    have : ∀ ω, (a j * w ω j) * (a k * w ω k) = (a j * a k) * (w ω j * w ω k) := fun ω => by ring
    simp only [this]
    rw [integral_const_mul, h.cov j (hS j hj) k (hS k hk)]
    split_ifs with hjk
    · subst hjk; ring
    · ring
  rw [Finset.sum_congr rfl e2, Finset.sum_ite_eq, if_pos hj]

theorem scatter_mean {w : Ω → ℕ → ℝ} {σ : ℕ → ℝ} {n : ℕ} [IsFiniteMeasure μ] (h : Scatter μ w σ n) {S : Finset ℕ}
    (hS : ∀ j ∈ S, j < n) (a : ℕ → ℝ) :
    ∫ ω, (∑ j ∈ S, a j * w ω j) ∂μ = 0 := by
  rw [integral_finsetSum _ fun j hj => ((h.sq_int j (hS j hj)).integrable one_le_two).const_mul (a j)]
  refine Finset.sum_eq_zero fun j hj => ?_
  rw [integral_const_mul, h.mean j (hS j hj), mul_zero]

theorem wsum_finset {J : List ℕ} (hJ : J.Nodup) (f : Pt → ℝ) (x y σ : ℕ → ℝ) :
    wsum f (J.map (point x y σ)) = ∑ j ∈ J.toFinset, f (point x y σ j) / σ j ^ 2 := by
  rw [wsum_map, List.sum_toFinset _ hJ]

/-- The weights of the ordinates in intercept and slope. -/
noncomputable def wb (J : List ℕ) (x σ : ℕ → ℝ) (j : ℕ) : ℝ :=
  (wsum (fun p => p.x ^ 2) (J.map (point x 0 σ)) - wsum (fun p => p.x) (J.map (point x 0 σ)) * x j) / (det (J.map (point x 0 σ)) * σ j ^ 2)

noncomputable def wm (J : List ℕ) (x σ : ℕ → ℝ) (j : ℕ) : ℝ :=
  (wsum (fun _ => 1) (J.map (point x 0 σ)) * x j - wsum (fun p => p.x) (J.map (point x 0 σ))) / (det (J.map (point x 0 σ)) * σ j ^ 2)

theorem det_y (J : List ℕ) (x y y' σ : ℕ → ℝ) : det (J.map (point x y σ)) = det (J.map (point x y' σ)) := by
  unfold det
  simp only [wsum_map, point]

theorem solve_weights {J : List ℕ} (hJ : J.Nodup) (x y σ : ℕ → ℝ) :
    (solve (J.map (point x y σ))).b = ∑ j ∈ J.toFinset, wb J x σ j * y j ∧
    (solve (J.map (point x y σ))).m = ∑ j ∈ J.toFinset, wm J x σ j * y j := by
  have e1 : wsum (fun _ => 1) (J.map (point x y σ)) = wsum (fun _ => 1) (J.map (point x 0 σ)) := by simp only [wsum_map]
  have e2 : wsum (fun p => p.x) (J.map (point x y σ)) = wsum (fun p => p.x) (J.map (point x 0 σ)) := by simp only [wsum_map, point]
  have e3 : wsum (fun p => p.x ^ 2) (J.map (point x y σ)) = wsum (fun p => p.x ^ 2) (J.map (point x 0 σ)) := by
    simp only [wsum_map, point]
  unfold solve wb wm
  simp only
  rw [det_y J x y 0 σ, e1, e2, e3, wsum_finset hJ (fun p => p.y), wsum_finset hJ (fun p => p.x * p.y)]
  simp only [point, Finset.mul_sum]
  constructor
  · rw [← Finset.sum_sub_distrib, Finset.sum_div]
    refine Finset.sum_congr rfl fun j _ => ?_
    rw [div_mul_eq_mul_div, ← mul_div_assoc, ← mul_div_assoc, ← sub_div, div_div, mul_comm (σ j ^ 2)]
    congr 1
    ring
  · rw [← Finset.sum_sub_distrib, Finset.sum_div]
    refine Finset.sum_congr rfl fun j _ => ?_
    rw [div_mul_eq_mul_div, ← mul_div_assoc, ← mul_div_assoc, ← sub_div, div_div, mul_comm (σ j ^ 2)]
    congr 1
    ring

theorem weights_unbiased {J : List ℕ} (hJ : J.Nodup) {x σ : ℕ → ℝ} (hd : det (J.map (point x 0 σ)) ≠ 0) (b m : ℝ) :
    ∑ j ∈ J.toFinset, wb J x σ j * (m * x j + b) = b ∧ ∑ j ∈ J.toFinset, wm J x σ j * (m * x j + b) = m := by
  obtain ⟨h1, h2⟩ := solve_weights hJ x (fun j => m * x j + b) σ
  rw [← h1, ← h2]
  refine solve_exact (by rw [det_y J x _ 0]; exact hd) fun p hp => ?_
  obtain ⟨j, -, rfl⟩ := List.mem_map.1 hp
  rfl

/-- Sums of weights with coefficients `d` of another estimator. -/
theorem weights_cross {J : List ℕ} {x σ : ℕ → ℝ} (hσ : ∀ j ∈ J, σ j ≠ 0) (hd : det (J.map (point x 0 σ)) ≠ 0)
    (d : ℕ → ℝ) :
    ∑ j ∈ J.toFinset, d j * wb J x σ j * σ j ^ 2 =
        ((solve (J.map (point x 0 σ))).cbb) * ∑ j ∈ J.toFinset, d j + (solve (J.map (point x 0 σ))).cbm * ∑ j ∈ J.toFinset, d j * x j ∧
    ∑ j ∈ J.toFinset, d j * wm J x σ j * σ j ^ 2 =
        ((solve (J.map (point x 0 σ))).cmm) * ∑ j ∈ J.toFinset, d j * x j + (solve (J.map (point x 0 σ))).cbm * ∑ j ∈ J.toFinset, d j := by
  constructor
  · rw [Finset.mul_sum, Finset.mul_sum, ← Finset.sum_add_distrib]
    refine Finset.sum_congr rfl fun j hj => ?_
    have := hσ j (List.mem_toFinset.1 hj)
    unfold wb solve
    simp only
    field_simp
    ring
  · rw [Finset.mul_sum, Finset.mul_sum, ← Finset.sum_add_distrib]
    refine Finset.sum_congr rfl fun j hj => ?_
    have := hσ j (List.mem_toFinset.1 hj)
    unfold wm solve
    simp only
    field_simp
    ring

theorem weights_variance {J : List ℕ} (hJ : J.Nodup) {x σ : ℕ → ℝ} (hσ : ∀ j ∈ J, σ j ≠ 0) (hd : det (J.map (point x 0 σ)) ≠ 0) :
    ∑ j ∈ J.toFinset, (wb J x σ j * σ j) ^ 2 = (solve (J.map (point x 0 σ))).cbb ∧
    ∑ j ∈ J.toFinset, (wm J x σ j * σ j) ^ 2 = (solve (J.map (point x 0 σ))).cmm := by
  have hb := (weights_unbiased hJ hd 1 0).1
  have hb' := (weights_unbiased hJ hd 0 1).1
  have hm := (weights_unbiased hJ hd 1 0).2
  have hm' := (weights_unbiased hJ hd 0 1).2
  simp only [one_mul, add_zero, zero_mul, zero_add, mul_one] at hb hb' hm hm'
  constructor
  · have := (weights_cross hσ hd (wb J x σ)).1
    rw [hb', hb] at this
    rw [mul_one, mul_zero, add_zero] at this
    rw [← this]
    exact Finset.sum_congr rfl fun j _ => by ring
  · have := (weights_cross hσ hd (wm J x σ)).2
    rw [hm', hm] at this
    rw [mul_one, mul_zero, add_zero] at this
    rw [← this]
    exact Finset.sum_congr rfl fun j _ => by ring

/-- No other unbiased combination of the ordinates varies less. -/
theorem weights_best {J : List ℕ} (hJ : J.Nodup) {x σ : ℕ → ℝ} (hσ : ∀ j ∈ J, σ j ≠ 0) (hd : det (J.map (point x 0 σ)) ≠ 0)
    {d : ℕ → ℝ} :
    ((∀ b m, ∑ j ∈ J.toFinset, d j * (m * x j + b) = b) →
      (solve (J.map (point x 0 σ))).cbb ≤ ∑ j ∈ J.toFinset, (d j * σ j) ^ 2) ∧
    ((∀ b m, ∑ j ∈ J.toFinset, d j * (m * x j + b) = m) →
      (solve (J.map (point x 0 σ))).cmm ≤ ∑ j ∈ J.toFinset, (d j * σ j) ^ 2) := by
  obtain ⟨v1, v2⟩ := weights_variance hJ hσ hd
  have main : ∀ (a : ℕ → ℝ) (v : ℝ), ∑ j ∈ J.toFinset, (a j * σ j) ^ 2 = v → ∑ j ∈ J.toFinset, d j * a j * σ j ^ 2 = v →
      v ≤ ∑ j ∈ J.toFinset, (d j * σ j) ^ 2 := by
    intro a v h1 h2
    have h3 : 0 ≤ ∑ j ∈ J.toFinset, (d j * σ j - a j * σ j) ^ 2 := Finset.sum_nonneg fun j _ => sq_nonneg _
    have e : ∑ j ∈ J.toFinset, (d j * σ j - a j * σ j) ^ 2 = ∑ j ∈ J.toFinset, (d j * σ j) ^ 2 -
        2 * ∑ j ∈ J.toFinset, d j * a j * σ j ^ 2 + ∑ j ∈ J.toFinset, (a j * σ j) ^ 2 := by
      rw [Finset.mul_sum, ← Finset.sum_sub_distrib, ← Finset.sum_add_distrib]
      exact Finset.sum_congr rfl fun j _ => by ring
    rw [e, h1, h2] at h3
    linarith
  constructor
  · intro h
    refine main (wb J x σ) _ v1 ?_
    have h0 := h 0 1
    have h1 := h 1 0
    simp only [one_mul, add_zero, zero_mul, zero_add, mul_one] at h0 h1
    rw [(weights_cross hσ hd d).1, h0, h1]
    ring
  · intro h
    refine main (wm J x σ) _ v2 ?_
    have h0 := h 0 1
    have h1 := h 1 0
    simp only [one_mul, add_zero, zero_mul, zero_add, mul_one] at h0 h1
    rw [(weights_cross hσ hd d).2, h0, h1]
    ring

end Verif.LineFit
