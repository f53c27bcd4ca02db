import Verif.IvLimitLemmas
import Verif.DeviceLimitEx

/-! A measurement as in property C148. -/

namespace Verif.Iv
open Verif LineFit MeasureTheory ProbabilityTheory Filter Topology

/-- Three normal points on the line with offset 3 and resistance 1 and a point with a lower resistance. -/
noncomputable def bench : Obj :=
  ⟨⟨1, 1, 4, fun _ _ k => if k = 3 then some ⟨2, 0, 7, 1⟩ else some ⟨10 * k + 10, 0, 10 * k + 13, 1⟩⟩,
    some ⟨1, 1, 4, fun _ _ _ => ⟨1 / 2, 1 / 10⟩⟩, some [0, 1, 2]⟩

/-- One of the currents, at random, is 2 too high or too low. -/
noncomputable def shake (ω : Bool × ZMod 4) (_ _ k : ℕ) : ℝ := Device.jolt 4 2 ω k

theorem bench_place : ([0, 1, 2] : List ℤ).map (place bench.data.n2) = [0, 1, 2] := rfl

theorem bench_nums : (vbs fun k => bench.data.get 0 0 k) = (fun k : ℕ => if k = 3 then 2 else 10 * (k : ℝ) + 10) ∧
    (ss fun k => bench.data.get 0 0 k) = fun _ => 1 := by
  constructor <;> funext k <;> simp only [vbs, ss, bench] <;> split_ifs <;> rfl

theorem bench_sums : wsum (fun _ => 1) (([0, 1, 2] : List ℕ).map (point (fun k => if k = 3 then 2 else 10 * (k : ℝ) + 10) 0 fun _ => 1)) = 3 ∧
    wsum (fun p => p.x) (([0, 1, 2] : List ℕ).map (point (fun k => if k = 3 then 2 else 10 * (k : ℝ) + 10) 0 fun _ => 1)) = 60 ∧
    wsum (fun p => p.x ^ 2) (([0, 1, 2] : List ℕ).map (point (fun k => if k = 3 then 2 else 10 * (k : ℝ) + 10) 0 fun _ => 1)) = 1400 ∧
    det (([0, 1, 2] : List ℕ).map (point (fun k => if k = 3 then 2 else 10 * (k : ℝ) + 10) 0 fun _ => 1)) = 600 := by
  have h1 : wsum (fun _ => 1) (([0, 1, 2] : List ℕ).map (point (fun k => if k = 3 then 2 else 10 * (k : ℝ) + 10) 0 fun _ => 1)) = 3 := by
    norm_num [wsum, point]
  have h2 : wsum (fun p => p.x) (([0, 1, 2] : List ℕ).map (point (fun k => if k = 3 then 2 else 10 * (k : ℝ) + 10) 0 fun _ => 1)) = 60 := by
    norm_num [wsum, point]
  have h3 : wsum (fun p => p.x ^ 2) (([0, 1, 2] : List ℕ).map (point (fun k => if k = 3 then 2 else 10 * (k : ℝ) + 10) 0 fun _ => 1)) = 1400 := by
    norm_num [wsum, point]
  refine ⟨h1, h2, h3, ?_⟩
  unfold det
  rw [h1, h2, h3]
  norm_num

theorem bench_weights (j : ℕ) : wb [0, 1, 2] (fun k => if k = 3 then 2 else 10 * (k : ℝ) + 10) (fun _ => 1) j =
      (1400 - 60 * if j = 3 then 2 else 10 * (j : ℝ) + 10) / 600 ∧
    wm [0, 1, 2] (fun k => if k = 3 then 2 else 10 * (k : ℝ) + 10) (fun _ => 1) j =
      (3 * (if j = 3 then 2 else 10 * (j : ℝ) + 10) - 60) / 600 := by
  obtain ⟨h1, h2, h3, h4⟩ := bench_sums
  unfold wb wm
  rw [h1, h2, h3, h4]
  norm_num

theorem shake_small (ω : Bool × ZMod 4) (t c k : ℕ) : |shake ω t c k| ≤ 2 := by
  unfold shake Device.jolt
  split_ifs <;> norm_num

theorem bench_ok {v : ℕ → ℕ → ℕ → ℝ} (hv : ∀ t c k, |v t c k| ≤ 2) : ∃ res, calcIv (bench.noisy v) = .ok res := by
  obtain ⟨n1, n2, n3⟩ := noisy_nums bench v 0 0
  obtain ⟨m1, m2⟩ := bench_nums
  have hrow : ∃ r, rowFit ((List.range 4).map fun k => (bench.noisy v).data.get 0 0 k) (some [0, 1, 2]) = .ok r := by
    have hy : ∀ j ∈ ([0, 1, 2] : List ℕ), ys (fun k => (bench.noisy v).data.get 0 0 k) j = 10 * (j : ℝ) + 13 + v 0 0 j := by
      intro j hj
      rw [n3 j (by simp only [bench]; split_ifs <;> rfl)]
      simp only [ys, bench]
      fin_cases hj <;> simp
    have hd : det (([0, 1, 2] : List ℕ).map (point (vbs fun k => (bench.noisy v).data.get 0 0 k)
        (ys fun k => (bench.noisy v).data.get 0 0 k) (ss fun k => (bench.noisy v).data.get 0 0 k))) = 600 := by
      rw [n1, n2, m1, m2, det_y _ _ _ 0]
      exact bench_sums.2.2.2
    have hm : (solve (([0, 1, 2] : List ℕ).map (point (vbs fun k => (bench.noisy v).data.get 0 0 k)
        (ys fun k => (bench.noisy v).data.get 0 0 k) (ss fun k => (bench.noisy v).data.get 0 0 k)))).m ≠ 0 := by
      rw [n1, n2, m1, m2, (solve_weights (by decide) _ _ _).2]
      have e : ([0, 1, 2] : List ℕ).toFinset = {0, 1, 2} := rfl
      rw [e, Finset.sum_insert (by decide), Finset.sum_insert (by decide), Finset.sum_singleton, (bench_weights 0).2,
        (bench_weights 1).2, (bench_weights 2).2, hy 0 (by decide), hy 1 (by decide), hy 2 (by decide)]
      have a0 := abs_le.1 (hv 0 0 0)
      have a2 := abs_le.1 (hv 0 0 2)
      norm_num
      intro h0
      linarith
    exact ⟨_, rowFit_iff.2 ⟨by decide, fun j _ => by simp only [Obj.noisy, bench]; split_ifs <;> rfl, _, curveFit_points.2
      ⟨by simp, fun p hp => by
        obtain ⟨j, -, rfl⟩ := List.mem_map.1 hp
        show (ss fun k => (bench.noisy v).data.get 0 0 k) j ≠ 0
        rw [n2, m2]
        exact one_ne_zero, fun h0 => by
        have := hd.symm.trans h0
        norm_num at this, rfl⟩, hm, rfl⟩⟩
  obtain ⟨r, hr⟩ := hrow
  refine ⟨_, calcIv_iff.2 ⟨[[r]], _, ?_, rfl, by norm_num [Obj.noisy, bench], rfl⟩⟩
  show (List.range 1).mapM (fun t => (List.range 1).mapM fun c => rowFit ((bench.noisy v).row t c) (some [0, 1, 2])) = _
  have : ∀ t < 1, (List.range 1).mapM (fun c => rowFit ((bench.noisy v).row t c) (some [0, 1, 2])) = .ok [r] := fun t ht => by
    obtain rfl : t = 0 := by omega
    exact mapM_all (g := fun _ => r) fun c hc => by
      obtain rfl : c = 0 := by omega
      exact hr
  exact mapM_all (g := fun _ => [r]) this

theorem bench_scatter : Scatter (Device.throws 4) (fun ω => shake ω 0 0) (bench.errs 0 0) bench.data.n2 := by
  have h := Device.jolt_stationary 4 2
  refine ⟨fun i _ => h.sq_int i, fun i _ => h.mean i, fun i hi j hj => ?_⟩
  rw [show ∫ ω, shake ω 0 0 i * shake ω 0 0 j ∂Device.throws 4 = _ from h.cov i j]
  have hi' : i < 4 := hi
  have hj' : j < 4 := hj
  have he : bench.errs 0 0 i = 1 := by
    simp only [Obj.errs, bench]
    split_ifs <;> rfl
  rw [he]
  have : ((i : ZMod 4) - (j : ZMod 4) = 0) ↔ i = j := by
    rw [sub_eq_zero, ZMod.natCast_eq_natCast_iff', Nat.mod_eq_of_lt hi', Nat.mod_eq_of_lt hj']
  simp only [this]
  norm_num

/-- The hypotheses of the theorems above can be met. -/
theorem bench_study : ∃ res, Study (Device.throws 4) bench [0, 1, 2] 0 0 3 1 shake res := by
  choose res hres using fun ω : Bool × ZMod 4 => bench_ok (v := shake ω) (shake_small ω)
  refine ⟨res, rfl, by decide, Nat.one_pos, Nat.one_pos, fun i hi r hr => ?_, bench_scatter, Eventually.of_forall hres⟩
  have key : ∀ j : ℕ, j ≠ 3 → bench.data.get 0 0 j = some r → r.dites = r.vb / 1 + 3 := by
    intro j hj h
    simp only [bench, if_neg hj, Option.some.injEq] at h
    subst h
    ring
  fin_cases hi
  · exact key 0 (by decide) hr
  · exact key 1 (by decide) hr
  · exact key 2 (by decide) hr

end Verif.Iv
