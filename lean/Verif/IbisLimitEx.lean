import Verif.IbisLimitLemmas
import Verif.IbisProps
import Verif.DeviceLimitEx

/-! A measurement as in property C149. -/

namespace Verif.Ibis
open Verif LineFit MeasureTheory ProbabilityTheory Filter Topology
open Verif.Iv (A3 Nd ValErr)

/-- Normal points on `dites = ibias/2 + 50` and superconducting points on `dites = ibias`. -/
noncomputable def bench : Obj where
  data := ⟨1, 1, 6, fun _ _ k => some (if k < 3 then ⟨100 * k + 300, 0, 50 * k + 200, 1⟩ else ⟨100 * k - 400, 0, 100 * k - 400, 1⟩)⟩
  rsh := 1
  rshErr := 0
  normalinds := [0, 1, 2]
  fitsc := true
  scinds := some [3, 4, 5]
  rp := none

/-- One of the currents, at random, is too high or too low by the root of 6. -/
noncomputable def shake (ω : Bool × ZMod 6) (_ _ k : ℕ) : ℝ := Device.jolt 6 (Real.sqrt 6) ω k

theorem shake_small (ω : Bool × ZMod 6) (t c k : ℕ) : |shake ω t c k| ≤ 3 := by
  have h : Real.sqrt 6 ≤ 3 := by
    rw [Real.sqrt_le_left (by norm_num)]
    norm_num
  have h0 := Real.sqrt_nonneg 6
  unfold shake Device.jolt
  split_ifs
  · rwa [abs_of_nonneg h0]
  · rwa [abs_neg, abs_of_nonneg h0]
  · norm_num

theorem bench_nums : (xs fun k => bench.data.get 0 0 k) = (fun k : ℕ => if k < 3 then 100 * (k : ℝ) + 300 else 100 * k - 400) ∧
    (ss fun k => bench.data.get 0 0 k) = fun _ => 1 := by
  constructor <;> funext k <;> simp only [xs, ss, bench, Option.elim] <;> split_ifs <;> rfl

theorem bench_ok {v : ℕ → ℕ → ℕ → ℝ} (hv : ∀ t c k, |v t c k| ≤ 3) : ∃ res, analyze (bench.noisy v) .none .none = .ok res := by
  obtain ⟨n1, n2, n3⟩ := noisy_nums bench v 0 0
  obtain ⟨m1, m2⟩ := bench_nums
  have hv' := fun k => abs_le.1 (hv 0 0 k)
  have hy : ∀ j, ys (fun k => (bench.noisy v).data.get 0 0 k) j =
      (if j < 3 then 50 * (j : ℝ) + 200 else 100 * j - 400) + v 0 0 j := by
    intro j
    rw [n3 j rfl]
    congr 1
    simp only [ys, bench, Option.elim]
    split_ifs <;> rfl
  -- one line
  have row : ∀ (a : ℕ) (f0 : ℝ) (inds : List ℤ), inds.map (place 6) = [a, a + 1, a + 2] → (∀ i ∈ inds, -(6 : ℤ) ≤ i ∧ i < 6) →
      det (([a, a + 1, a + 2] : List ℕ).map (point (xs fun k => (bench.noisy v).data.get 0 0 k)
        (ys fun k => (bench.noisy v).data.get 0 0 k) (ss fun k => (bench.noisy v).data.get 0 0 k))) ≠ 0 →
      (solve (([a, a + 1, a + 2] : List ℕ).map (point (xs fun k => (bench.noisy v).data.get 0 0 k)
        (ys fun k => (bench.noisy v).data.get 0 0 k) (ss fun k => (bench.noisy v).data.get 0 0 k)))).m = f0 → f0 ≠ 0 →
      ∃ f, (bench.noisy v).fits inds = .ok [[f]] ∧ f.m = f0 := by
    intro a f0 inds hp hr hd hm hm0
    let f := solve (([a, a + 1, a + 2] : List ℕ).map (point (xs fun k => (bench.noisy v).data.get 0 0 k)
        (ys fun k => (bench.noisy v).data.get 0 0 k) (ss fun k => (bench.noisy v).data.get 0 0 k)))
    have hrow : lineOf (((bench.noisy v).row 0 0).map pt) inds = .ok f := by
      refine lineOf_iff.2 ⟨hr, fun j _ => rfl, ?_, ?_⟩
      · show curveFit (((inds.map (place 6)).map _).map some) = _
        rw [hp]
        refine curveFit_points.2 ⟨by simp, fun p hp => ?_, hd, rfl⟩
        obtain ⟨j, -, rfl⟩ := List.mem_map.1 hp
        show (ss fun k => (bench.noisy v).data.get 0 0 k) j ≠ 0
        rw [n2, m2]
        exact one_ne_zero
      · rw [hm]
        exact hm0
    refine ⟨f, ?_, hm⟩
    rw [fits_lineOf]
    show (List.range 1).mapM (fun t => (List.range 1).mapM fun c => lineOf (((bench.noisy v).row t c).map pt) inds) = _
    have : ∀ t < 1, (List.range 1).mapM (fun c => lineOf (((bench.noisy v).row t c).map pt) inds) = .ok [f] := fun t ht => by
      obtain rfl : t = 0 := by omega
      exact LineFit.mapM_all (g := fun _ => f) fun c hc => by
        obtain rfl : c = 0 := by omega
        exact hrow
    exact LineFit.mapM_all (g := fun _ => [f]) this
  have d1 : det (([0, 1, 2] : List ℕ).map (point (xs fun k => (bench.noisy v).data.get 0 0 k)
      (ys fun k => (bench.noisy v).data.get 0 0 k) (ss fun k => (bench.noisy v).data.get 0 0 k))) = 60000 := by
    rw [n1, n2, m1, m2]
    norm_num [det, wsum, point]
  have d2 : det (([3, 4, 5] : List ℕ).map (point (xs fun k => (bench.noisy v).data.get 0 0 k)
      (ys fun k => (bench.noisy v).data.get 0 0 k) (ss fun k => (bench.noisy v).data.get 0 0 k))) = 60000 := by
    rw [n1, n2, m1, m2]
    norm_num [det, wsum, point]
  have s1 : (solve (([0, 1, 2] : List ℕ).map (point (xs fun k => (bench.noisy v).data.get 0 0 k)
      (ys fun k => (bench.noisy v).data.get 0 0 k) (ss fun k => (bench.noisy v).data.get 0 0 k)))).m =
      1 / 2 + (v 0 0 2 - v 0 0 0) / 200 := by
    unfold solve
    rw [d1, n1, n2, m1, m2]
    simp only [wsum, point, List.map, hy]
    norm_num
    ring
  have s2 : (solve (([3, 4, 5] : List ℕ).map (point (xs fun k => (bench.noisy v).data.get 0 0 k)
      (ys fun k => (bench.noisy v).data.get 0 0 k) (ss fun k => (bench.noisy v).data.get 0 0 k)))).m =
      1 + (v 0 0 5 - v 0 0 3) / 200 := by
    unfold solve
    rw [d2, n1, n2, m1, m2]
    simp only [wsum, point, List.map, hy]
    norm_num
    ring
  have b0 := hv' 0
  have b2 := hv' 2
  have b3 := hv' 3
  have b5 := hv' 5
  obtain ⟨f, hf, ef⟩ := row 0 _ [0, 1, 2] rfl (by decide) (by rw [d1]; norm_num) s1 (by intro h; linarith)
  obtain ⟨s, hs, es⟩ := row 3 _ [3, 4, 5] rfl (by decide) (by rw [d2]; norm_num) s2 (by intro h; linarith)
  unfold analyze
  rw [show (bench.noisy v).normalinds = [0, 1, 2] from rfl, hf]
  simp only
  have hq : (bench.noisy v).scFits [[f]] = .ok ([[s]], .inr fun s => ⟨1 / s.m * (bench.noisy v).rsh - (bench.noisy v).rsh,
      Real.sqrt (((bench.noisy v).rsh * invVar s) ^ 2 + ((1 / s.m - 1) * (bench.noisy v).rshErr) ^ 2)⟩) := by
    rw [Obj.scFits, if_pos (show (bench.noisy v).fitsc = true from rfl)]
    change (match (bench.noisy v).fits [3, 4, 5] with | .error e => _ | .ok sf => _) = _
    rw [hs]
    simp only
    rw [if_neg (by simp [bench, Obj.noisy]), if_neg]
    rintro ⟨t, ht, c, hc, e⟩
    have ht : t = 0 := by simpa [bench, Obj.noisy] using ht
    have hc : c = 0 := by simpa [bench, Obj.noisy] using hc
    subst ht hc
    change s.m = f.m at e
    rw [es, ef] at e
    linarith
  rw [hq]
  exact ⟨_, rfl⟩

theorem bench_scatter : Scatter (Device.throws 6) (fun ω => shake ω 0 0) (bench.errs 0 0) bench.data.n2 := by
  have h := Device.jolt_stationary 6 (Real.sqrt 6)
  refine ⟨fun i _ => h.sq_int i, fun i _ => h.mean i, fun i hi j hj => ?_⟩
  rw [show ∫ ω, shake ω 0 0 i * shake ω 0 0 j ∂Device.throws 6 = _ from h.cov i j]
  have hi' : i < 6 := hi
  have hj' : j < 6 := hj
  have he : bench.errs 0 0 i = 1 := by
    simp only [Obj.errs, bench, Option.elim]
    split_ifs <;> rfl
  rw [he]
  have : ((i : ZMod 6) - (j : ZMod 6) = 0) ↔ i = j := by
    rw [sub_eq_zero, ZMod.natCast_eq_natCast_iff', Nat.mod_eq_of_lt hi', Nat.mod_eq_of_lt hj']
  simp only [this]
  norm_num

theorem bench_lines : OnLine bench 0 0 [0, 1, 2] (1 / 2) 50 ∧ OnLine bench 0 0 [3, 4, 5] 1 0 := by
  constructor
  · intro i hi r hr
    have key : ∀ j : ℕ, j < 3 → bench.data.get 0 0 j = some r → r.dites = 1 / 2 * r.ibias + 50 := by
      intro j hj h
      simp only [bench, if_pos hj, Option.some.injEq] at h
      subst h
      ring
    fin_cases hi
    · exact key 0 (by decide) hr
    · exact key 1 (by decide) hr
    · exact key 2 (by decide) hr
  · intro i hi r hr
    have key : ∀ j : ℕ, ¬ j < 3 → bench.data.get 0 0 j = some r → r.dites = 1 * r.ibias + 0 := by
      intro j hj h
      simp only [bench, if_neg hj, Option.some.injEq] at h
      subst h
      ring
    fin_cases hi
    · exact key 3 (by decide) hr
    · exact key 4 (by decide) hr
    · exact key 5 (by decide) hr

theorem demo_follows : FollowsCircuit (demo true none) 0 0 [0, 1, 2] 1 1 (1 + 0 + 1) ∧
    FollowsCircuit (demo true none) 0 0 [3, 4, 5] 1 1 (1 + 0) := by
  have h1 : ∀ inds l, Iv.NormalPts (((demo true none).row 0 0).map pt) (some inds) l → ∀ l', Iv.fancy ((normPts ++ scPts).map some) inds =
      .ok (l'.map some) → l = l' := by
    intro inds l hl l' hf
    have : Iv.fancy (((demo true none).row 0 0).map pt) inds = .ok (l.map some) :=
      fancy_of (by rw [List.forall₂_map_right_iff]; exact hl)
    rw [demo_row, hf] at this
    exact (Iv.map_some_inj (Except.ok.inj this)).symm
  constructor
  · intro l hl p hp
    rw [h1 _ l hl normPts rfl] at hp
    simp only [normPts, List.mem_cons, List.not_mem_nil, or_false] at hp
    rcases hp with rfl | rfl | rfl <;> norm_num [demo]
  · intro l hl p hp
    rw [h1 _ l hl scPts rfl] at hp
    simp only [scPts, List.mem_cons, List.not_mem_nil, or_false] at hp
    rcases hp with rfl | rfl | rfl <;> norm_num [demo]

end Verif.Ibis
