import Verif.IvErrorLemmas
import Verif.IvLimitEx

/-! A measurement as in property C151. -/

namespace Verif.Iv
open Verif LineFit MeasureTheory ProbabilityTheory Filter Topology

/-- The measurement `bench` with errors `u` of the voltages of the normal points. -/
noncomputable def probe (u : ℝ) : Obj :=
  ⟨⟨1, 1, 4, fun _ _ k => if k = 3 then some ⟨2, 1, 7, 1⟩ else some ⟨10 * k + 10, u, 10 * k + 13, 1⟩⟩,
    some ⟨1, 1, 4, fun _ _ _ => ⟨1 / 2, 1 / 10⟩⟩, some [0, 1, 2]⟩

/-- One of the readings, at random, or the load resistance is too high or too low. -/
noncomputable def jitter (u : ℝ) (ω : Bool × ZMod 9) : Errs :=
  ⟨fun _ _ k => (if k = 3 then 1 else u) * Device.jolt 9 3 ω ((k + 4 : ℕ) : ZMod 9), fun _ _ k => Device.jolt 9 3 ω (k : ZMod 9),
    fun _ _ _ => 1 / 10 * Device.jolt 9 3 ω ((8 : ℕ) : ZMod 9)⟩

theorem probe_nums (u : ℝ) : (vbs fun k => (probe u).data.get 0 0 k) = (vbs fun k => bench.data.get 0 0 k) ∧
    (ys fun k => (probe u).data.get 0 0 k) = (ys fun k => bench.data.get 0 0 k) ∧
    (ss fun k => (probe u).data.get 0 0 k) = ss fun k => bench.data.get 0 0 k := by
  refine ⟨?_, ?_, ?_⟩ <;> funext k <;> simp only [vbs, ys, ss, bench, probe] <;> split_ifs <;> rfl

theorem probe_nodup (u : ℝ) : (([0, 1, 2] : List ℤ).map (place (probe u).data.n2)).Nodup := by
  show (([0, 1, 2] : List ℤ).map (place 4)).Nodup
  decide

theorem probe_line (u : ℝ) : ∀ i ∈ ([0, 1, 2] : List ℤ), ∀ r, (probe u).data.get 0 0 (place (probe u).data.n2 i) = some r →
    r.dites = r.vb / 1 + 3 := by
  intro i hi r hr
  have key : ∀ j : ℕ, j ≠ 3 → (probe u).data.get 0 0 j = some r → r.dites = r.vb / 1 + 3 := by
    intro j hj h
    simp only [probe, if_neg hj, Option.some.injEq] at h
    subst h
    ring
  fin_cases hi
  · exact key 0 (by decide) hr
  · exact key 1 (by decide) hr
  · exact key 2 (by decide) hr

theorem probe_ok (u : ℝ) : ∃ res, calcIv (probe u) = .ok res := by
  obtain ⟨res, h⟩ := bench_ok (v := fun _ _ _ => 0) (by simp)
  have h0 : bench.noisy (fun _ _ _ => 0) = bench := by
    unfold Obj.noisy
    simp
  rw [h0] at h
  obtain ⟨fits, rl, hf, -⟩ := calcIv_iff.1 h
  refine ⟨_, calcIv_iff.2 ⟨fits, _, ?_, rfl, by norm_num [probe], rfl⟩⟩
  have hrow : ∀ t c, rowFit ((probe u).row t c) (probe u).normalinds = rowFit (bench.row t c) bench.normalinds := by
    intro t c
    have : ((probe u).row t c).map pt = (bench.row t c).map pt := by
      unfold Obj.row
      rw [List.map_map, List.map_map]
      refine List.map_congr_left fun k _ => ?_
      simp only [Function.comp, probe, bench]
      split_ifs <;> rfl
    unfold rowFit
    rw [this]
    rfl
  unfold Obj.fits at hf ⊢
  simp only [hrow]
  exact hf

theorem probe_stated (u : ℝ) : Stated (Device.throws 9) (probe u) 0 0 (jitter u) := by
  have h := Device.jolt_stationary 9 3
  have cov : ∀ i j : ℕ, i < 9 → j < 9 → ∫ ω, Device.jolt 9 3 ω (i : ZMod 9) * Device.jolt 9 3 ω (j : ZMod 9) ∂Device.throws 9 =
      if i = j then 1 else 0 := by
    intro i j hi hj
    rw [h.cov]
    have : ((i : ZMod 9) - (j : ZMod 9) = 0) ↔ i = j := by
      rw [sub_eq_zero, ZMod.natCast_eq_natCast_iff', Nat.mod_eq_of_lt hi, Nat.mod_eq_of_lt hj]
    simp only [this]
    norm_num
  have n2 : (probe u).data.n2 = 4 := rfl
  have cov' : ∀ (a b : ℝ) (i j : ℕ), i < 9 → j < 9 →
      ∫ ω, (a * Device.jolt 9 3 ω (i : ZMod 9)) * (b * Device.jolt 9 3 ω (j : ZMod 9)) ∂Device.throws 9 = if i = j then a * b else 0 := by
    intro a b i j hi hj
    have : ∀ ω, (a * Device.jolt 9 3 ω (i : ZMod 9)) * (b * Device.jolt 9 3 ω (j : ZMod 9)) =
        (a * b) * (Device.jolt 9 3 ω (i : ZMod 9) * Device.jolt 9 3 ω (j : ZMod 9)) := fun ω => by ring
    simp only [this]
    rw [integral_const_mul, cov i j hi hj]
    split_ifs <;> simp
  refine ⟨⟨fun i _ => h.sq_int i, fun i _ => h.mean i, fun i hi j hj => ?_⟩,
    ⟨fun i _ => (h.sq_int _).const_mul _, fun i _ => ?_, fun i hi j hj => ?_⟩, fun rl hrl k _ => ⟨(h.sq_int _).const_mul _, ?_, ?_⟩,
    fun j hj k hk => ?_, fun j hj k hk => ?_, fun j hj k hk => ?_⟩
  · rw [n2] at hi hj
    rw [show ∫ ω, (jitter u ω).dites 0 0 i * (jitter u ω).dites 0 0 j ∂Device.throws 9 = _ from cov i j (by omega) (by omega)]
    have he : (probe u).errs 0 0 i = 1 := by
      simp only [Obj.errs, probe]
      split_ifs <;> rfl
    rw [he, one_pow]
  · show ∫ ω, (if i = 3 then 1 else u) * Device.jolt 9 3 ω ((i + 4 : ℕ) : ZMod 9) ∂Device.throws 9 = 0
    rw [integral_const_mul, h.mean, mul_zero]
  · rw [n2] at hi hj
    rw [show ∫ ω, (jitter u ω).vb 0 0 i * (jitter u ω).vb 0 0 j ∂Device.throws 9 = _ from cov' _ _ (i + 4) (j + 4) (by omega) (by omega)]
    have he : (probe u).voltErrs 0 0 i = if i = 3 then 1 else u := by
      simp only [Obj.voltErrs, probe]
      split_ifs <;> rfl
    rw [he]
    by_cases hij : i = j
    · subst hij
      rw [if_pos rfl, if_pos rfl, sq]
    · rw [if_neg (by omega), if_neg hij]
  · show ∫ ω, 1 / 10 * Device.jolt 9 3 ω ((8 : ℕ) : ZMod 9) ∂Device.throws 9 = 0
    rw [integral_const_mul, h.mean, mul_zero]
  · have hc := cov' (1 / 10) (1 / 10) 8 8 (by norm_num) (by norm_num)
    simp only [← sq] at hc
    refine hc.trans ?_
    have : (probe u).rload = some ⟨1, 1, 4, fun _ _ _ => ⟨1 / 2, 1 / 10⟩⟩ := rfl
    rw [this] at hrl
    cases hrl
    norm_num
  · rw [n2] at hj hk
    have hc := cov' 1 (if k = 3 then 1 else u) j (k + 4) (by omega) (by omega)
    rw [if_neg (show ¬ j = k + 4 by omega)] at hc
    simp only [one_mul] at hc
    exact hc
  · rw [n2] at hj hk
    have hc := cov' 1 (1 / 10) j 8 (by omega) (by omega)
    rw [if_neg (by omega)] at hc
    simp only [one_mul] at hc
    exact hc
  · rw [n2] at hj hk
    have hc := cov' (if j = 3 then 1 else u) (1 / 10) (j + 4) 8 (by omega) (by omega)
    rw [if_neg (show ¬ j + 4 = 8 by omega)] at hc
    exact hc

end Verif.Iv
