import Verif.CutOutLemmas
import Verif.CutKeepLemmas
import Verif.CutAutoLemmas
import Mathlib.Topology.Algebra.Order.Field
import Mathlib.Analysis.SpecialFunctions.Sqrt

/-! Auxiliary lemmas of property C165. -/

namespace Verif.Cut
open Verif Filter

theorem roLoop_succ (deg : Option ℝ) (x : List (WithTop ℝ)) (mi : ℤ) (target : ℝ) (f : ℕ) (i : ℤ) (inds : List Bool)
    (hist : List (List Bool)) (ha : above (skew deg (finite (sel x inds))) target) {inds' : List Bool}
    (hp : roPass x inds = .ok inds') :
    roLoop deg x mi target (f + 1) i inds hist =
      if i > mi then some (.ok (inds' :: inds :: hist)) else roLoop deg x mi target f (i + 1) inds' (inds :: hist) := by
  rw [roLoop, if_pos ha, hp]

/-- A point which is out stays out. -/
theorem roLoop_out {deg : Option ℝ} {x : List (WithTop ℝ)} {mi : ℤ} {target : ℝ} {f : ℕ} {i : ℤ} {inds : List Bool}
    {hist ms : List (List Bool)} (hl : inds.length = x.length) (h : roLoop deg x mi target f i inds hist = some (.ok ms)) {j : ℕ}
    (hj : inds[j]? = some false) : (ms.headD [])[j]? = some false := by
  induction f generalizing i inds hist with
  | zero => simp [roLoop] at h
  | succ f ih =>
    by_cases ha : above (skew deg (finite (sel x inds))) target
    · have hx := above_ne_nil ha
      obtain ⟨med, dist, hp⟩ := roPass_ok hx inds
      set inds' := List.zipWith (fun b d => b && decide (WithTop.map (fun v : ℝ => |v|) d < dist))
        inds (x.map (WithTop.map fun v => v - med)) with hi
      have hl' : inds'.length = x.length := by simp [inds', hl]
      have hj' : inds'[j]? = some false := by
        have hjx : j < x.length := hl ▸ (List.getElem?_eq_some_iff.1 hj).1
        rw [hi, List.getElem?_zipWith, hj, List.getElem?_map, List.getElem?_eq_getElem hjx]
        simp
      rw [roLoop_succ _ _ _ _ _ _ _ _ ha hp] at h
      by_cases h1 : i > mi
      · rw [if_pos h1] at h
        obtain rfl : inds' :: inds :: hist = ms := by simpa using h
        exact hj'
      · rw [if_neg h1] at h
        exact ih hl' h hj'
    · rw [roLoop, if_neg ha] at h
      obtain rfl : inds :: hist = ms := by simpa using h
      exact hj

/-- Both ends of the data leave in the first pass. -/
theorem ends_out {deg : Option ℝ} {x : List ℝ} {mi : ℤ} {target : ℝ} {f : ℕ} {m : List Bool} (ha : above (skew deg x) target)
    (h : removeoutliers deg f (x.map fun v => ((v : ℝ) : WithTop ℝ)) mi target = some (.ok m)) {j : ℕ} {v : ℝ} (hj : x[j]? = some v)
    (hv : (∀ y ∈ x, v ≤ y) ∨ ∀ y ∈ x, y ≤ v) : m[j]? = some false := by
  have hjl := (List.getElem?_eq_some_iff.1 hj).1
  have hmem : v ∈ x := List.mem_of_getElem? hj
  have hx : x ≠ [] := List.ne_nil_of_mem hmem
  obtain ⟨lo, hlo⟩ := Option.ne_none_iff_exists'.1 (mt List.min?_eq_none_iff.1 hx)
  obtain ⟨hi, hhi⟩ := Option.ne_none_iff_exists'.1 (mt List.max?_eq_none_iff.1 hx)
  have hlo' := List.min?_eq_some_iff.1 hlo
  have hhi' := List.max?_eq_some_iff.1 hhi
  have e : (x.map fun v => ((v : ℝ) : WithTop ℝ)).map (fun v => decide (v ≠ ⊤)) = List.replicate x.length true := by
    rw [List.map_map, ← List.map_const']
    apply List.map_congr_left
    intro v _
    simp
  unfold removeoutliers roMasks at h
  rw [e] at h
  cases f with
  | zero => simp [roLoop] at h
  | succ f =>
    have ha' : above (skew deg (finite (sel (x.map fun v => ((v : ℝ) : WithTop ℝ)) (List.replicate x.length true)))) target := by
      rwa [finite_sel_coe, sel_replicate]
    have hp := roPass_real hlo hhi (List.replicate x.length true)
    rw [sel_replicate] at hp
    set inds' := List.zipWith (fun b v => b && decide (|v - median x| < min |lo - median x| |hi - median x|))
      (List.replicate x.length true) x with hi'
    have hl' : inds'.length = (x.map fun v => ((v : ℝ) : WithTop ℝ)).length := by simp [inds']
    have hj' : inds'[j]? = some false := by
      rw [hi', List.getElem?_zipWith, hj, List.getElem?_replicate, if_pos hjl]
      simp only [Bool.true_and, Option.some.injEq, decide_eq_false_iff_not, not_lt]
      rcases hv with hv | hv
      · rw [le_antisymm (hv lo hlo'.1) (hlo'.2 v hmem)]
        exact min_le_left _ _
      · rw [le_antisymm (hhi'.2 v hmem) (hv hi hhi'.1)]
        exact min_le_right _ _
    rw [roLoop_succ _ _ _ _ _ _ _ _ ha' hp] at h
    by_cases h1 : 1 > mi
    · rw [if_pos h1] at h
      obtain rfl : inds' = m := by simpa [Except.map] using h
      exact hj'
    · rw [if_neg h1] at h
      cases hr : roLoop deg (x.map fun v => ((v : ℝ) : WithTop ℝ)) mi target f (1 + 1) inds' [List.replicate x.length true] with
      | none => rw [hr] at h; simp at h
      | some r =>
        rw [hr] at h
        cases r with
        | error e => simp [Except.map] at h
        | ok ms =>
          obtain rfl : ms.headD [] = m := by simpa [Except.map] using h
          exact roLoop_out hl' hr hj'

/-! ### The skewness -/

theorem sum_cube (l : List ℝ) (b t : ℝ) : (l.map fun x => (x - (b + t)) ^ 3).sum = (l.map fun x => (x - b) ^ 3).sum -
    3 * t * (l.map fun x => (x - b) ^ 2).sum + 3 * t ^ 2 * (l.sum - l.length * b) - l.length * t ^ 3 := by
  induction l with
  | nil => simp
  | cons a l ih =>
    simp only [List.map_cons, List.sum_cons, ih, List.length_cons, Nat.cast_add, Nat.cast_one]
    ring

theorem sum_moment {l : List ℝ} (hl : l ≠ []) (k : ℕ) : (l.map fun x => (x - avg l) ^ k).sum = l.length * moment k l := by
  have := length_pos' hl
  have e : moment k l = (l.map fun x => (x - avg l) ^ k).sum / l.length := by
    unfold moment
    generalize avg l = b
    rw [avg, List.length_map]
  rw [e]
  field_simp

theorem moment_three_insert {pre post : List ℝ} {o : ℝ} (hb : pre ++ post ≠ []) :
    moment 3 (pre ++ o :: post) * ((pre ++ post).length + 1) ^ 3 =
      (pre ++ post).length * (((pre ++ post).length + 1) ^ 2 * moment 3 (pre ++ post) -
        3 * ((pre ++ post).length + 1) * moment 2 (pre ++ post) * (o - avg (pre ++ post)) +
        ((pre ++ post).length - 1) * (o - avg (pre ++ post)) ^ 3) := by
  have hne : pre ++ o :: post ≠ [] := by simp
  have h := length_pos' hb
  have e2 : ((pre ++ o :: post).length : ℝ) = (pre ++ post).length + 1 := by
    simp only [List.length_append, List.length_cons, Nat.cast_add, Nat.cast_one]
    ring
  have h1 := sum_moment hne 3
  have h2 : ((pre ++ o :: post).map fun x => (x - avg (pre ++ o :: post)) ^ 3).sum =
      (o - avg (pre ++ o :: post)) ^ 3 + ((pre ++ post).map fun x => (x - avg (pre ++ o :: post)) ^ 3).sum := by
    simp only [List.map_append, List.map_cons, List.sum_append, List.sum_cons]
    ring
  rw [h2, e2, avg_insert hb, sum_cube, sum_moment hb, sum_moment hb, sum_eq_avg hb] at h1
  set k : ℝ := ((pre ++ post).length : ℝ)
  set D := o - avg (pre ++ post) with hD
  have ho : o - (avg (pre ++ post) + D / (k + 1)) = k * D / (k + 1) := by
    have : o = D + avg (pre ++ post) := by rw [hD]; ring
    field_simp
    rw [this]
    ring
  rw [ho] at h1
  have hk : k + 1 ≠ 0 := by positivity
  have h3 : moment 3 (pre ++ o :: post) * (k + 1) ^ 3 = (k + 1) ^ 2 * ((k + 1) * moment 3 (pre ++ o :: post)) := by ring
  rw [h3, ← h1]
  field_simp
  ring

/-- With one point going to infinity the skewness tends to `(k - 1) / √k`. -/
theorem skew_far {pre post : List ℝ} (hb : pre ++ post ≠ []) (deg : Option ℝ) {target : ℝ}
    (ht : target < ((pre ++ post).length - 1) / Real.sqrt (pre ++ post).length) :
    ∀ᶠ D : ℝ in atTop, ∃ s, skew deg (pre ++ (avg (pre ++ post) + D) :: post) = some s ∧ target < s := by
  have hk := length_pos' hb
  set k : ℝ := ((pre ++ post).length : ℝ)
  set M2 := moment 2 (pre ++ post)
  set M3 := moment 3 (pre ++ post)
  have hM2 : 0 ≤ M2 := moment_two_nonneg _
  let F : ℝ → ℝ := fun u => k * ((k - 1) - 3 * (k + 1) * M2 * u ^ 2 + (k + 1) ^ 2 * M3 * u ^ 3) /
    Real.sqrt (k * (k + 1) * M2 * u ^ 2 + k) ^ 3
  have hpos : ∀ u : ℝ, 0 < Real.sqrt (k * (k + 1) * M2 * u ^ 2 + k) := fun u => Real.sqrt_pos.2 (by positivity)
  have hF : Continuous F := by
    refine Continuous.div (by fun_prop) (by fun_prop) fun u => (pow_pos (hpos u) 3).ne'
  have hF0 : F 0 = (k - 1) / Real.sqrt k := by
    simp only [F]
    have hs : 0 < Real.sqrt k := Real.sqrt_pos.2 hk
    have e : Real.sqrt k ^ 3 = Real.sqrt k * k := by
      rw [pow_succ, Real.sq_sqrt hk.le, mul_comm]
    norm_num
    rw [e]
    field_simp
  have hev : ∀ᶠ D : ℝ in atTop, target < F D⁻¹ := by
    have h1 : Tendsto (fun D : ℝ => F D⁻¹) atTop (nhds (F 0)) := (hF.tendsto 0).comp tendsto_inv_atTop_zero
    rw [hF0] at h1
    exact h1.eventually (lt_mem_nhds ht)
  filter_upwards [hev, eventually_gt_atTop 0] with D h1 hD
  have e2 := moment_insert (pre := pre) (post := post) (o := avg (pre ++ post) + D) hb
  have e3 := moment_three_insert (pre := pre) (post := post) (o := avg (pre ++ post) + D) hb
  rw [add_sub_cancel_left] at e2 e3
  have hne : pre ++ (avg (pre ++ post) + D) :: post ≠ [] := by simp
  have hm2 : moment 2 (pre ++ (avg (pre ++ post) + D) :: post) =
      (D / (k + 1)) ^ 2 * (k * (k + 1) * M2 * D⁻¹ ^ 2 + k) := by
    have : moment 2 (pre ++ (avg (pre ++ post) + D) :: post) = (k * (k + 1) * M2 + k * D ^ 2) / (k + 1) ^ 2 := by
      rw [eq_div_iff (by positivity)]
      exact e2
    rw [this]
    field_simp
  have hm3 : moment 3 (pre ++ (avg (pre ++ post) + D) :: post) =
      (D / (k + 1)) ^ 3 * (k * ((k - 1) - 3 * (k + 1) * M2 * D⁻¹ ^ 2 + (k + 1) ^ 2 * M3 * D⁻¹ ^ 3)) := by
    have : moment 3 (pre ++ (avg (pre ++ post) + D) :: post) = (k * ((k + 1) ^ 2 * M3 - 3 * (k + 1) * M2 * D + (k - 1) * D ^ 3)) /
        (k + 1) ^ 3 := by
      rw [eq_div_iff (by positivity)]
      exact e3
    rw [this]
    field_simp
    ring
  have hq : 0 < D / (k + 1) := by positivity
  have hp2 : 0 < moment 2 (pre ++ (avg (pre ++ post) + D) :: post) := by
    rw [hm2]
    positivity
  refine ⟨F D⁻¹, ?_, h1⟩
  unfold skew
  rw [if_neg hne, if_neg hp2.ne', Option.some.injEq, hm2, hm3, Real.sqrt_mul (sq_nonneg _), Real.sqrt_sq hq.le, mul_pow]
  have := pow_pos (hpos D⁻¹) 3
  simp only [F]
  field_simp

/-- The largest skewness `n` points can have. -/
theorem skew_le {l : List ℝ} (hp : 0 < moment 2 l) :
    moment 3 l / Real.sqrt (moment 2 l) ^ 3 ≤ ((l.length : ℝ) - 2) / Real.sqrt (l.length - 1) := by
  have hl : l ≠ [] := by
    rintro rfl
    simp [moment, avg] at hp
  have hn := length_pos' hl
  set s := Real.sqrt (moment 2 l) with hs
  have hsp : 0 < s := Real.sqrt_pos.2 hp
  have hss : s ^ 2 = moment 2 l := Real.sq_sqrt hp.le
  obtain ⟨x0, hx0, hne⟩ : ∃ x ∈ l, x ≠ avg l := by
    by_contra hcon
    push Not at hcon
    have : (l.map fun x => (x - avg l) ^ 2).sum = 0 := by
      refine List.sum_eq_zero fun y hy => ?_
      obtain ⟨x, hx, rfl⟩ := List.mem_map.1 hy
      rw [hcon x hx]
      ring
    rw [sum_moment hl] at this
    rcases mul_eq_zero.1 this with h | h
    · exact hn.ne' h
    · exact hp.ne' h
  have ha2 : 0 < (l.length : ℝ) - 1 := by
    have h1 := samuelson hx0
    have h2 : 0 < (x0 - avg l) ^ 2 := by
      have := sub_ne_zero.2 hne
      positivity
    exact pos_of_mul_pos_left (h2.trans_le h1) hp.le
  set a := Real.sqrt ((l.length : ℝ) - 1) with ha
  have hap : 0 < a := Real.sqrt_pos.2 ha2
  have haa : a ^ 2 = (l.length : ℝ) - 1 := Real.sq_sqrt ha2.le
  have hle : ∀ x ∈ l, ((x - avg l) - a * s) * (a * (x - avg l) + s) ^ 2 ≤ 0 := by
    intro x hx
    have h1 := samuelson hx
    rw [← haa, ← hss, ← mul_pow] at h1
    have h2 : x - avg l ≤ a * s := le_of_sq_le_sq h1 (by positivity)
    exact mul_nonpos_of_nonpos_of_nonneg (by linarith) (sq_nonneg _)
  have hsum : (l.map fun x => ((x - avg l) - a * s) * (a * (x - avg l) + s) ^ 2).sum ≤ 0 := by
    have h := List.sum_le_sum (f := fun x => ((x - avg l) - a * s) * (a * (x - avg l) + s) ^ 2) (g := fun _ => (0 : ℝ)) hle
    simpa using h
  have hexp : ∀ b : ℝ, (l.map fun x => ((x - b) - a * s) * (a * (x - b) + s) ^ 2).sum =
      a ^ 2 * (l.map fun x => (x - b) ^ 3).sum + (2 * a * s - a ^ 3 * s) * (l.map fun x => (x - b) ^ 2).sum +
        (s ^ 2 - 2 * a ^ 2 * s ^ 2) * (l.sum - l.length * b) - l.length * (a * s ^ 3) := by
    intro b
    clear hsum hle hn ha haa hs hss hp hl hx0 hsp ha2 hap hne
    clear_value a s
    induction l with
    | nil => simp
    | cons y l ih =>
      simp only [List.map_cons, List.sum_cons, List.length_cons, Nat.cast_add, Nat.cast_one] at ih ⊢
      rw [ih]
      ring
  rw [hexp, sum_moment hl, sum_moment hl, sum_eq_avg hl, ← hss] at hsum
  have h3 : a * moment 3 l ≤ (a ^ 2 - 1) * s ^ 3 := by
    have h4 : (l.length * a) * (a * moment 3 l) ≤ (l.length * a) * ((a ^ 2 - 1) * s ^ 3) := by
      nlinarith
    exact le_of_mul_le_mul_left h4 (by positivity)
  rw [div_le_div_iff₀ (pow_pos hsp 3) hap]
  have : a ^ 2 - 1 = (l.length : ℝ) - 2 := by rw [haa]; ring
  rw [← this]
  linarith

end Verif.Cut
