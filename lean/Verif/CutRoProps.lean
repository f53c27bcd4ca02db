import Verif.CutRoLemmas
import Verif.CutProps
import Verif.CutScaleProps

/-!
Property C165: which outliers `removeoutliers` can remove.
-/

namespace Verif.Cut
open Verif Filter

/-- `removeoutliers` keeps everything if the skewness is not above the target; otherwise it removes both the largest and the
smallest points, every one of them. -/
theorem removeoutliers_all_or_ends {deg : Option ℝ} {fuel : ℕ} {x : List ℝ} {maxiter : ℤ} {target : ℝ} {m : List Bool}
    (h : removeoutliers deg fuel (x.map fun v => ((v : ℝ) : WithTop ℝ)) maxiter target = some (.ok m)) :
    (¬ above (skew deg x) target ∧ m = List.replicate x.length true) ∨
    (above (skew deg x) target ∧ ∀ (j : ℕ) (v : ℝ), x[j]? = some v → ((∀ y ∈ x, v ≤ y) ∨ ∀ y ∈ x, y ≤ v) → m[j]? = some false) := by
  by_cases ha : above (skew deg x) target
  · exact .inr ⟨ha, fun j v hj hv => ends_out ha h hj hv⟩
  · refine .inl ⟨ha, ?_⟩
    have hf : 0 < fuel := by
      rcases Nat.eq_zero_or_pos fuel with rfl | hf
      · simp [removeoutliers, roMasks, roLoop] at h
      · exact hf
    rw [removeoutliers_symmetric deg x maxiter target fuel hf ha] at h
    simpa using h.symm

/-- `n` points have no skewness above `(n - 2) / √(n - 1)`: with a target as large as that nothing is removed. -/
theorem removeoutliers_few {deg : Option ℝ} (hdeg : deg = none ∨ deg = some 0) {fuel : ℕ} {x : List ℝ} (h2 : 2 ≤ x.length)
    {maxiter : ℤ} {target : ℝ} (ht : ((x.length : ℝ) - 2) / Real.sqrt (x.length - 1) ≤ target) {m : List Bool}
    (h : removeoutliers deg fuel (x.map fun v => ((v : ℝ) : WithTop ℝ)) maxiter target = some (.ok m)) :
    m = List.replicate x.length true := by
  rcases removeoutliers_all_or_ends h with ⟨-, h⟩ | ⟨⟨s, hs, hlt⟩, -⟩
  · exact h
  · exfalso
    have hx : x ≠ [] := by
      rintro rfl
      simp at h2
    have hn : (2 : ℝ) ≤ x.length := by exact_mod_cast h2
    have h0 : 0 ≤ target := le_trans (div_nonneg (by linarith) (Real.sqrt_nonneg _)) ht
    unfold skew at hs
    rw [if_neg hx] at hs
    by_cases hm : moment 2 x = 0
    · rw [if_pos hm] at hs
      rcases hdeg with rfl | rfl
      · simp at hs
      · obtain rfl := Option.some.inj hs
        linarith
    · rw [if_neg hm, Option.some.injEq] at hs
      have := skew_le (lt_of_le_of_ne (moment_two_nonneg x) (Ne.symm hm))
      linarith

/-- A single point far enough above the others is removed, whatever the others are, if the target is below `(k - 1) / √k` for
`k` others.  (The documentation speaks of outliers, not of outliers above: `removeoutliers_low_violated`.) -/
theorem removeoutliers_high_partial (deg : Option ℝ) {pre post : List ℝ} (hb : pre ++ post ≠ []) {target : ℝ}
    (ht : target < ((pre ++ post).length - 1) / Real.sqrt (pre ++ post).length) :
    ∃ D₀ : ℝ, ∀ o, avg (pre ++ post) + D₀ ≤ o → ∀ (maxiter : ℤ) (fuel : ℕ), maxiter.toNat + 1 ≤ fuel →
      ∃ m, removeoutliers deg fuel ((pre ++ o :: post).map fun v => ((v : ℝ) : WithTop ℝ)) maxiter target = some (.ok m) ∧
        m[pre.length]? = some false := by
  have h1 := skew_far hb deg ht
  have h2 : ∀ᶠ D : ℝ in atTop, ∀ y ∈ pre ++ post, y ≤ avg (pre ++ post) + D := by
    generalize avg (pre ++ post) = b
    generalize pre ++ post = l
    induction l with
    | nil => simp
    | cons y l ih =>
      filter_upwards [ih, eventually_ge_atTop (y - b)] with D h3 h4 z hz
      rcases List.mem_cons.1 hz with rfl | hz
      · linarith
      · exact h3 z hz
  obtain ⟨D₀, hD⟩ := eventually_atTop.1 (h1.and h2)
  refine ⟨D₀, fun o ho mi f hf => ?_⟩
  obtain ⟨h3, h4⟩ := hD (o - avg (pre ++ post)) (by linarith)
  rw [add_sub_cancel] at h3 h4
  obtain ⟨m, _, hm, -⟩ := removeoutliers_spec deg ((pre ++ o :: post).map fun v => ((v : ℝ) : WithTop ℝ)) mi target f hf
  refine ⟨m, hm, ends_out h3 hm (v := o) (by simp) (.inr fun y hy => ?_)⟩
  rw [List.mem_append, List.mem_cons] at hy
  rcases hy with hy | rfl | hy
  · exact h4 y (List.mem_append_left _ hy)
  · exact le_rfl
  · exact h4 y (List.mem_append_right _ hy)

/-- Of a set of points and its mirror image one is left as it is. -/
theorem removeoutliers_one_side {deg : Option ℝ} (hdeg : deg = none ∨ deg = some 0) (x : List ℝ) {target : ℝ} (ht : 0 ≤ target) :
    (¬ above (skew deg x) target ∨ ¬ above (skew deg (x.map fun v => -v)) target) ∧
    ∀ (maxiter : ℤ) (fuel : ℕ), 0 < fuel →
      removeoutliers deg fuel (x.map fun v => ((v : ℝ) : WithTop ℝ)) maxiter target = some (.ok (List.replicate x.length true)) ∨
      removeoutliers deg fuel ((x.map fun v => -v).map fun v => ((v : ℝ) : WithTop ℝ)) maxiter target =
        some (.ok (List.replicate x.length true)) := by
  have key : ¬ above (skew deg x) target ∨ ¬ above (skew deg (x.map fun v => -v)) target := by
    by_contra hcon
    rw [not_or, not_not, not_not] at hcon
    obtain ⟨⟨s, hs, h1⟩, t, ht', h2⟩ := hcon
    have hx : x ≠ [] := by
      rintro rfl
      simp [skew] at hs
    have e : (x.map fun v => -v) = x.map fun v => (-1) * v + 0 := by
      apply List.map_congr_left
      intro v _
      ring
    rw [e] at ht'
    unfold skew at hs ht'
    rw [if_neg (by simpa using hx), moment_affine _ _ 2 hx, moment_affine _ _ 3 hx] at ht'
    rw [if_neg hx] at hs
    norm_num at ht'
    by_cases hm : moment 2 x = 0
    · rw [if_pos hm] at hs
      rcases hdeg with rfl | rfl
      · simp at hs
      · obtain rfl := Option.some.inj hs
        linarith
    · rw [if_neg hm, Option.some.injEq] at hs ht'
      rw [neg_div, hs] at ht'
      linarith
  refine ⟨key, fun mi f hf => ?_⟩
  rcases key with h | h
  · exact .inl (removeoutliers_symmetric deg x mi target f hf h)
  · have := removeoutliers_symmetric deg _ mi target f hf h
    rw [List.length_map] at this
    exact .inr this

/-- A single point far below the others is kept, and the further the surer: the loop is entered for a positive skewness only.
Here the points of `removeoutliers_high_partial` with their signs changed. -/
theorem removeoutliers_low_violated {deg : Option ℝ} (hdeg : deg = none ∨ deg = some 0) {pre post : List ℝ}
    (hb : 2 ≤ (pre ++ post).length) :
    ∃ D₀ : ℝ, ∀ o, o ≤ avg (pre ++ post) - D₀ → ∀ (maxiter : ℤ) (fuel : ℕ) (target : ℝ), 0 ≤ target → 0 < fuel →
      removeoutliers deg fuel ((pre ++ o :: post).map fun v => ((v : ℝ) : WithTop ℝ)) maxiter target =
        some (.ok (List.replicate (pre ++ o :: post).length true)) := by
  have hne : pre ++ post ≠ [] := by
    intro h
    rw [h] at hb
    simp at hb
  set p := pre.map fun v : ℝ => -v
  set q := post.map fun v : ℝ => -v
  have hpq : p ++ q = (pre ++ post).map fun v : ℝ => -v := by simp [p, q]
  have hpq' : p ++ q ≠ [] := by
    rw [hpq]
    simpa using hne
  have hlen : (p ++ q).length = (pre ++ post).length := by rw [hpq, List.length_map]
  have havg : avg (p ++ q) = -avg (pre ++ post) := by
    have e : (fun v : ℝ => -v) = fun v => (-1) * v + 0 := by
      funext v
      ring
    rw [hpq, e, avg_affine _ _ hne]
    ring
  have hn : (2 : ℝ) ≤ (p ++ q).length := by
    rw [hlen]
    exact_mod_cast hb
  have ht : (0 : ℝ) < ((p ++ q).length - 1) / Real.sqrt (p ++ q).length :=
    div_pos (by linarith) (Real.sqrt_pos.2 (by linarith))
  obtain ⟨D₀, hD⟩ := eventually_atTop.1 (skew_far hpq' deg ht)
  refine ⟨D₀, fun o ho mi f target h0 hf => ?_⟩
  obtain ⟨s, hs, hpos⟩ := hD (avg (pre ++ post) - o) (by linarith)
  rw [havg, show -avg (pre ++ post) + (avg (pre ++ post) - o) = -o by ring] at hs
  have hmap : (pre ++ o :: post).map (fun v : ℝ => -v) = p ++ -o :: q := by simp [p, q]
  refine removeoutliers_symmetric deg _ mi target f hf fun ha => ?_
  rcases (removeoutliers_one_side hdeg (pre ++ o :: post) le_rfl).1 with h | h
  · obtain ⟨t, ht, hlt⟩ := ha
    exact h ⟨t, ht, lt_of_le_of_lt h0 hlt⟩
  · rw [hmap] at h
    exact h ⟨s, hs, hpos⟩

/-- With the outlier above, a point which is not an outlier goes as well: the smallest one always does. -/
theorem removeoutliers_smallest_violated (deg : Option ℝ) {pre post : List ℝ} (hb : pre ++ post ≠ []) {target : ℝ}
    (ht : target < ((pre ++ post).length - 1) / Real.sqrt (pre ++ post).length) :
    ∃ D₀ : ℝ, ∀ o, avg (pre ++ post) + D₀ ≤ o → ∀ (maxiter : ℤ) (fuel : ℕ) (m : List Bool),
      removeoutliers deg fuel ((pre ++ o :: post).map fun v => ((v : ℝ) : WithTop ℝ)) maxiter target = some (.ok m) →
      ∀ (j : ℕ) (v : ℝ), (pre ++ o :: post)[j]? = some v → (∀ y ∈ pre ++ o :: post, v ≤ y) → m[j]? = some false := by
  obtain ⟨D₀, hD⟩ := eventually_atTop.1 (skew_far hb deg ht)
  refine ⟨D₀, fun o ho mi f m hm j v hj hv => ?_⟩
  have h := hD (o - avg (pre ++ post)) (by linarith)
  rw [add_sub_cancel] at h
  exact ends_out h hm hj (.inl hv)

/-- Four points with the default target of 0.05: the bound on the target is met. -/
example : ∃ D₀ : ℝ, ∀ o, avg ([0, 1] ++ [2, 3]) + D₀ ≤ o → ∀ (maxiter : ℤ) (fuel : ℕ), maxiter.toNat + 1 ≤ fuel →
    ∃ m, removeoutliers none fuel (([0, 1] ++ o :: [2, 3]).map fun v => ((v : ℝ) : WithTop ℝ)) maxiter (1 / 20) = some (.ok m) ∧
      m[2]? = some false := by
  refine removeoutliers_high_partial none (pre := [0, 1]) (post := [2, 3]) (by simp) ?_
  have h : Real.sqrt 4 = 2 := by
    rw [show (4 : ℝ) = 2 ^ 2 by norm_num]
    exact Real.sqrt_sq (by norm_num)
  norm_num [h]

/-- The same points with the outlier below. -/
example : ∃ D₀ : ℝ, ∀ o, o ≤ avg ([0, 1] ++ [2, 3]) - D₀ → ∀ (maxiter : ℤ) (fuel : ℕ) (target : ℝ), 0 ≤ target → 0 < fuel →
    removeoutliers none fuel (([0, 1] ++ o :: [2, 3]).map fun v => ((v : ℝ) : WithTop ℝ)) maxiter target =
      some (.ok (List.replicate ([0, 1] ++ o :: [2, 3]).length true)) :=
  removeoutliers_low_violated (.inl rfl) (pre := [0, 1]) (post := [2, 3]) (by simp)

/-- Two points are never cut. -/
example : ∃ m, removeoutliers none 21 (([0, 1000000] : List ℝ).map fun v => ((v : ℝ) : WithTop ℝ)) 20 (1 / 20) = some (.ok m) ∧
    m = [true, true] := by
  obtain ⟨m, _, hm, -⟩ := removeoutliers_spec none (([0, 1000000] : List ℝ).map fun v => ((v : ℝ) : WithTop ℝ)) 20 (1 / 20) 21
    (by norm_num)
  exact ⟨m, hm, removeoutliers_few (.inl rfl) (x := [0, 1000000]) (by simp) (by norm_num) hm⟩

end Verif.Cut
