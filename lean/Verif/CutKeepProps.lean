import Verif.CutKeepLemmas

/-! Property C66: does `removeoutliers` keep anything? -/

namespace Verif.Cut
open Verif

/-! ### The property -/

/-- `removeoutliers` keeps at least one point of finite data in which fewer than half of the points
sit at the minimum and fewer than half at the maximum.

Missing from the full claim (that something is always kept): it is false without these conditions
(`removeoutliers_empty_violated`). -/
theorem removeoutliers_keeps_partial (deg : Option ℝ) (x : List ℝ) (maxiter : ℤ) (target : ℝ)
    (fuel : ℕ) (hf : maxiter.toNat + 1 ≤ fuel) (hx : x ≠ [])
    (h1 : ∀ v, (∀ y ∈ x, v ≤ y) → 2 * x.count v < x.length)
    (h2 : ∀ v, (∀ y ∈ x, y ≤ v) → 2 * x.count v < x.length) :
    ∃ mask, removeoutliers deg fuel (x.map fun v => ((v : ℝ) : WithTop ℝ)) maxiter target =
      some (.ok mask) ∧ Selected x mask ≠ [] := by
  obtain ⟨lo, hlo⟩ := Option.ne_none_iff_exists'.1 (mt List.min?_eq_none_iff.1 hx)
  obtain ⟨hi, hhi⟩ := Option.ne_none_iff_exists'.1 (mt List.max?_eq_none_iff.1 hx)
  obtain ⟨mask, old, e, e', _⟩ := removeoutliers_spec deg
    (x.map fun v => ((v : ℝ) : WithTop ℝ)) maxiter target fuel hf
  refine ⟨mask, e, ?_⟩
  have key : ∀ (f : ℕ) (i : ℤ) (inds : List Bool) (hist ms : List (List Bool)),
      Inner x lo hi inds →
      roLoop deg (x.map fun v => ((v : ℝ) : WithTop ℝ)) maxiter target f i inds hist =
        some (.ok ms) → Inner x lo hi (ms.headD []) := by
    intro f
    induction f with
    | zero => intro i inds hist ms _ h; simp [roLoop] at h
    | succ f ih =>
      intro i inds hist ms hI h
      unfold roLoop at h
      by_cases ha : above (skew deg (finite (sel (x.map fun v => ((v : ℝ) : WithTop ℝ)) inds)))
          target
      · rw [if_pos ha] at h
        have hp := roPass_real hlo hhi inds
        have hI' := roPass_inner hlo hhi
          (h1 lo fun y hy => (List.min?_eq_some_iff.1 hlo).2 y hy)
          (h2 hi fun y hy => (List.max?_eq_some_iff.1 hhi).2 y hy) hI hp
        rw [hp] at h
        simp only at h
        split_ifs at h
        · cases h
          exact hI'
        · exact ih _ _ _ _ hI' h
      · rw [if_neg ha] at h
        cases h
        exact hI
  have hinit : sel x ((x.map fun v => ((v : ℝ) : WithTop ℝ)).map fun v => decide (v ≠ ⊤)) = x := by
    rw [List.map_map, sel_map]
    rw [List.filter_eq_self]
    intro v _
    simp
  have := key fuel 1 _ [] _ ⟨by rw [hinit]; exact hx, .inl hinit⟩ e'
  rw [← sel_eq_selected]
  exact this.1

/-- Points `0, 1, 2, 9` meet the hypotheses (no value is repeated). -/
example : ∀ v : ℝ, 2 * ([0, 1, 2, 9] : List ℝ).count v < ([0, 1, 2, 9] : List ℝ).length := by
  intro v
  have hn : ([0, 1, 2, 9] : List ℝ).Nodup := by norm_num
  have := List.nodup_iff_count_le_one.1 hn v
  simp only [List.length_cons, List.length_nil]
  omega

/-- The full claim is false: of `0, 0, 3` every point is rejected. -/
theorem removeoutliers_empty_violated (deg : Option ℝ) (fuel : ℕ) (hf : 2 ≤ fuel) :
    removeoutliers deg fuel [0, 0, 3] 20 (1 / 20) = some (.ok [false, false, false]) := by
  obtain ⟨fuel, rfl⟩ : ∃ f, fuel = f + 2 := ⟨fuel - 2, by omega⟩
  have hx : ([0, 0, 3] : List (WithTop ℝ)) = ([0, 0, 3] : List ℝ).map fun v => ((v : ℝ) : WithTop ℝ) := by
    simp
  rw [hx]
  have hlo : ([0, 0, 3] : List ℝ).min? = some 0 := by
    simp
  have hhi : ([0, 0, 3] : List ℝ).max? = some 3 := by
    simp
  have hinit : (([0, 0, 3] : List ℝ).map fun v => ((v : ℝ) : WithTop ℝ)).map
      (fun v => decide (v ≠ ⊤)) = [true, true, true] := by simp
  have hmed : median [0, 0, 3] = 0 := by
    unfold median
    rw [List.mergeSort_of_pairwise (by simp)]
    simp
  have hsel : sel ([0, 0, 3] : List ℝ) [true, true, true] = [0, 0, 3] := by simp [sel]
  have habove : above (skew deg [0, 0, 3]) (1 / 20) := by
    have ha : avg [0, 0, 3] = 1 := by norm_num [avg]
    have h2 : moment 2 [0, 0, 3] = 2 := by norm_num [moment, ha, avg]
    have h3 : moment 3 [0, 0, 3] = 2 := by norm_num [moment, ha, avg]
    refine ⟨2 / Real.sqrt 2 ^ 3, ?_, ?_⟩
    · unfold skew
      rw [if_neg (by simp), h2, h3, if_neg (by norm_num)]
    · have hs : Real.sqrt 2 < 2 := by
        rw [Real.sqrt_lt' (by norm_num)]
        norm_num
      have hp : 0 < Real.sqrt 2 := Real.sqrt_pos.2 (by norm_num)
      rw [lt_div_iff₀ (by positivity)]
      have : Real.sqrt 2 ^ 3 < 2 ^ 3 := pow_lt_pow_left₀ hs hp.le (by norm_num)
      linarith
  have hpass : roPass (([0, 0, 3] : List ℝ).map fun v => ((v : ℝ) : WithTop ℝ)) [true, true, true] =
      .ok [false, false, false] := by
    rw [roPass_real hlo hhi, hsel, hmed]
    simp
  have hnot : ¬ above (skew deg (sel ([0, 0, 3] : List ℝ) [false, false, false])) (1 / 20) := by
    rintro ⟨s, hs, _⟩
    simp [sel, skew] at hs
  unfold removeoutliers roMasks
  rw [hinit]
  unfold roLoop
  rw [finite_sel_coe, hsel, if_pos habove, hpass]
  simp only
  rw [if_neg (by norm_num)]
  unfold roLoop
  rw [finite_sel_coe, if_neg hnot]
  rfl

end Verif.Cut
