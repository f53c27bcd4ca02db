import Verif.CutOutLemmas
import Verif.CutProps

/-!
Property C161: which points `iterstat` can and cannot cut.
-/

namespace Verif.Cut
open Verif

/-- An outlier among equal points is never cut, however far it is and whatever the cut. -/
theorem iterstat_equal_points (p q : ℕ) (b o cut precision : ℝ) {f : ℕ} {r : Stat}
    (h : iterstat f (List.replicate p b ++ o :: List.replicate q b) cut precision = some r) :
    r.mask = List.replicate (p + 1 + q) true := by
  have hlen : (List.replicate p b ++ o :: List.replicate q b).length = p + 1 + q := by
    simp
    omega
  rw [← hlen]
  unfold iterstat at h
  rw [if_neg (by simp)] at h
  set data := List.replicate p b ++ o :: List.replicate q b with hdata
  have hbulk : List.replicate p b ++ List.replicate q b = List.replicate (p + q) b := List.replicate_append_replicate ..
  by_cases h1 : |b - avg data| < cut * std data
  · have hb : ∀ x ∈ List.replicate p b ++ List.replicate q b, |x - avg data| < cut * std data := by
      intro x hx
      rw [hbulk] at hx
      rw [List.eq_of_mem_replicate hx]
      exact h1
    by_cases h2 : |o - avg data| < cut * std data
    · refine kept_all (List.filter_eq_self.2 fun x hx => decide_eq_true ?_) h
      rw [hdata, List.mem_append, List.mem_cons] at hx
      rcases hx with hx | rfl | hx
      · exact hb x (List.mem_append_left _ hx)
      · exact h2
      · exact hb x (List.mem_append_right _ hx)
    · obtain ⟨k1, -⟩ := keep_insert _ _ _ h2 hb
      rw [← hdata, hbulk] at k1
      by_cases h3 : p + q ≤ 1
      · exact kept_few (by rw [k1]; simpa using h3) h
      · obtain ⟨f', ns', h'⟩ := isLoop_next (by rw [k1]; simpa using h3) (by norm_num) h
        rw [k1] at h'
        have hne : ((p + q : ℕ) : ℝ) ≠ 0 := by
          have : p + q ≠ 0 := by omega
          exact_mod_cast this
        have ha : avg (List.replicate (p + q) b) = b := by
          rw [avg, List.sum_replicate, List.length_replicate, nsmul_eq_mul]
          field_simp
        have hs : std (List.replicate (p + q) b) = 0 := by
          rw [std, moment, ha]
          simp [avg]
        rw [hs] at h'
        exact kept_few (by rw [keep_zero]; simp) h'
  · refine kept_few ?_ h
    have hf : ∀ n, (List.replicate n b).filter (fun x => decide (|x - avg data| < cut * std data)) = [] := by
      intro n
      refine List.filter_eq_nil_iff.2 fun x hx => ?_
      rw [List.eq_of_mem_replicate hx]
      simpa using h1
    have e : keep data cut (avg data) (std data) = [o].filter (fun x => decide (|x - avg data| < cut * std data)) := by
      conv_lhs => rw [keep, hdata, List.filter_append, ← hdata, hf, List.nil_append, ← List.singleton_append, List.filter_append, hf,
        List.append_nil]
    rw [e]
    exact List.length_filter_le _ _

/-- Few points: none is ever cut, however far away.  With the default cut of 3 these are up to ten points. -/
theorem iterstat_few {data : List ℝ} {cut precision : ℝ} (hc : 0 < cut) (hn : (data.length : ℝ) ≤ cut ^ 2 + 1) {f : ℕ}
    {r : Stat} (h : iterstat f data cut precision = some r) : r.mask = List.replicate data.length true := by
  by_cases h0 : data = []
  · unfold iterstat at h
    rw [if_pos h0, Option.some.injEq] at h
    rw [← h, h0]
    rfl
  by_cases hall : ∀ x ∈ data, |x - avg data| < cut * std data
  · unfold iterstat at h
    rw [if_neg h0] at h
    exact kept_all (List.filter_eq_self.2 fun x hx => decide_eq_true (hall x hx)) h
  · simp only [not_forall, not_lt] at hall
    obtain ⟨x, hx, hfar⟩ := hall
    obtain ⟨pre, post, rfl⟩ := List.append_of_mem hx
    have h1 : ((pre ++ x :: post).length - 1 : ℝ) * moment 2 (pre ++ x :: post) ≤ (x - avg (pre ++ x :: post)) ^ 2 := by
      have h2 := pow_le_pow_left₀ (mul_nonneg hc.le (std_nonneg _)) hfar 2
      rw [mul_pow, std_sq, sq_abs] at h2
      exact (mul_le_mul_of_nonneg_right (by linarith) (moment_two_nonneg _)).trans h2
    obtain ⟨b, h2, h3⟩ := samuelson_eq h1
    rw [List.eq_replicate_of_mem h2, List.eq_replicate_of_mem h3] at h ⊢
    rw [iterstat_equal_points _ _ _ _ _ _ h]
    simp only [List.length_append, List.length_cons, List.length_replicate]
    congr 1
    omega

/-- With one point more the bound is exceeded: a far outlier among points which would all be kept without it is
the only point cut. -/
theorem iterstat_outlier {pre post : List ℝ} {o cut precision : ℝ} (hs : 0 < std (pre ++ post)) (hc : 0 < cut)
    (hk : cut ^ 2 < (pre ++ post).length)
    (hin : ∀ x ∈ pre ++ post, |x - avg (pre ++ post)| < cut * std (pre ++ post))
    (h1 : cut ^ 2 * ((pre ++ post).length + 1) * std (pre ++ post) ^ 2 ≤
      (o - avg (pre ++ post)) ^ 2 * ((pre ++ post).length - cut ^ 2))
    (h2 : ((pre ++ post).length + 1) * (cut * std (pre ++ post)) ≤
      |o - avg (pre ++ post)| * (cut * Real.sqrt (pre ++ post).length - 1)) {f : ℕ} {r : Stat}
    (h : iterstat f (pre ++ o :: post) cut precision = some r) :
    r.mask = List.replicate pre.length true ++ false :: List.replicate post.length true ∧
    r.mean = some (avg (pre ++ post)) ∧ r.std = some (std (pre ++ post)) := by
  have hb : pre ++ post ≠ [] := by
    intro h0
    rw [h0] at hs
    simp [std, moment, avg] at hs
  have hkp := length_pos' hb
  have hm := moment_insert (o := o) hb
  have ha := avg_insert (o := o) hb
  have hlen : 1 < (pre ++ post).length := by
    by_contra hcon
    have h3 : (pre ++ post).length = 1 := by
      have := List.length_pos_iff.2 hb
      omega
    obtain ⟨y, hy⟩ := List.length_eq_one_iff.1 h3
    rw [hy] at hs
    simp [std, moment, avg] at hs
  set b := avg (pre ++ post) with hbdef
  set s := std (pre ++ post) with hsdef
  set k : ℝ := ((pre ++ post).length : ℝ) with hkdef
  have hss : s ^ 2 = moment 2 (pre ++ post) := std_sq _
  rw [← hss, ← std_sq] at hm
  set S := std (pre ++ o :: post) with hS
  have hS0 : 0 ≤ S := std_nonneg _
  have hgap : 0 < k - cut ^ 2 := by linarith
  have hD2 : |o - b| ^ 2 = (o - b) ^ 2 := sq_abs _
  -- the outlier in the first pass
  have q1 : ¬ |o - avg (pre ++ o :: post)| < cut * S := by
    have e : o - avg (pre ++ o :: post) = (o - b) * k / (k + 1) := by
      rw [ha]
      field_simp
      ring
    rw [not_lt]
    refine abs_le_of_sq_le_sq' ?_ (abs_nonneg _) |>.2
    rw [sq_abs, e, div_pow, le_div_iff₀ (by positivity)]
    have : k * (cut ^ 2 * (k + 1) * s ^ 2) ≤ k * ((o - b) ^ 2 * (k - cut ^ 2)) := mul_le_mul_of_nonneg_left h1 hkp.le
    have e2 : (cut * S) ^ 2 * (k + 1) ^ 2 = cut ^ 2 * (k * (k + 1) * s ^ 2 + k * (o - b) ^ 2) := by rw [← hm]; ring
    rw [e2]
    linarith
  -- the other points in the first pass
  have hroot : Real.sqrt k * |o - b| ≤ S * (k + 1) := by
    refine abs_le_of_sq_le_sq' ?_ (by positivity) |>.2
    rw [mul_pow, mul_pow, hm, Real.sq_sqrt hkp.le, hD2]
    have : 0 ≤ k * (k + 1) * s ^ 2 := by positivity
    linarith
  have q2 : ∀ x ∈ pre ++ post, |x - avg (pre ++ o :: post)| < cut * S := by
    intro x hx
    have e : x - avg (pre ++ o :: post) = (x - b) - (o - b) / (k + 1) := by
      rw [ha]
      ring
    have hk1 : 0 < k + 1 := by linarith
    calc |x - avg (pre ++ o :: post)| ≤ |x - b| + |o - b| / (k + 1) := by
          rw [e]
          refine (abs_sub _ _).trans_eq ?_
          rw [abs_div, abs_of_pos hk1]
      _ < cut * s + |o - b| / (k + 1) := by have := hin x hx; linarith
      _ ≤ cut * S := by
          rw [← sub_nonneg]
          have e3 : cut * S - (cut * s + |o - b| / (k + 1)) = (cut * (S * (k + 1)) - (k + 1) * (cut * s) - |o - b|) / (k + 1) := by
            field_simp
            ring
          rw [e3]
          refine div_nonneg ?_ hk1.le
          have := mul_le_mul_of_nonneg_left hroot hc.le
          linarith
  -- the outlier afterwards
  have q3 : ¬ |o - b| < cut * s := by
    rw [not_lt]
    refine abs_le_of_sq_le_sq' ?_ (abs_nonneg _) |>.2
    rw [hD2]
    have : (cut * s) ^ 2 * (k - cut ^ 2) ≤ (o - b) ^ 2 * (k - cut ^ 2) := by
      refine le_trans ?_ h1
      have : 0 ≤ (cut * s) ^ 2 * (1 + cut ^ 2) := by positivity
      linarith
    exact le_of_mul_le_mul_right this hgap
  unfold iterstat at h
  rw [if_neg (by simp)] at h
  obtain ⟨k1, -⟩ := keep_insert _ _ _ q1 q2
  obtain ⟨k2, m2⟩ := keep_insert _ _ _ q3 hin
  obtain ⟨f', ns', h'⟩ := isLoop_next (by rw [k1]; exact hlen) (by norm_num) h
  rw [k1] at h'
  have := isLoop_fixed (by rw [k2]) (by rw [k2]) h'
  rw [k2, if_neg (by omega), m2] at this
  rw [this]
  exact ⟨rfl, rfl, rfl⟩

/-- So every outlier beyond some distance is cut. -/
theorem iterstat_outlier_far {pre post : List ℝ} {cut : ℝ} (hs : 0 < std (pre ++ post)) (hc : 1 ≤ cut)
    (hk : cut ^ 2 < (pre ++ post).length)
    (hin : ∀ x ∈ pre ++ post, |x - avg (pre ++ post)| < cut * std (pre ++ post)) :
    ∃ L, ∀ o, L ≤ |o - avg (pre ++ post)| → ∀ (precision : ℝ) (f : ℕ) (r : Stat),
      iterstat f (pre ++ o :: post) cut precision = some r →
      r.mask = List.replicate pre.length true ++ false :: List.replicate post.length true ∧
      r.mean = some (avg (pre ++ post)) ∧ r.std = some (std (pre ++ post)) := by
  have hg : 0 < ((pre ++ post).length : ℝ) - cut ^ 2 := by linarith
  have hq : cut ≤ Real.sqrt (pre ++ post).length := Real.le_sqrt_of_sq_le hk.le
  have hg2 : 0 < cut * Real.sqrt (pre ++ post).length - 1 := by
    have h1 : cut < Real.sqrt (pre ++ post).length := Real.lt_sqrt_of_sq_lt hk
    nlinarith
  set A := cut ^ 2 * ((pre ++ post).length + 1) * std (pre ++ post) ^ 2
  set B := ((pre ++ post).length + 1) * (cut * std (pre ++ post))
  refine ⟨max (Real.sqrt (A / ((pre ++ post).length - cut ^ 2))) (B / (cut * Real.sqrt (pre ++ post).length - 1)), ?_⟩
  intro o ho precision f r h
  obtain ⟨h1, h2⟩ := max_le_iff.1 ho
  refine iterstat_outlier hs (by linarith) hk hin ?_ ?_ h
  · have := (Real.sqrt_le_left (abs_nonneg _)).1 h1
    rwa [sq_abs, div_le_iff₀ hg] at this
  · rwa [div_le_iff₀ hg2] at h2

/-- Outliers which sit together protect each other: equal points which are more than one in `1 + cut ** 2` of all are never cut,
wherever they are and whatever the others are.  With the default cut of 3: a tenth of the points. -/
theorem iterstat_cluster {data : List ℝ} {cut precision c : ℝ} (hc : 0 < cut)
    (hm : (data.length : ℝ) < data.count c * (1 + cut ^ 2)) {f : ℕ} {r : Stat}
    (h : iterstat f data cut precision = some r) {j : ℕ} (hj : data[j]? = some c) : r.mask[j]? = some true := by
  have hne : data ≠ [] := by
    rintro rfl
    simp at hj
  unfold iterstat at h
  rw [if_neg hne] at h
  exact isLoop_cluster hc hm hne rfl le_rfl h hj

/-- Two points in twelve. -/
example : ∃ F r, ∀ f ≥ F, iterstat f [0, 1, 2, 3, 4, 5, 6, 7, 8, 9, 1000000, 1000000] 3 1000 = some r ∧
    r.mask[10]? = some true ∧ r.mask[11]? = some true := by
  obtain ⟨F, r, h⟩ := iterstat_returns [0, 1, 2, 3, 4, 5, 6, 7, 8, 9, 1000000, 1000000] 3 1000 (by norm_num)
  have hcount : ([0, 1, 2, 3, 4, 5, 6, 7, 8, 9, 1000000, 1000000] : List ℝ).count 1000000 = 2 := by
    norm_num [List.count_cons]
  refine ⟨F, r, fun f hf => ⟨h f hf, ?_, ?_⟩⟩
  · exact iterstat_cluster (c := 1000000) (by norm_num) (by rw [hcount]; norm_num) (h f hf) rfl
  · exact iterstat_cluster (c := 1000000) (by norm_num) (by rw [hcount]; norm_num) (h f hf) rfl

/-- Four points, one of them absurd: nothing is cut, whatever the precision. -/
example : ∃ F r, ∀ f ≥ F, iterstat f [0, 1, 2, 1000000] 3 1000 = some r ∧ r.mask = [true, true, true, true] := by
  obtain ⟨F, r, h⟩ := iterstat_returns [0, 1, 2, 1000000] 3 1000 (by norm_num)
  exact ⟨F, r, fun f hf => ⟨h f hf, iterstat_few (by norm_num) (by norm_num) (h f hf)⟩⟩

/-- Ten points of spread one and an eleventh: beyond some distance the eleventh is cut. -/
example : ∃ L, ∀ o, L ≤ |o| → ∃ F r, ∀ f ≥ F, iterstat f [-1, 1, -1, o, 1, -1, 1, -1, 1, -1, 1] 3 1000 = some r ∧
    r.mask = [true, true, true, false, true, true, true, true, true, true, true] ∧ r.mean = some 0 ∧ r.std = some 1 := by
  have ha : avg ([-1, 1, -1] ++ [1, -1, 1, -1, 1, -1, 1]) = 0 := by norm_num [avg]
  have hs : std ([-1, 1, -1] ++ [1, -1, 1, -1, 1, -1, 1]) = 1 := by
    rw [std, moment, ha, Real.sqrt_eq_one]
    norm_num [avg]
  obtain ⟨L, hL⟩ := iterstat_outlier_far (pre := [-1, 1, -1]) (post := [1, -1, 1, -1, 1, -1, 1]) (cut := 3)
    (by rw [hs]; norm_num) (by norm_num) (by norm_num) (by rw [ha, hs]; intro x hx; fin_cases hx <;> norm_num)
  rw [ha, hs] at hL
  refine ⟨L, fun o ho => ?_⟩
  obtain ⟨F, r, h⟩ := iterstat_returns [-1, 1, -1, o, 1, -1, 1, -1, 1, -1, 1] 3 1000 (by norm_num)
  refine ⟨F, r, fun f hf => ⟨h f hf, ?_⟩⟩
  exact hL o (by rwa [sub_zero]) 1000 f r (h f hf)

/-- A hundred zeros and a million: the million stays. -/
example : ∃ F r, ∀ f ≥ F, iterstat f (List.replicate 60 0 ++ 1000000 :: List.replicate 40 0) 3 1000 = some r ∧
    r.mask = List.replicate 101 true := by
  obtain ⟨F, r, h⟩ := iterstat_returns (List.replicate 60 0 ++ 1000000 :: List.replicate 40 0) 3 1000 (by norm_num)
  exact ⟨F, r, fun f hf => ⟨h f hf, iterstat_equal_points 60 40 0 1000000 3 1000 (h f hf)⟩⟩

end Verif.Cut
