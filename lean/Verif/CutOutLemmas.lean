import Verif.CutLemmas

/-! Auxiliary lemmas of property C161. -/

namespace Verif.Cut
open Verif

theorem keep_sub (data : List ℝ) (cut μ σ : ℝ) : (keep data cut μ σ).length ≤ data.length :=
  List.length_filter_le _ _

/-- A pass which reproduces the statistics it was given goes on until it returns its mask, or returns everything. -/
theorem isLoop_fixed {data : List ℝ} {cut : ℝ} {c : WithTop ℝ} {μ σ : ℝ} (h1 : avg (keep data cut μ σ) = μ)
    (h2 : std (keep data cut μ σ) = σ) {f : ℕ} {ns : ℕ} {r : Stat} (h : isLoop data cut c f μ σ ns = some r) :
    r = if (keep data cut μ σ).length ≤ 1 then ⟨some (avg data), some (std data), List.replicate data.length true⟩
      else ⟨some μ, some σ, isMask data cut μ σ⟩ := by
  induction f generalizing ns with
  | zero => simp [isLoop] at h
  | succ f ih =>
    rw [isLoop_succ, h1, h2] at h
    by_cases h3 : (keep data cut μ σ).length ≤ 1
    · rw [if_pos h3] at h ⊢
      exact (Option.some.inj h).symm
    · rw [if_neg h3] at h ih ⊢
      dsimp only at h
      generalize (if c < ((|μ - μ| : ℝ) : WithTop ℝ) ∨ c < ((|σ - σ| : ℝ) : WithTop ℝ) then 0 else ns + 1) = n' at h
      by_cases h4 : n' ≥ 3
      · rw [if_pos h4] at h
        exact (Option.some.inj h).symm
      · rw [if_neg h4] at h
        exact ih h

/-- If the first pass keeps everything, everything is kept. -/
theorem kept_all {data : List ℝ} {cut : ℝ} {c : WithTop ℝ} (hk : keep data cut (avg data) (std data) = data) {f : ℕ} {ns : ℕ}
    {r : Stat} (h : isLoop data cut c f (avg data) (std data) ns = some r) : r.mask = List.replicate data.length true := by
  rw [isLoop_fixed (by rw [hk]) (by rw [hk]) h]
  split_ifs
  · rfl
  · show isMask _ _ _ _ = _
    unfold isMask
    rw [List.eq_replicate_iff]
    refine ⟨by simp, fun b hb => ?_⟩
    obtain ⟨x, hx, rfl⟩ := List.mem_map.1 hb
    exact List.filter_eq_self.1 hk x hx

/-- If a pass keeps at most one point, everything is kept. -/
theorem kept_few {data : List ℝ} {cut : ℝ} {c : WithTop ℝ} {μ σ : ℝ} (hk : (keep data cut μ σ).length ≤ 1) {f : ℕ} {ns : ℕ}
    {r : Stat} (h : isLoop data cut c f μ σ ns = some r) : r.mask = List.replicate data.length true := by
  cases f with
  | zero => simp [isLoop] at h
  | succ f =>
    rw [isLoop_succ, if_pos hk, Option.some.injEq] at h
    rw [← h]

/-- The first passes do not end the loop. -/
theorem isLoop_next {data : List ℝ} {cut : ℝ} {c : WithTop ℝ} {μ σ : ℝ} (hk : 1 < (keep data cut μ σ).length) {f : ℕ} {ns : ℕ}
    (hns : ns < 2) {r : Stat} (h : isLoop data cut c f μ σ ns = some r) :
    ∃ f' ns', isLoop data cut c f' (avg (keep data cut μ σ)) (std (keep data cut μ σ)) ns' = some r := by
  cases f with
  | zero => simp [isLoop] at h
  | succ f =>
    rw [isLoop_succ, if_neg (by omega)] at h
    simp only at h
    rw [if_neg (by split_ifs <;> omega)] at h
    exact ⟨_, _, h⟩

section outlier
variable {pre post : List ℝ} {o : ℝ}

theorem ssq_insert (μ : ℝ) : ssq (pre ++ o :: post) μ = (o - μ) ^ 2 + ssq (pre ++ post) μ := by
  simp only [ssq, List.map_append, List.map_cons, List.sum_append, List.sum_cons]
  ring

theorem avg_insert (hb : pre ++ post ≠ []) : avg (pre ++ o :: post) =
    avg (pre ++ post) + (o - avg (pre ++ post)) / ((pre ++ post).length + 1) := by
  have h := length_pos' hb
  have e : (pre ++ o :: post).sum = o + (pre ++ post).sum := by
    simp only [List.sum_append, List.sum_cons]
    ring
  have e2 : ((pre ++ o :: post).length : ℝ) = (pre ++ post).length + 1 := by
    simp only [List.length_append, List.length_cons, Nat.cast_add, Nat.cast_one]
    ring
  conv_lhs => rw [avg, e, e2, sum_eq_avg hb]
  field_simp
  ring

theorem moment_insert (hb : pre ++ post ≠ []) : moment 2 (pre ++ o :: post) * ((pre ++ post).length + 1) ^ 2 =
    (pre ++ post).length * ((pre ++ post).length + 1) * moment 2 (pre ++ post) +
      (pre ++ post).length * (o - avg (pre ++ post)) ^ 2 := by
  have hne : pre ++ o :: post ≠ [] := by simp
  have h := length_pos' hb
  have e2 : ((pre ++ o :: post).length : ℝ) = (pre ++ post).length + 1 := by
    simp only [List.length_append, List.length_cons, Nat.cast_add, Nat.cast_one]
    ring
  have h1 := ssq_avg hne (avg (pre ++ post))
  rw [ssq_insert, ssq_eq hb, ssq_eq hne, e2, avg_insert hb] at h1
  have h2 : (avg (pre ++ post) + (o - avg (pre ++ post)) / ((pre ++ post).length + 1) - avg (pre ++ post)) ^ 2 *
      ((pre ++ post).length + 1) ^ 2 = (o - avg (pre ++ post)) ^ 2 := by
    field_simp
    ring
  linear_combination (-((pre ++ post).length + 1 : ℝ)) * h1 - h2

theorem keep_insert (cut μ σ : ℝ) (ho : ¬ |o - μ| < cut * σ) (hb : ∀ x ∈ pre ++ post, |x - μ| < cut * σ) :
    keep (pre ++ o :: post) cut μ σ = pre ++ post ∧
    isMask (pre ++ o :: post) cut μ σ = List.replicate pre.length true ++ false :: List.replicate post.length true := by
  have h1 : ∀ x ∈ pre, |x - μ| < cut * σ := fun x hx => hb x (List.mem_append_left _ hx)
  have h2 : ∀ x ∈ post, |x - μ| < cut * σ := fun x hx => hb x (List.mem_append_right _ hx)
  constructor
  · unfold keep
    rw [List.filter_append, List.filter_cons_of_neg (by simpa using ho),
      List.filter_eq_self.2 fun x hx => decide_eq_true (h1 x hx), List.filter_eq_self.2 fun x hx => decide_eq_true (h2 x hx)]
  · unfold isMask
    have t : ∀ l : List ℝ, (∀ x ∈ l, |x - μ| < cut * σ) →
        l.map (fun x => decide (|x - μ| < cut * σ)) = List.replicate l.length true := by
      intro l hl
      rw [List.eq_replicate_iff]
      refine ⟨by simp, fun b hbm => ?_⟩
      obtain ⟨x, hx, rfl⟩ := List.mem_map.1 hbm
      exact decide_eq_true (hl x hx)
    rw [List.map_append, List.map_cons, t _ h1, t _ h2, decide_eq_false ho]

end outlier

/-- No point is further from the mean than the square root of one less than their number, in standard deviations. -/
theorem samuelson {data : List ℝ} {x : ℝ} (hx : x ∈ data) : (x - avg data) ^ 2 ≤ (data.length - 1) * moment 2 data := by
  obtain ⟨pre, post, rfl⟩ := List.append_of_mem hx
  have e2 : ((pre ++ x :: post).length : ℝ) = (pre ++ post).length + 1 := by
    simp only [List.length_append, List.length_cons, Nat.cast_add, Nat.cast_one]
    ring
  rw [e2, add_sub_cancel_right]
  by_cases hb : pre ++ post = []
  · obtain ⟨rfl, rfl⟩ := List.append_eq_nil_iff.1 hb
    simp [avg]
  · have h := length_pos' hb
    have hm := moment_insert (o := x) hb
    have ha := avg_insert (o := x) hb
    set k : ℝ := ((pre ++ post).length : ℝ)
    set D := x - avg (pre ++ post)
    have e3 : x - avg (pre ++ x :: post) = D * k / (k + 1) := by
      rw [ha]
      field_simp
      ring
    rw [e3, div_pow, div_le_iff₀ (by positivity)]
    have h0 : 0 ≤ k * (k * (k + 1) * moment 2 (pre ++ post)) := by
      have := moment_two_nonneg (pre ++ post)
      positivity
    have e4 : k * moment 2 (pre ++ x :: post) * (k + 1) ^ 2 = k * (k * (k + 1) * moment 2 (pre ++ post)) + k * (k * D ^ 2) := by
      linear_combination k * hm
    rw [e4]
    nlinarith

/-- When a point is that far, all others are equal. -/
theorem samuelson_eq {pre post : List ℝ} {x : ℝ}
    (h : ((pre ++ x :: post).length - 1 : ℝ) * moment 2 (pre ++ x :: post) ≤ (x - avg (pre ++ x :: post)) ^ 2) :
    ∃ b, (∀ y ∈ pre, y = b) ∧ ∀ y ∈ post, y = b := by
  have e2 : ((pre ++ x :: post).length : ℝ) = (pre ++ post).length + 1 := by
    simp only [List.length_append, List.length_cons, Nat.cast_add, Nat.cast_one]
    ring
  rw [e2, add_sub_cancel_right] at h
  by_cases hb : pre ++ post = []
  · obtain ⟨rfl, rfl⟩ := List.append_eq_nil_iff.1 hb
    exact ⟨0, by simp, by simp⟩
  · have hk := length_pos' hb
    have hm := moment_insert (o := x) hb
    have ha := avg_insert (o := x) hb
    have hq := ssq_eq hb
    have h0 : moment 2 (pre ++ post) ≤ 0 := by
      have e3 : x - avg (pre ++ x :: post) = (x - avg (pre ++ post)) * (pre ++ post).length / ((pre ++ post).length + 1) := by
        rw [ha]
        field_simp
        ring
      rw [e3, div_pow, le_div_iff₀ (by positivity)] at h
      have h5 : ((pre ++ post).length : ℝ) * (((pre ++ post).length : ℝ) * ((pre ++ post).length + 1)) *
          moment 2 (pre ++ post) ≤ 0 := by
        have h6 := congrArg (fun t : ℝ => ((pre ++ post).length : ℝ) * t) hm
        nlinarith
      by_contra hc
      have : 0 < ((pre ++ post).length : ℝ) * (((pre ++ post).length : ℝ) * ((pre ++ post).length + 1)) *
          moment 2 (pre ++ post) := mul_pos (by positivity) (not_le.1 hc)
      linarith
    have h7 : moment 2 (pre ++ post) = 0 := le_antisymm h0 (moment_two_nonneg _)
    have h8 : ∀ y ∈ pre ++ post, y = avg (pre ++ post) := by
      intro y hy
      have h9 : ssq (pre ++ post) (avg (pre ++ post)) = 0 := by rw [hq, h7]; ring
      have h10 : (y - avg (pre ++ post)) ^ 2 ≤ ssq (pre ++ post) (avg (pre ++ post)) := by
        unfold ssq
        refine List.single_le_sum (fun t ht => ?_) _ (List.mem_map.2 ⟨y, hy, rfl⟩)
        obtain ⟨z, -, rfl⟩ := List.mem_map.1 ht
        positivity
      have h11 : (y - avg (pre ++ post)) ^ 2 = 0 := le_antisymm (h10.trans_eq h9) (sq_nonneg _)
      have := pow_eq_zero_iff (two_ne_zero) |>.1 h11
      linarith
    exact ⟨_, fun y hy => h8 y (List.mem_append_left _ hy), fun y hy => h8 y (List.mem_append_right _ hy)⟩

section cluster

theorem sum_count (l : List ℝ) (c : ℝ) (f : ℝ → ℝ) :
    (l.map f).sum = l.count c * f c + ((l.filter fun x => decide (x ≠ c)).map f).sum := by
  induction l with
  | nil => simp
  | cons a l ih =>
    rw [List.map_cons, List.sum_cons, ih]
    by_cases h : a = c
    · subst h
      rw [List.filter_cons_of_neg (by simp), List.count_cons_self]
      push_cast
      ring
    · rw [List.filter_cons_of_pos (by simpa using h), List.count_cons_of_ne h, List.map_cons, List.sum_cons]
      ring

theorem list_cauchy (l : List ℝ) (f : ℝ → ℝ) : (l.map f).sum ^ 2 ≤ l.length * (l.map fun x => f x ^ 2).sum := by
  induction l with
  | nil => simp
  | cons a l ih =>
    simp only [List.map_cons, List.sum_cons, List.length_cons, Nat.cast_add, Nat.cast_one]
    set S := (l.map f).sum
    set Q := (l.map fun x => f x ^ 2).sum
    rcases Nat.eq_zero_or_pos l.length with h | h
    · have hl : l = [] := List.length_eq_zero_iff.1 h
      simp [S, Q, hl]
    · have hn : (0 : ℝ) < l.length := by exact_mod_cast h
      have h1 : 2 * f a * S ≤ l.length * f a ^ 2 + Q := by
        have h2 : 0 ≤ (l.length * f a - S) ^ 2 := sq_nonneg _
        have h3 : l.length * (2 * f a * S) ≤ l.length * (l.length * f a ^ 2 + Q) := by nlinarith
        exact le_of_mul_le_mul_left h3 hn
      nlinarith

/-- How far from the mean points can be which sit together. -/
theorem samuelson_count {l : List ℝ} (hl : l ≠ []) (c : ℝ) :
    l.count c * (c - avg l) ^ 2 ≤ (l.length - l.count c) * moment 2 l := by
  have hp := length_pos' hl
  set o := l.filter fun x => decide (x ≠ c) with ho
  have e0 : (l.length : ℝ) = l.count c + o.length := by
    have h := sum_count l c fun _ => 1
    rw [← ho] at h
    simpa using h
  have e1 : l.count c * (c - avg l) + (o.map fun x => x - avg l).sum = 0 := by
    rw [← sum_count l c fun x => x - avg l]
    have : (l.map fun x => x - avg l).sum = l.sum - l.length * avg l := by
      generalize avg l = a
      clear_value o
      clear ho e0 hp hl
      induction l with
      | nil => simp
      | cons b l ih =>
        simp only [List.map_cons, List.sum_cons, ih, List.length_cons, Nat.cast_add, Nat.cast_one]
        ring
    rw [this, avg]
    field_simp
    ring
  have e2 : l.length * moment 2 l = l.count c * (c - avg l) ^ 2 + (o.map fun x => (x - avg l) ^ 2).sum := by
    rw [← sum_count l c fun x => (x - avg l) ^ 2, moment, avg, List.length_map]
    field_simp
  have h := list_cauchy o fun x => x - avg l
  have e3 : (o.map fun x => x - avg l).sum = -(l.count c * (c - avg l)) := by linarith
  rw [e3] at h
  set m : ℝ := ((l.count c : ℕ) : ℝ)
  set D := c - avg l
  set Q := (o.map fun x => (x - avg l) ^ 2).sum
  have ho : (o.length : ℝ) = l.length - m := by linarith
  rw [ho] at h
  have h4 : l.length * (m * D ^ 2) ≤ l.length * ((l.length - m) * moment 2 l) := by
    have e4 : (l.length - m) * (l.length * moment 2 l) = (l.length - m) * (m * D ^ 2) + (l.length - m) * Q := by rw [e2]; ring
    nlinarith
  exact le_of_mul_le_mul_left h4 hp

/-- Points which sit together in large enough number are never cut. -/
theorem isLoop_cluster {data : List ℝ} {cut : ℝ} {cc : WithTop ℝ} {c : ℝ} (hc : 0 < cut)
    (hm : (data.length : ℝ) < data.count c * (1 + cut ^ 2)) {f : ℕ} {L : List ℝ} (hL : L ≠ []) (hcount : L.count c = data.count c)
    (hlen : L.length ≤ data.length) {ns : ℕ} {r : Stat} (h : isLoop data cut cc f (avg L) (std L) ns = some r) {j : ℕ}
    (hj : data[j]? = some c) : r.mask[j]? = some true := by
  obtain ⟨hjl, -⟩ := List.getElem?_eq_some_iff.1 hj
  have hrep : (List.replicate data.length true)[j]? = some true := by simp [hjl]
  induction f generalizing L ns with
  | zero => simp [isLoop] at h
  | succ f ih =>
    rw [isLoop_succ] at h
    by_cases h1 : (keep data cut (avg L) (std L)).length ≤ 1
    · rw [if_pos h1, Option.some.injEq] at h
      rw [← h]
      exact hrep
    · rw [if_neg h1] at h
      have hmom : 0 < moment 2 L := by
        refine lt_of_le_of_ne (moment_two_nonneg L) fun h0 => h1 ?_
        rw [std, ← h0, Real.sqrt_zero, keep_zero]
        simp
      have hcp : (0 : ℝ) < data.count c := by
        have h0 : (0 : ℝ) ≤ data.length := Nat.cast_nonneg _
        have h2 : (0 : ℝ) < 1 + cut ^ 2 := by positivity
        exact pos_of_mul_pos_left (lt_of_le_of_lt h0 hm) h2.le
      have hin : |c - avg L| < cut * std L := by
        refine abs_lt_of_sq_lt_sq ?_ (mul_nonneg hc.le (std_nonneg L))
        rw [mul_pow, std_sq]
        have h2 := samuelson_count hL c
        rw [hcount] at h2
        have h3 : ((L.length : ℝ) - data.count c) < data.count c * cut ^ 2 := by
          have : (L.length : ℝ) ≤ data.length := by exact_mod_cast hlen
          linarith
        have h4 := h2.trans_lt (mul_lt_mul_of_pos_right h3 hmom)
        rw [mul_assoc] at h4
        exact lt_of_mul_lt_mul_left h4 hcp.le
      dsimp only at h
      generalize (if cc < ((|avg (keep data cut (avg L) (std L)) - avg L| : ℝ) : WithTop ℝ) ∨
        cc < ((|std (keep data cut (avg L) (std L)) - std L| : ℝ) : WithTop ℝ) then 0 else ns + 1) = n' at h
      by_cases h5 : n' ≥ 3
      · rw [if_pos h5, Option.some.injEq] at h
        rw [← h]
        show (isMask data cut (avg L) (std L))[j]? = some true
        unfold isMask
        rw [List.getElem?_map, hj]
        simp [hin]
      · rw [if_neg h5] at h
        refine ih ?_ ?_ ?_ h
        · intro h0
          rw [h0] at h1
          simp at h1
        · unfold keep
          exact List.count_filter (by simpa using hin)
        · exact keep_sub _ _ _ _

end cluster

end Verif.Cut
