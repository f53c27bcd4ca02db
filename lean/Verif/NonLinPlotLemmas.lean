import Verif.NonLinPlotSpec
import Verif.NonLinLemmas
import Verif.NonLinFitLemmas

/-! Lemmas for the plot of the non-linear fit. -/

namespace Verif.NonLin
open Verif Verif.Dft

variable {n : ℕ} [NeZero n]

omit [NeZero n] in
theorem unpack_ok {o : Obj n} {params errors : List ℝ} {u : Unpacked} (h : o.unpack params errors = .ok u) :
    params.length = (parNames o.npole).length ∧ errors.length = params.length ∧
    params.getLast? = some u.t0 ∧ o.riseOf params = some u.taur ∧ o.fallOf params = some u.tauf ∧
    u.falls = fallsOf o.npole ∧
    (u.labels.take params.length).Perm
      (((parNames o.npole).zip (params.zip errors)).map fun p => (p.1.1, p.2.1 * p.1.2, p.2.2 * p.1.2)) := by
  unfold Obj.unpack at h
  unfold parNames Obj.riseOf Obj.fallOf fallsOf
  by_cases h4 : o.npole = 4
  · simp only [if_pos h4] at h ⊢
    split at h
    · cases h
      refine ⟨rfl, rfl, rfl, rfl, rfl, by simp [h4], ?_⟩
      simp only [List.zip_cons_cons, List.zip_nil_right, List.map_cons, List.map_nil, List.length_cons,
        List.length_nil, List.take_succ_cons, List.take_nil]
      refine List.Perm.cons _ (List.Perm.cons _ (List.Perm.cons _ ?_))
      exact (List.perm_append_comm (l₁ := [_, _, _, _]) (l₂ := [_]))
    · cases h
  simp only [if_neg h4] at h ⊢
  by_cases h3 : o.npole = 3
  · simp only [if_pos h3] at h ⊢
    split at h
    · cases h
      refine ⟨rfl, rfl, rfl, rfl, rfl, by simp [h3], ?_⟩
      simp only [List.zip_cons_cons, List.zip_nil_right, List.map_cons, List.map_nil, List.length_cons,
        List.length_nil, List.take_succ_cons, List.take_nil]
      refine List.Perm.cons _ (List.Perm.cons _ ?_)
      exact (List.perm_append_comm (l₁ := [_, _, _]) (l₂ := [_]))
    · cases h
  simp only [if_neg h3] at h ⊢
  by_cases h2 : o.npole = 2
  · simp only [if_pos h2] at h ⊢
    split at h
    · cases h
      refine ⟨rfl, rfl, rfl, rfl, rfl, by simp [h2], ?_⟩
      simp only [List.zip_cons_cons, List.zip_nil_right, List.map_cons, List.map_nil, List.length_cons,
        List.length_nil, List.take_succ_cons, List.take_nil]
      refine List.Perm.cons _ ?_
      exact (List.perm_append_comm (l₁ := [_, _]) (l₂ := [_]))
    · cases h
  simp only [if_neg h2] at h ⊢
  split at h
  · cases hr : o.taurise with
    | none => rw [hr] at h; cases h
    | some τ =>
      rw [hr] at h
      cases h
      refine ⟨rfl, rfl, rfl, rfl, rfl, by simp [h3, h4], ?_⟩
      simp
  · cases h

omit [NeZero n] in
theorem unpack_defined {o : Obj n} {params errors : List ℝ} (h1 : params.length = (parNames o.npole).length)
    (h2 : errors.length = params.length) (h3 : o.riseOf params ≠ none) : ∃ u, o.unpack params errors = .ok u := by
  unfold Obj.unpack
  unfold parNames at h1
  unfold Obj.riseOf at h3
  by_cases h4 : o.npole = 4
  · simp only [if_pos h4, List.length_cons, List.length_nil] at h1 ⊢
    rw [h1] at h2
    match params, h1, errors, h2 with
    | [_, _, _, _, _, _, _, _], _, [_, _, _, _, _, _, _, _], _ => exact ⟨_, rfl⟩
  simp only [if_neg h4] at h1 h3 ⊢
  by_cases h4 : o.npole = 3
  · simp only [if_pos h4, List.length_cons, List.length_nil] at h1 ⊢
    rw [h1] at h2
    match params, h1, errors, h2 with
    | [_, _, _, _, _, _], _, [_, _, _, _, _, _], _ => exact ⟨_, rfl⟩
  simp only [if_neg h4] at h1 h3 ⊢
  by_cases h4 : o.npole = 2
  · simp only [if_pos h4, List.length_cons, List.length_nil] at h1 ⊢
    rw [h1] at h2
    match params, h1, errors, h2 with
    | [_, _, _, _], _, [_, _, _, _], _ => exact ⟨_, rfl⟩
  simp only [if_neg h4, List.length_cons, List.length_nil] at h1 h3 ⊢
  rw [h1] at h2
  match params, h1, errors, h2 with
  | [_, _, _], _, [_, _, _], _ =>
    cases hr : o.taurise with
    | none => exact absurd hr h3
    | some τ => exact ⟨_, rfl⟩

omit [NeZero n] in
/-- Every time-domain model is a shifted array. -/
theorem timeModel_shift {o : Obj n} {params : List ℝ} {y : List ℝ} (h : o.timeModel params = .ok y) :
    ∃ (f : ℝ → ℝ) (t0 : ℝ), params.getLast? = some t0 ∧
      y = Utils.shift (o.time.map f) (OF.trunc (t0 * o.fs) : ℤ) 0 := by
  have two : ∀ {A τr τf t0}, o.twopoletime A τr τf t0 = .ok y →
      ∃ f : ℝ → ℝ, y = Utils.shift (o.time.map f) (OF.trunc (t0 * o.fs) : ℤ) 0 := by
    intro A τr τf t0 h
    unfold Obj.twopoletime at h
    split_ifs at h
    · split at h
      · cases h
      · cases h
        exact ⟨_, rfl⟩
    · cases h
      exact ⟨_, rfl⟩
  unfold Obj.timeModel at h
  by_cases h4 : o.npole = 4
  · simp only [if_pos h4] at h
    split at h
    · cases h
      exact ⟨_, _, rfl, rfl⟩
    · cases h
  simp only [if_neg h4] at h
  by_cases h4 : o.npole = 3
  · simp only [if_pos h4] at h
    split at h
    · cases h
      exact ⟨_, _, rfl, rfl⟩
    · cases h
  simp only [if_neg h4] at h
  by_cases h4 : o.npole = 2
  · simp only [if_pos h4] at h
    split at h
    · obtain ⟨f, hf⟩ := two h
      exact ⟨f, _, rfl, hf⟩
    · cases h
  simp only [if_neg h4] at h
  split at h
  · split at h
    · cases h
    · obtain ⟨f, hf⟩ := two h
      exact ⟨f, _, rfl, hf⟩
  · cases h

omit [NeZero n] in
/-- Its length, and its zeros before the start. -/
theorem timeModel_zero {o : Obj n} {params : List ℝ} {y : List ℝ} (h : o.timeModel params = .ok y) {t0 : ℝ}
    (ht : params.getLast? = some t0) :
    y.length = n ∧ ∀ i : ℕ, i < n → (i : ℤ) < OF.trunc (t0 * o.fs) → y[i]? = some 0 := by
  obtain ⟨f, t0', h1, rfl⟩ := timeModel_shift h
  rw [ht] at h1
  cases h1
  refine ⟨by rw [Utils.shift_int_length, time_length], fun i hi hk => ?_⟩
  rw [Utils.shift_int_fills _ _ _ i (by rw [time_length]; exact hi)]
  rintro ⟨j, -, hj⟩
  omega

theorem mean_const {l : List ℝ} {b : ℝ} (hne : l ≠ []) (h : ∀ x ∈ l, x = b) : Np.mean l = some b := by
  unfold Np.mean
  rw [if_neg hne, List.eq_replicate_of_mem h]
  have hl : (l.length : ℝ) ≠ 0 := by
    have := List.length_pos_iff.2 hne
    positivity
  simp only [List.sum_replicate, List.length_replicate, nsmul_eq_mul]
  rw [mul_div_cancel_left₀ _ hl]

theorem trunc_nonneg {x : ℝ} (h : 0 ≤ x) : OF.trunc x = ⌊x⌋ := by
  unfold OF.trunc
  rw [if_neg (not_lt.2 h)]

omit [NeZero n] in
/-- A pulse that starts within the first thousand samples: the baseline is the mean of the end of the trace. -/
theorem baseline_early (o : Obj n) (pulse : ZMod n → ℝ) {t0 : ℝ} (h0 : 0 ≤ t0 * o.fs) (h1 : t0 * o.fs < 1001) :
    o.baseline (toL pulse) t0 = Np.mean ((toL pulse).drop (⌊t0 * o.fs⌋.toNat + 9000)) := by
  unfold Obj.baseline
  rw [mul_comm o.fs, trunc_nonneg h0]
  have hk : ⌊t0 * o.fs⌋ < 1001 := Int.floor_lt.2 (by exact_mod_cast h1)
  have hk0 : 0 ≤ ⌊t0 * o.fs⌋ := Int.floor_nonneg.2 h0
  simp only
  rw [if_neg (by omega)]
  unfold Np.sliceFrom Np.clipIdx
  rw [if_pos (by omega)]
  congr 1
  have e : (⌊t0 * o.fs⌋ - 1000 + 10000).toNat = ⌊t0 * o.fs⌋.toNat + 9000 := by omega
  rw [e]
  by_cases hl : ⌊t0 * o.fs⌋.toNat + 9000 ≤ (toL pulse).length
  · rw [min_eq_left hl]
  · rw [min_eq_right (by omega), List.drop_length, List.drop_eq_nil_of_le (by omega)]

theorem pts_slice {time y : List ℝ} (h : time.length = y.length) (a b : ℤ) :
    Obj.pts (slice time a b) (slice y a b) =
      ((Obj.pts time y).take (Np.clipIdx y.length b)).drop (Np.clipIdx y.length a) := by
  unfold Obj.pts slice
  rw [h, List.map_drop, List.map_take]
  simp only [List.zip_eq_zipWith, List.drop_zipWith, List.take_zipWith]

theorem mem_window {α : Type*} {l : List α} {a b : ℕ} {p : α} :
    p ∈ (l.take b).drop a ↔ ∃ i, a ≤ i ∧ i < b ∧ l[i]? = some p := by
  rw [List.mem_iff_getElem?]
  constructor
  · rintro ⟨i, hi⟩
    rw [List.getElem?_drop, List.getElem?_take] at hi
    split_ifs at hi with hb
    exact ⟨a + i, by omega, hb, hi⟩
  · rintro ⟨i, h1, h2, h3⟩
    refine ⟨i - a, ?_⟩
    rw [List.getElem?_drop, List.getElem?_take, show a + (i - a) = i by omega, if_pos h2, h3]

theorem pts_length (time y : List ℝ) : (Obj.pts time y).length = min time.length y.length := by
  simp [Obj.pts]

omit [NeZero n] in
/-- Zoom of a curve. -/
theorem mem_zoom {o : Obj n} {y : List ℝ} (h : y.length = n) {a b : ℤ} (ha : 0 ≤ a) (hb : 0 ≤ b) {p : ℝ × ℝ} :
    p ∈ Obj.pts (slice o.time a b) (slice y a b) ↔
      ∃ i : ℕ, a ≤ i ∧ (i : ℤ) < b ∧ (Obj.pts o.time y)[i]? = some p := by
  have ht : o.time.length = y.length := by simp [Obj.time, h]
  rw [pts_slice ht, mem_window]
  unfold Np.clipIdx
  rw [if_pos ha, if_pos hb, h]
  constructor
  · rintro ⟨i, h1, h2, h3⟩
    refine ⟨i, ?_, by omega, h3⟩
    omega
  · rintro ⟨i, h1, h2, h3⟩
    obtain ⟨hi, -⟩ := List.getElem?_eq_some_iff.1 h3
    rw [pts_length, ht, h] at hi
    exact ⟨i, by omega, by omega, h3⟩

omit [NeZero n] in
/-- A window which starts before the trace. -/
theorem zoom_wraps {o : Obj n} {y : List ℝ} (h : y.length = n) {a b : ℤ} (ha : a < 0) (hb : 0 ≤ b)
    (hab : b ≤ n + a) : Obj.pts (slice o.time a b) (slice y a b) = [] := by
  have ht : o.time.length = y.length := by simp [Obj.time, h]
  rw [pts_slice ht]
  unfold Np.clipIdx
  rw [if_neg (by omega), if_pos hb, h]
  apply List.drop_eq_nil_of_le
  rw [List.length_take]
  omega

omit [NeZero n] in
theorem pts_get {o : Obj n} {y : List ℝ} {i : ℕ} (hi : i < n) {v : ℝ} (h : y[i]? = some v) :
    (Obj.pts o.time y)[i]? = some ((i : ℝ) / o.fs * 10 ^ 3, v) := by
  unfold Obj.pts
  exact List.getElem?_zip_eq_some.2 ⟨by simp [Obj.time, hi], h⟩

/-- For the examples: two poles, a thousand samples per millisecond. -/
noncomputable def plotObj (n : ℕ) : Obj n := ⟨fun _ => 1, 1, none, fun _ => 1, fun _ => 1, 2, false, none⟩

omit [NeZero n] in
/-- A trace which is a pulse on a baseline of 3. -/
theorem exists_trace {o : Obj n} {params : List ℝ} {y : List ℝ} (h : o.timeModel params = .ok y) {t0 : ℝ}
    (ht : params.getLast? = some t0) :
    ∃ pulse : ZMod n → ℝ, ∀ i < n, y[i]? = some (pulse (i : ZMod n) - 3) := by
  have hl := (timeModel_zero h ht).1
  refine ⟨fun k => y.getD k.val 0 + 3, fun i hi => ?_⟩
  simp only
  rw [ZMod.val_natCast_of_lt hi, List.getD_eq_getElem?_getD, List.getElem?_eq_getElem (by omega)]
  simp

omit [NeZero n] in
theorem model_length {o : Obj n} {params : List ℝ} {m : ZMod n → ℂ} (h : o.model params = .ok m) :
    params.length = (parNames o.npole).length ∧ o.riseOf params ≠ none := by
  unfold Obj.model at h
  unfold parNames Obj.riseOf
  by_cases h4 : o.npole = 4
  · simp only [if_pos h4] at h ⊢
    split at h
    · simp
    · cases h
  simp only [if_neg h4] at h ⊢
  by_cases h4 : o.npole = 3
  · simp only [if_pos h4] at h ⊢
    split at h
    · simp
    · cases h
  simp only [if_neg h4] at h ⊢
  by_cases h4 : o.npole = 2
  · simp only [if_pos h4] at h ⊢
    split at h
    · simp
    · cases h
  simp only [if_neg h4] at h ⊢
  split at h
  · refine ⟨rfl, fun hr => ?_⟩
    unfold Obj.onepole at h
    rw [hr] at h
    cases h
  · cases h

end Verif.NonLin
