import Verif.CutProps

/-! Property C65: the cuts do not depend on the units or the zero point of the data. -/

namespace Verif.Cut
open Verif

theorem sel_map_left {α β : Type*} (g : α → β) (l : List α) (m : List Bool) :
    sel (l.map g) m = (sel l m).map g := by
  rw [sel_eq_selected, sel_eq_selected]
  induction l generalizing m with
  | nil => rfl
  | cons a l ih =>
    rcases m with _ | ⟨_ | _, m⟩
    · rfl
    · exact ih m
    · exact congrArg (g a :: ·) (ih m)

theorem sum_affine (a b : ℝ) (l : List ℝ) :
    (l.map fun x => a * x + b).sum = a * l.sum + l.length * b := by
  induction l with
  | nil => simp
  | cons x l ih =>
    rw [List.map_cons, List.sum_cons, ih, List.sum_cons, List.length_cons]
    push_cast
    ring

theorem avg_affine (a b : ℝ) {l : List ℝ} (h : l ≠ []) :
    avg (l.map fun x => a * x + b) = a * avg l + b := by
  have := length_pos' h
  unfold avg
  rw [sum_affine, List.length_map]
  field_simp

theorem moment_affine (a b : ℝ) (k : ℕ) {l : List ℝ} (h : l ≠ []) :
    moment k (l.map fun x => a * x + b) = a ^ k * moment k l := by
  unfold moment
  rw [avg_affine a b h, List.map_map]
  have e : l.map ((fun x => (x - (a * avg l + b)) ^ k) ∘ fun x => a * x + b) =
      (l.map fun x => (x - avg l) ^ k).map fun y => a ^ k * y + 0 := by
    rw [List.map_map]
    apply List.map_congr_left
    intro x _
    simp only [Function.comp]
    rw [← mul_pow, add_zero]
    congr 1
    ring
  rw [e, avg_affine _ _ (by simpa using h), add_zero]

theorem std_affine (a b : ℝ) {l : List ℝ} (h : l ≠ []) :
    std (l.map fun x => a * x + b) = |a| * std l := by
  unfold std
  rw [moment_affine a b 2 h, Real.sqrt_mul (sq_nonneg a), Real.sqrt_sq_eq_abs]

theorem isMask_affine {a : ℝ} (ha : a ≠ 0) (b : ℝ) (data : List ℝ) (cut μ σ : ℝ) :
    isMask (data.map fun x => a * x + b) cut (a * μ + b) (|a| * σ) = isMask data cut μ σ := by
  unfold isMask
  rw [List.map_map]
  apply List.map_congr_left
  intro x _
  have hp := abs_pos.2 ha
  have e : (|a * x + b - (a * μ + b)| < cut * (|a| * σ)) ↔ |x - μ| < cut * σ := by
    rw [show a * x + b - (a * μ + b) = a * (x - μ) by ring, abs_mul,
      show cut * (|a| * σ) = |a| * (cut * σ) by ring, mul_lt_mul_iff_right₀ hp]
  exact decide_eq_decide.2 e

/-- The result expected for data changed to `a*x + b`. -/
noncomputable def Stat.affine (a b : ℝ) (r : Stat) : Stat :=
  ⟨r.mean.map fun m => a * m + b, r.std.map fun s => |a| * s, r.mask⟩

theorem isLoop_affine {a : ℝ} (ha : a ≠ 0) (b : ℝ) (data : List ℝ) (hd : data ≠ []) (cut : ℝ)
    (c c' : WithTop ℝ) (hc : ∀ t : ℝ, c' < ((|a| * t : ℝ) : WithTop ℝ) ↔ c < (t : WithTop ℝ))
    (f : ℕ) : ∀ (μ σ : ℝ) (ns : ℕ),
      isLoop (data.map fun x => a * x + b) cut c' f (a * μ + b) (|a| * σ) ns =
        (isLoop data cut c f μ σ ns).map (Stat.affine a b) := by
  induction f with
  | zero => intros; rfl
  | succ f ih =>
    intro μ σ ns
    unfold isLoop
    rw [isMask_affine ha]
    simp only
    by_cases h1 : (isMask data cut μ σ).count true ≤ 1
    · rw [if_pos h1, if_pos h1, avg_affine a b hd, std_affine a b hd, List.length_map]
      rfl
    · rw [if_neg h1, if_neg h1]
      have hne : sel data (isMask data cut μ σ) ≠ [] := by
        rw [sel_isMask]
        rw [count_isMask] at h1
        intro h
        simp [h] at h1
      rw [sel_map_left, avg_affine a b hne, std_affine a b hne]
      set m' := avg (sel data (isMask data cut μ σ))
      set s' := std (sel data (isMask data cut μ σ))
      have e1 : |a * m' + b - (a * μ + b)| = |a| * |m' - μ| := by
        rw [show a * m' + b - (a * μ + b) = a * (m' - μ) by ring, abs_mul]
      have e2 : |(|a| * s') - |a| * σ| = |a| * |s' - σ| := by
        rw [← mul_sub, abs_mul, abs_abs]
      rw [e1, e2]
      simp only [hc]
      split_ifs
      · rfl
      · exact ih _ _ _
      · rfl
      · exact ih _ _ _

/-- Rescaling and shifting the data (`x` to `a*x + b`, `a ≠ 0`) leaves the selection of `iterstat`
unchanged and transforms the mean and the standard deviation accordingly. -/
theorem iterstat_affine {a : ℝ} (ha : a ≠ 0) (b : ℝ) (f : ℕ) (data : List ℝ)
    (cut precision : ℝ) :
    iterstat f (data.map fun x => a * x + b) cut precision =
      (iterstat f data cut precision).map fun r =>
        ⟨r.mean.map fun m => a * m + b, r.std.map fun s => |a| * s, r.mask⟩ := by
  unfold iterstat
  by_cases hd : data = []
  · subst hd
    rfl
  · rw [if_neg hd, if_neg (by simpa using hd), avg_affine a b hd, std_affine a b hd]
    refine isLoop_affine ha b data hd cut _ _ (fun t => ?_) f _ _ _
    unfold stdcutoff
    have hp := abs_pos.2 ha
    split_ifs
    · simp
    · rw [std_affine a b hd, WithTop.coe_lt_coe, WithTop.coe_lt_coe, mul_div_assoc,
        mul_lt_mul_iff_right₀ hp]

theorem min?_map {α β : Type*} [LinearOrder α] [LinearOrder β] {f : α → β} (hf : Monotone f)
    (l : List α) : (l.map f).min? = l.min?.map f := by
  rcases l with _ | ⟨x, l⟩
  · rfl
  · simp only [List.map_cons, List.min?_cons', Option.map_some, Option.some.injEq]
    induction l generalizing x with
    | nil => rfl
    | cons y l ih =>
      rw [List.map_cons, List.foldl_cons, List.foldl_cons, ← hf.map_min, ih]

theorem max?_map {α β : Type*} [LinearOrder α] [LinearOrder β] {f : α → β} (hf : Monotone f)
    (l : List α) : (l.map f).max? = l.max?.map f := by
  rcases l with _ | ⟨x, l⟩
  · rfl
  · simp only [List.map_cons, List.max?_cons', Option.map_some, Option.some.injEq]
    induction l generalizing x with
    | nil => rfl
    | cons y l ih =>
      rw [List.map_cons, List.foldl_cons, List.foldl_cons, ← hf.map_max, ih]

theorem skew_affine (deg : Option ℝ) {a : ℝ} (ha : 0 < a) (b : ℝ) (l : List ℝ) :
    skew deg (l.map fun x => a * x + b) = skew deg l := by
  unfold skew
  by_cases h : l = []
  · subst h
    rfl
  · rw [if_neg h, if_neg (by simpa using h), moment_affine a b 2 h, moment_affine a b 3 h]
    have ha2 : a ^ 2 ≠ 0 := by positivity
    by_cases h2 : moment 2 l = 0
    · rw [if_pos h2, if_pos (by rw [h2, mul_zero])]
    · rw [if_neg h2, if_neg (mul_ne_zero ha2 h2), Real.sqrt_mul (sq_nonneg a),
        Real.sqrt_sq ha.le, mul_pow, mul_div_mul_left _ _ (by positivity)]

theorem getD_affine (a b : ℝ) {l : List ℝ} {i : ℕ} (h : i < l.length) :
    (l.map fun x => a * x + b).getD i 0 = a * l.getD i 0 + b := by
  simp [List.getD_eq_getElem?_getD, h]

theorem median_affine {a : ℝ} (ha : 0 < a) (b : ℝ) {l : List ℝ} (h : l ≠ []) :
    median (l.map fun x => a * x + b) = a * median l + b := by
  unfold median
  have hs : (l.map fun x => a * x + b).mergeSort (fun x y => decide (x ≤ y)) =
      (l.mergeSort fun x y => decide (x ≤ y)).map fun x => a * x + b := by
    refine (List.map_mergeSort fun x _ y _ => ?_).symm
    have : (a * x + b ≤ a * y + b) ↔ x ≤ y := by
      rw [add_le_add_iff_right, mul_le_mul_iff_right₀ ha]
    simp [this]
  have hlen : 0 < l.length := List.length_pos_iff.2 h
  have hl : (l.mergeSort fun x y => decide (x ≤ y)).length = l.length := List.length_mergeSort l
  simp only [hs, List.length_map]
  split_ifs
  · rw [getD_affine _ _ (by omega)]
  · rw [getD_affine _ _ (by omega), getD_affine _ _ (by omega)]
    ring

/-- `a*v + b` on an array that may contain `inf`. -/
noncomputable def affineTop (a b : ℝ) : WithTop ℝ → WithTop ℝ := WithTop.map fun v => a * v + b

theorem finite_affine (a b : ℝ) (l : List (WithTop ℝ)) :
    finite (l.map (affineTop a b)) = (finite l).map fun x => a * x + b := by
  unfold finite
  rw [List.filterMap_map, List.map_filterMap]
  apply List.filterMap_congr
  intro v _
  induction v <;> rfl

theorem roPass_affine {a : ℝ} (ha : 0 < a) (b : ℝ) (x : List (WithTop ℝ)) (inds : List Bool)
    (hne : finite (sel x inds) ≠ []) :
    roPass (x.map (affineTop a b)) inds = roPass x inds := by
  unfold roPass
  simp only [sel_map_left, finite_affine, median_affine ha b hne]
  set med := median (finite (sel x inds))
  have hmono : Monotone (WithTop.map fun v : ℝ => a * v) := by
    apply Monotone.withTop_map
    intro u v huv
    exact mul_le_mul_of_nonneg_left huv ha.le
  have hd : (x.map (affineTop a b)).map (WithTop.map fun v => v - (a * med + b)) =
      (x.map (WithTop.map fun v => v - med)).map (WithTop.map fun v => a * v) := by
    rw [List.map_map, List.map_map]
    apply List.map_congr_left
    intro v _
    induction v with
    | top => rfl
    | coe v =>
      simp only [Function.comp, affineTop, WithTop.map_coe]
      congr 1
      ring
  rw [hd, min?_map hmono, max?_map hmono]
  set dmed := x.map (WithTop.map fun v => v - med)
  have habs : ∀ w : WithTop ℝ, (w.map fun v => a * v).map (fun v => |v|) =
      (w.map fun v => |v|).map (fun v => a * v) := by
    intro w
    induction w with
    | top => rfl
    | coe w => simp only [WithTop.map_coe, abs_mul, abs_of_pos ha]
  have hlt : ∀ u v : WithTop ℝ, (u.map fun t => a * t) < (v.map fun t => a * t) ↔ u < v := by
    have hsm : StrictMono (WithTop.map fun v : ℝ => a * v) := by
      apply StrictMono.withTop_map
      intro u v huv
      exact mul_lt_mul_of_pos_left huv ha
    exact fun u v => hsm.lt_iff_lt
  cases hlo : dmed.min? with
  | none => rfl
  | some lo =>
    cases hhi : dmed.max? with
    | none => rfl
    | some hi =>
      simp only [Option.map_some]
      rw [habs, habs, ← hmono.map_min, List.zipWith_map_right]
      congr 2
      funext p d
      rw [habs, decide_eq_decide.2 (hlt _ _)]

theorem roLoop_affine (deg : Option ℝ) {a : ℝ} (ha : 0 < a) (b : ℝ) (x : List (WithTop ℝ))
    (maxiter : ℤ) (target : ℝ) (f : ℕ) : ∀ (i : ℤ) (inds : List Bool) (hist : List (List Bool)),
      roLoop deg (x.map (affineTop a b)) maxiter target f i inds hist =
        roLoop deg x maxiter target f i inds hist := by
  induction f with
  | zero => intros; rfl
  | succ f ih =>
    intro i inds hist
    unfold roLoop
    rw [sel_map_left, finite_affine, skew_affine deg ha]
    by_cases h : above (skew deg (finite (sel x inds))) target
    · have hne : finite (sel x inds) ≠ [] := by
        intro h0
        obtain ⟨s, hs, _⟩ := h
        simp [h0, skew] at hs
      rw [if_pos h, if_pos h, roPass_affine ha b x inds hne]
      cases roPass x inds with
      | error e => rfl
      | ok inds' =>
        simp only
        split_ifs
        · rfl
        · exact ih _ _ _
    · rw [if_neg h, if_neg h]

/-- Rescaling by a positive factor and shifting the data leaves the selection of `removeoutliers`
unchanged. -/
theorem removeoutliers_affine (deg : Option ℝ) {a : ℝ} (ha : 0 < a) (b : ℝ) (f : ℕ)
    (x : List (WithTop ℝ)) (maxiter : ℤ) (target : ℝ) :
    removeoutliers deg f (x.map (WithTop.map fun v => a * v + b)) maxiter target =
      removeoutliers deg f x maxiter target := by
  unfold removeoutliers roMasks
  have e : (x.map (WithTop.map fun v => a * v + b)).map (fun v => decide (v ≠ ⊤)) =
      x.map fun v => decide (v ≠ ⊤) := by
    rw [List.map_map]
    apply List.map_congr_left
    intro v _
    induction v with
    | top => rfl
    | coe v =>
      simp only [Function.comp, WithTop.map_coe, ne_eq, WithTop.coe_ne_top, not_false_eq_true]
  rw [e]
  exact congrArg _ (roLoop_affine deg ha b x maxiter target f _ _ _)

end Verif.Cut
