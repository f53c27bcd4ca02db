import Verif.CutCovSelLemmas

/-! Helper lemmas for C104: sixteen events on which `itercov` depends on the units of one
variable. -/

namespace Verif.Cut
open Verif Matrix

/-- Four events at `±L`, `±s`. -/
def block (s L : ℝ) : List (Fin 2 → ℝ) := [![L, s], ![-L, s], ![L, -s], ![-L, -s]]

/-- The events with the given levels of the first variable. -/
def levels (s : ℝ) (Ls : List ℝ) : List (Fin 2 → ℝ) := Ls.flatMap (block s)

/-- Their covariance. -/
noncomputable def levelCov (s : ℝ) (Ls : List ℝ) : Matrix (Fin 2) (Fin 2) ℝ :=
  !![4 * (Ls.map fun L => L ^ 2).sum / (4 * Ls.length - 1), 0;
    0, 4 * (Ls.length * s ^ 2) / (4 * Ls.length - 1)]

theorem levels_length (s : ℝ) (Ls : List ℝ) : (levels s Ls).length = 4 * Ls.length := by
  unfold levels
  induction Ls with
  | nil => rfl
  | cons a l ih =>
    rw [List.flatMap_cons, List.length_append, ih, List.length_cons]
    simp [block]
    ring

theorem vmean_levels (s : ℝ) (Ls : List ℝ) : vmean (levels s Ls) = fun _ => 0 := by
  have key : ∀ i, ((levels s Ls).map fun x => x i).sum = 0 := by
    intro i
    unfold levels
    induction Ls with
    | nil => simp
    | cons a l ih =>
      rw [List.flatMap_cons, List.map_append, List.sum_append, ih]
      fin_cases i <;> simp [block]
  funext i
  unfold vmean avg
  rw [key, zero_div]

theorem vcov_levels (s : ℝ) (Ls : List ℝ) : vcov (levels s Ls) = levelCov s Ls := by
  ext i j
  unfold vcov
  rw [vmean_levels, levels_length]
  simp only [sub_zero]
  have key : ((levels s Ls).map fun x => x i * x j).sum =
      (!![4 * (Ls.map fun L => L ^ 2).sum, 0; 0, 4 * (Ls.length * s ^ 2)] :
        Matrix (Fin 2) (Fin 2) ℝ) i j := by
    unfold levels
    induction Ls with
    | nil => fin_cases i <;> fin_cases j <;> simp
    | cons a l ih =>
      rw [List.flatMap_cons, List.map_append, List.sum_append, ih]
      fin_cases i <;> fin_cases j <;> simp [block] <;> ring
  rw [key]
  push_cast
  fin_cases i <;> fin_cases j <;> simp [levelCov]

/-- Which levels a pass keeps (`threshold = 5/4`). -/
def keepP (a b s mc L : ℝ) : Prop :=
  L ^ 2 / a + s ^ 2 / b < mc ∧ L ^ 2 < a * (25 / 16) ∧ s ^ 2 < b * (25 / 16)

noncomputable instance (a b s mc L : ℝ) : Decidable (keepP a b s mc L) := Classical.dec _

theorem abs_lt_sqrt {a : ℝ} (ha : 0 < a) (x : ℝ) :
    |x| < Real.sqrt a * (5 / 4) ↔ x ^ 2 < a * (25 / 16) := by
  have e : Real.sqrt a * (5 / 4) = Real.sqrt (a * (25 / 16)) := by
    rw [Real.sqrt_mul ha.le]
    congr 1
    rw [show (25 / 16 : ℝ) = (5 / 4) ^ 2 by norm_num, Real.sqrt_sq (by norm_num)]
  rw [e, Real.lt_sqrt (abs_nonneg x), sq_abs]

theorem covMask_levels (s : ℝ) (Ls : List ℝ) {a b : ℝ} (ha : 0 < a) (hb : 0 < b) (mc : ℝ) :
    covMask (levels s Ls) (fun _ => 0) !![a, 0; 0, b] mc (5 / 4) =
      Ls.flatMap fun L => List.replicate 4 (decide (keepP a b s mc L)) := by
  have hinv : (!![a, 0; 0, b] : Matrix (Fin 2) (Fin 2) ℝ)⁻¹ = !![a⁻¹, 0; 0, b⁻¹] := by
    apply Matrix.inv_eq_left_inv
    ext i j
    fin_cases i <;> fin_cases j <;> simp [Matrix.mul_apply, Fin.sum_univ_two, ha.ne', hb.ne']
  have key : ∀ x y : ℝ, (decide (∑ i, ((![x, y] : Fin 2 → ℝ) i - 0) *
      ((!![a, 0; 0, b] : Matrix (Fin 2) (Fin 2) ℝ)⁻¹.mulVec
        fun j => (![x, y] : Fin 2 → ℝ) j - 0) i < mc) &&
      decide (∀ i, |(![x, y] : Fin 2 → ℝ) i - 0| <
        Real.sqrt ((!![a, 0; 0, b] : Matrix (Fin 2) (Fin 2) ℝ) i i) * (5 / 4))) =
      decide (keepP a b y mc x) := by
    intro x y
    rw [← Bool.decide_and]
    refine decide_eq_decide.2 ?_
    rw [hinv]
    unfold keepP
    refine and_congr ?_ ?_
    · have : ∑ i, ((![x, y] : Fin 2 → ℝ) i - 0) *
          ((!![a⁻¹, 0; 0, b⁻¹] : Matrix (Fin 2) (Fin 2) ℝ).mulVec
            fun j => (![x, y] : Fin 2 → ℝ) j - 0) i = x ^ 2 / a + y ^ 2 / b := by
        simp [Fin.sum_univ_two, Matrix.mulVec, dotProduct]
        ring
      rw [this]
    · rw [Fin.forall_fin_two]
      simp only [sub_zero]
      refine and_congr ?_ ?_
      · simpa using abs_lt_sqrt ha x
      · simpa using abs_lt_sqrt hb y
  unfold covMask levels
  induction Ls with
  | nil => rfl
  | cons c l ih =>
    rw [List.flatMap_cons, List.map_append, ih, List.flatMap_cons]
    congr 1
    have hn : ∀ u v : ℝ, decide (keepP a b u mc (-v)) = decide (keepP a b u mc v) := fun u v =>
      decide_eq_decide.2 (by unfold keepP; rw [neg_sq])
    have hn' : ∀ u v : ℝ, decide (keepP a b (-u) mc v) = decide (keepP a b u mc v) := fun u v =>
      decide_eq_decide.2 (by unfold keepP; rw [neg_sq])
    unfold block
    rw [List.map_cons, List.map_cons, List.map_cons, List.map_cons, key, key, key, key]
    simp only [hn, hn']
    rfl

theorem selected_levels (s : ℝ) (Ls : List ℝ) (p : ℝ → Bool) :
    sel (levels s Ls) (Ls.flatMap fun L => List.replicate 4 (p L)) = levels s (Ls.filter p) := by
  rw [sel_eq_selected]
  induction Ls with
  | nil => rfl
  | cons c l ih =>
    have e : levels s (c :: l) = block s c ++ levels s l := rfl
    rw [e, List.flatMap_cons]
    cases h : p c
    · rw [List.filter_cons_of_neg (by simp [h])]
      exact ih
    · rw [List.filter_cons_of_pos h]
      change ![c, s] :: ![-c, s] :: ![c, -s] :: ![-c, -s] :: 
        Selected (levels s l) (l.flatMap fun L => List.replicate 4 (p L)) = _
      rw [ih]
      rfl

theorem count_levels (Ls : List ℝ) (p : ℝ → Bool) :
    (Ls.flatMap fun L => List.replicate 4 (p L)).count true = 4 * (Ls.filter p).length := by
  induction Ls with
  | nil => rfl
  | cons c l ih =>
    rw [List.flatMap_cons, List.count_append, ih]
    cases h : p c
    · rw [List.filter_cons_of_neg (by simp [h])]
      simp
    · rw [List.filter_cons_of_pos h]
      simp
      ring

/-- One pass on these events.  `Ps` are the levels of the previous pass, `Ns` those kept. -/
theorem covLoop_levels (s : ℝ) (Ls Ps Ns : List ℝ) (mc : ℝ) (mi : ℤ) (em : Fin 2 → ℝ) (ec : ℝ)
    (hem : ∀ i, 0 ≤ em i) (hec : 0 ≤ ec) (fuel ns jj : ℕ) {a b : ℝ} (ha : 0 < a) (hb : 0 < b)
    (hP : levelCov s Ps = !![a, 0; 0, b])
    (hN : Ls.filter (fun L => decide (keepP a b s mc L)) = Ns) (h1 : Ns ≠ []) (ns' : ℕ)
    (hns : ns' = if ec < |levelCov s Ns 0 0 - a| ∨ ec < |levelCov s Ns 1 1 - b| then 0
      else ns + 1) :
    covLoop (levels s Ls) mc (5 / 4) mi em ec (fuel + 1) (fun _ => 0) (levelCov s Ps) ns jj =
      if ns' ≥ 2 ∨ (jj : ℤ) > mi then
        some (.ok (⟨some fun _ => 0, some (levelCov s Ns),
          Ls.flatMap fun L => List.replicate 4 (decide (keepP a b s mc L))⟩, jj + 1))
      else covLoop (levels s Ls) mc (5 / 4) mi em ec fuel (fun _ => 0) (levelCov s Ns) ns'
        (jj + 1) := by
  rw [covLoop]
  have hdet : (levelCov s Ps).det ≠ 0 := by
    rw [hP, Matrix.det_fin_two_of]
    simp [ha.ne', hb.ne']
  rw [if_neg hdet]
  simp only
  rw [hP, covMask_levels s Ls ha hb, selected_levels, count_levels, hN]
  have hl := List.length_pos_iff.2 h1
  rw [if_neg (by omega : ¬ 4 * Ns.length ≤ 1)]
  simp only [vmean_levels, vcov_levels]
  have hcond : ((∃ i, em i < |(0 : ℝ) - 0|) ∨
      ∃ i j, ec < |levelCov s Ns i j - (!![a, 0; 0, b] : Matrix (Fin 2) (Fin 2) ℝ) i j|) ↔
      (ec < |levelCov s Ns 0 0 - a| ∨ ec < |levelCov s Ns 1 1 - b|) := by
    have h0 : ¬ ∃ i, em i < |(0 : ℝ) - 0| := by
      rintro ⟨i, h⟩
      simp at h
      linarith [hem i]
    rw [or_iff_right h0]
    constructor
    · rintro ⟨i, j, h⟩
      fin_cases i <;> fin_cases j
      · exact .inl (by simpa using h)
      · exact absurd h (by simp [levelCov, hec])
      · exact absurd h (by simp [levelCov, hec])
      · exact .inr (by simpa using h)
    · rintro (h | h)
      · exact ⟨0, 0, by simpa using h⟩
      · exact ⟨1, 1, by simpa using h⟩
  have e : (if (∃ i, em i < |(0 : ℝ) - 0|) ∨
      ∃ i j, ec < |levelCov s Ns i j - (!![a, 0; 0, b] : Matrix (Fin 2) (Fin 2) ℝ) i j| then 0
      else ns + 1) = ns' := by
    rw [hns]
    by_cases hc : ec < |levelCov s Ns 0 0 - a| ∨ ec < |levelCov s Ns 1 1 - b|
    · rw [if_pos hc, if_pos (hcond.2 hc)]
    · rw [if_neg hc, if_neg (fun h => hc (hcond.1 h))]
  rw [e]

end Verif.Cut
