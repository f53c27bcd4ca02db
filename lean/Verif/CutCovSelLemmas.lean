import Verif.CutCovProps
import Verif.CutScaleProps
import Verif.CutCovSelSpec
import Mathlib.LinearAlgebra.Matrix.NonsingularInverse

/-! Helper lemmas for C104. -/

namespace Verif.Cut
open Verif Matrix

variable {d : ℕ}

/-- What a pass keeps, in terms of the specification. -/
theorem covMask_iff {ev : List (Fin d → ℝ)} {m : Fin d → ℝ} {c : Matrix (Fin d) (Fin d) ℝ}
    (hc : c.det ≠ 0) (mc thr : ℝ) (k : ℕ) (hk : k < ev.length) :
    (covMask ev m c mc thr)[k]? = some true ↔ InEllipsoid m c mc ev[k] ∧ InBox m c thr ev[k] := by
  unfold covMask
  rw [List.getElem?_map, List.getElem?_eq_getElem hk]
  simp only [Option.map_some, Option.some.injEq, Bool.and_eq_true, decide_eq_true_eq]
  have hu : IsUnit c.det := isUnit_iff_ne_zero.2 hc
  refine and_congr ⟨fun h => ⟨c⁻¹.mulVec fun j => ev[k] j - m j, ?_, h⟩, ?_⟩ ?_
  · intro i
    have : (c.mulVec (c⁻¹.mulVec fun j => ev[k] j - m j)) i = ev[k] i - m i := by
      rw [mulVec_mulVec, mul_nonsing_inv _ hu, one_mulVec]
    exact this
  · rintro ⟨v, hv, h⟩
    have e : (c⁻¹.mulVec fun j => ev[k] j - m j) = v := by
      have hv' : (fun j => ev[k] j - m j) = c.mulVec v := funext fun i => (hv i).symm
      rw [hv', mulVec_mulVec, nonsing_inv_mul _ hu, one_mulVec]
    rw [e]
    exact h
  · refine forall_congr' fun i => ?_
    rw [abs_lt, mul_comm]
    constructor <;> rintro ⟨h1, h2⟩ <;> constructor <;> linarith

/-- Where the mask of the loop comes from. -/
theorem covLoop_selects (ev : List (Fin d → ℝ)) (mc thr : ℝ) (maxiter : ℤ)
    (em : Fin d → ℝ) (ec : ℝ) (fuel : ℕ) :
    ∀ (mask0 : List Bool) (ns jj : ℕ) (s : CovStat d) (p : ℕ), mask0.length = ev.length →
      2 ≤ (Selected ev mask0).length →
      covLoop ev mc thr maxiter em ec fuel (vmean (Selected ev mask0)) (vcov (Selected ev mask0))
        ns jj = some (.ok (s, p)) →
      ∃ mask' m c, mask'.length = ev.length ∧ IsMeanVec (Selected ev mask') m ∧
        IsCov (Selected ev mask') c ∧ c.det ≠ 0 ∧
        ((s.mask = List.replicate ev.length true ∧
            (covMask ev m c mc thr).count true ≤ 1) ∨
          (s.mask = covMask ev m c mc thr ∧ 2 ≤ s.mask.count true)) := by
  induction fuel with
  | zero => intro _ _ _ _ _ _ _ h; cases h
  | succ fuel ih =>
    intro mask0 ns jj s p hl h2 h
    unfold covLoop at h
    by_cases hdet : (vcov (Selected ev mask0)).det = 0
    · rw [if_pos hdet] at h
      cases h
    rw [if_neg hdet] at h
    simp only at h
    have hm := isMeanVec_vmean (l := Selected ev mask0) (by intro h0; rw [h0] at h2; simp at h2)
    have hc := isCov_vcov h2
    by_cases h1 : (covMask ev (vmean (Selected ev mask0)) (vcov (Selected ev mask0)) mc
        thr).count true ≤ 1
    · rw [if_pos h1] at h
      simp only [Option.some.injEq, Except.ok.injEq, Prod.mk.injEq] at h
      refine ⟨mask0, _, _, hl, hm, hc, hdet, .inl ⟨?_, h1⟩⟩
      rw [← h.1]
    · rw [if_neg h1] at h
      have hlen : (covMask ev (vmean (Selected ev mask0)) (vcov (Selected ev mask0)) mc
          thr).length = ev.length := List.length_map _
      have hcnt : 2 ≤ (Selected ev (covMask ev (vmean (Selected ev mask0))
          (vcov (Selected ev mask0)) mc thr)).length := by
        rw [← sel_eq_selected]
        have : (covMask ev (vmean (Selected ev mask0)) (vcov (Selected ev mask0)) mc
            thr).count true = (sel ev (covMask ev (vmean (Selected ev mask0))
            (vcov (Selected ev mask0)) mc thr)).length := by
          unfold covMask
          rw [count_map, sel_map]
        omega
      have hret : s.mask = covMask ev (vmean (Selected ev mask0)) (vcov (Selected ev mask0)) mc thr →
          ∃ mask' m c, mask'.length = ev.length ∧ IsMeanVec (Selected ev mask') m ∧
            IsCov (Selected ev mask') c ∧ c.det ≠ 0 ∧
            ((s.mask = List.replicate ev.length true ∧
                (covMask ev m c mc thr).count true ≤ 1) ∨
              (s.mask = covMask ev m c mc thr ∧ 2 ≤ s.mask.count true)) :=
        fun e => ⟨mask0, _, _, hl, hm, hc, hdet, .inr ⟨e, by rw [e]; omega⟩⟩
      rw [sel_eq_selected] at h
      split_ifs at h with h3 h4 h5
      · simp only [Option.some.injEq, Except.ok.injEq, Prod.mk.injEq] at h
        exact hret (by rw [← h.1])
      · exact ih _ _ _ _ _ hlen hcnt h
      · simp only [Option.some.injEq, Except.ok.injEq, Prod.mk.injEq] at h
        exact hret (by rw [← h.1])
      · exact ih _ _ _ _ _ hlen hcnt h

theorem two_le_count {l : List Bool} {j k : ℕ} (hjk : j ≠ k) (hj : l[j]? = some true)
    (hk : l[k]? = some true) : 1 < l.count true := by
  induction l generalizing j k with
  | nil => simp at hj
  | cons x l ih =>
    have one : ∀ (l : List Bool) (k : ℕ), l[k]? = some true → 0 < l.count true := fun l k h =>
      List.count_pos_iff.2 (List.mem_of_getElem? h)
    rcases j with _ | j <;> rcases k with _ | k
    · exact absurd rfl hjk
    · simp only [List.getElem?_cons_zero, Option.some.injEq] at hj
      rw [List.getElem?_cons_succ] at hk
      have := one l k hk
      rw [hj, List.count_cons_self]
      omega
    · simp only [List.getElem?_cons_zero, Option.some.injEq] at hk
      rw [List.getElem?_cons_succ] at hj
      have := one l j hj
      rw [hk, List.count_cons_self]
      omega
    · rw [List.getElem?_cons_succ] at hj hk
      have := ih (by omega) hj hk
      rw [List.count_cons]
      omega

/-! ### Change of units -/

/-- An event in other units. -/
def aff (s : ℝ) (b : Fin d → ℝ) (x : Fin d → ℝ) : Fin d → ℝ := fun i => s * x i + b i

theorem vmean_aff (s : ℝ) (b : Fin d → ℝ) {l : List (Fin d → ℝ)} (h : l ≠ []) :
    vmean (l.map (aff s b)) = aff s b (vmean l) := by
  funext i
  unfold vmean
  rw [List.map_map]
  have := avg_affine s (b i) (l := l.map fun x => x i) (by simpa using h)
  rw [List.map_map] at this
  exact this

theorem vcov_aff (s : ℝ) (b : Fin d → ℝ) {l : List (Fin d → ℝ)} (h : l ≠ []) :
    vcov (l.map (aff s b)) = s ^ 2 • vcov l := by
  ext i j
  rw [Matrix.smul_apply, smul_eq_mul]
  unfold vcov
  rw [vmean_aff s b h, List.map_map, List.length_map, ← mul_div_assoc]
  congr 1
  rw [← List.sum_map_mul_left]
  congr 1
  apply List.map_congr_left
  intro x _
  simp only [Function.comp, aff]
  ring

theorem det_smul_ne {s : ℝ} (hs : s ≠ 0) (c : Matrix (Fin d) (Fin d) ℝ) :
    (s ^ 2 • c).det = 0 ↔ c.det = 0 := by
  rw [Matrix.det_smul, mul_eq_zero]
  exact or_iff_right (pow_ne_zero _ (pow_ne_zero _ hs))

theorem covMask_aff {s : ℝ} (hs : s ≠ 0) (b : Fin d → ℝ) (ev : List (Fin d → ℝ)) (m : Fin d → ℝ)
    {c : Matrix (Fin d) (Fin d) ℝ} (hc : c.det ≠ 0) (mc thr : ℝ) :
    covMask (ev.map (aff s b)) (aff s b m) (s ^ 2 • c) mc thr = covMask ev m c mc thr := by
  unfold covMask
  rw [List.map_map]
  apply List.map_congr_left
  intro x _
  simp only [Function.comp]
  have hδ : ∀ i, aff s b x i - aff s b m i = s * (x i - m i) := fun i => by unfold aff; ring
  simp only [hδ]
  have hu : IsUnit c.det := isUnit_iff_ne_zero.2 hc
  have hs2 : s ^ 2 ≠ 0 := pow_ne_zero _ hs
  have hinv : (s ^ 2 • c)⁻¹ = (s ^ 2)⁻¹ • c⁻¹ := by
    apply Matrix.inv_eq_left_inv
    rw [Matrix.smul_mul, Matrix.mul_smul, smul_smul, inv_mul_cancel₀ hs2, one_smul,
      nonsing_inv_mul _ hu]
  have hv : ((s ^ 2 • c)⁻¹.mulVec fun j => s * (x j - m j)) =
      s⁻¹ • c⁻¹.mulVec fun j => x j - m j := by
    have e : (fun j => s * (x j - m j)) = s • fun j => x j - m j := rfl
    rw [hinv, e, Matrix.smul_mulVec, Matrix.mulVec_smul, smul_smul]
    congr 1
    field_simp
  rw [hv]
  congr 2
  · congr 1
    refine Finset.sum_congr rfl fun i _ => ?_
    rw [Pi.smul_apply, smul_eq_mul]
    field_simp
  · refine propext (forall_congr' fun i => ?_)
    rw [Matrix.smul_apply, smul_eq_mul, Real.sqrt_mul (sq_nonneg s), Real.sqrt_sq_eq_abs, abs_mul,
      mul_assoc]
    exact mul_lt_mul_iff_right₀ (abs_pos.2 hs)

/-- A result in other units. -/
def CovStat.aff (s : ℝ) (b : Fin d → ℝ) (r : CovStat d) : CovStat d :=
  ⟨r.mean.map (Cut.aff s b), r.cov.map fun c => s ^ 2 • c, r.mask⟩

theorem covLoop_aff {s : ℝ} (hs : s ≠ 0) (b : Fin d → ℝ) (ev : List (Fin d → ℝ)) (hev : ev ≠ [])
    (mc thr : ℝ) (maxiter : ℤ) (em : Fin d → ℝ) (ec : ℝ) (fuel : ℕ) :
    ∀ (m : Fin d → ℝ) (c : Matrix (Fin d) (Fin d) ℝ) (ns jj : ℕ),
      covLoop (ev.map (aff s b)) mc thr maxiter (fun i => |s| * em i) (s ^ 2 * ec) fuel (aff s b m)
          (s ^ 2 • c) ns jj =
        (covLoop ev mc thr maxiter em ec fuel m c ns jj).map
          fun r => r.map fun q => (q.1.aff s b, q.2) := by
  induction fuel with
  | zero => intros; rfl
  | succ fuel ih =>
    intro m c ns jj
    unfold covLoop
    by_cases hdet : c.det = 0
    · rw [if_pos hdet, if_pos ((det_smul_ne hs c).2 hdet)]
      rfl
    rw [if_neg hdet, if_neg (fun h => hdet ((det_smul_ne hs c).1 h))]
    simp only
    rw [covMask_aff hs b ev m hdet]
    by_cases h1 : (covMask ev m c mc thr).count true ≤ 1
    · rw [if_pos h1, if_pos h1, vmean_aff s b hev, vcov_aff s b hev, List.length_map]
      rfl
    · rw [if_neg h1, if_neg h1]
      have hne : sel ev (covMask ev m c mc thr) ≠ [] := by
        intro h0
        apply h1
        have : (covMask ev m c mc thr).count true =
            (sel ev (covMask ev m c mc thr)).length := by
          unfold covMask
          rw [count_map, sel_map]
        rw [this, h0]
        simp
      rw [sel_map_left, vmean_aff s b hne, vcov_aff s b hne]
      set m' := vmean (sel ev (covMask ev m c mc thr))
      set c' := vcov (sel ev (covMask ev m c mc thr))
      have e1 : ∀ i, |s| * em i < |aff s b m' i - aff s b m i| ↔ em i < |m' i - m i| := by
        intro i
        have : aff s b m' i - aff s b m i = s * (m' i - m i) := by unfold aff; ring
        rw [this, abs_mul]
        exact mul_lt_mul_iff_right₀ (abs_pos.2 hs)
      have e2 : ∀ i j, s ^ 2 * ec < |(s ^ 2 • c') i j - (s ^ 2 • c) i j| ↔
          ec < |c' i j - c i j| := by
        intro i j
        rw [Matrix.smul_apply, Matrix.smul_apply, smul_eq_mul, smul_eq_mul, ← mul_sub, abs_mul,
          abs_of_nonneg (sq_nonneg s)]
        exact mul_lt_mul_iff_right₀ (by positivity)
      simp only [e1, e2]
      split_ifs with h3 h4 h5
      · rfl
      · exact ih _ _ _ _
      · rfl
      · exact ih _ _ _ _

theorem itercovEv_aff (ppf : ℕ → ℝ) {s : ℝ} (hs : s ≠ 0) (b : Fin d → ℝ) (fuel : ℕ)
    (ev : List (Fin d → ℝ)) (nsigma : ℝ) (threshold : Option ℝ) (maxiter : ℤ) (fracerr : ℝ) :
    itercovEv ppf fuel (ev.map (aff s b)) nsigma threshold maxiter fracerr =
      (itercovEv ppf fuel ev nsigma threshold maxiter fracerr).map
        fun r => r.map fun q => (q.1.aff s b, q.2) := by
  unfold itercovEv
  by_cases h0 : ev = []
  · subst h0
    rfl
  rw [if_neg h0, if_neg (by simpa using h0), List.length_map]
  by_cases h1 : ev.length = 1
  · rw [if_pos h1, if_pos h1, vmean_aff s b h0]
    rfl
  rw [if_neg h1, if_neg h1]
  simp only
  rw [vmean_aff s b h0, vcov_aff s b h0]
  have hsq : ∀ i, Real.sqrt ((s ^ 2 • vcov ev) i i) = |s| * Real.sqrt (vcov ev i i) := by
    intro i
    rw [Matrix.smul_apply, smul_eq_mul, Real.sqrt_mul (sq_nonneg s), Real.sqrt_sq_eq_abs]
  have e1 : (fun i => fracerr * Real.sqrt ((s ^ 2 • vcov ev) i i)) =
      fun i => |s| * (fracerr * Real.sqrt (vcov ev i i)) := by
    funext i
    rw [hsq]
    ring
  have e2 : fracerr * ∑ i, Real.sqrt ((s ^ 2 • vcov ev) i i) ^ 2 =
      s ^ 2 * (fracerr * ∑ i, Real.sqrt (vcov ev i i) ^ 2) := by
    have : ∑ i, Real.sqrt ((s ^ 2 • vcov ev) i i) ^ 2 =
        s ^ 2 * ∑ i, Real.sqrt (vcov ev i i) ^ 2 := by
      rw [Finset.mul_sum]
      refine Finset.sum_congr rfl fun i _ => ?_
      rw [hsq, mul_pow, sq_abs]
    rw [this]
    ring
  rw [e1, e2]
  exact covLoop_aff hs b ev h0 _ _ _ _ _ _ _ _ _ _

end Verif.Cut
