import Verif.LineFitSpec
import Mathlib.Tactic.Linarith
import Mathlib.Tactic.Ring
import Mathlib.Tactic.FieldSimp
import Mathlib.Tactic.Positivity
import Mathlib.Algebra.Order.BigOperators.Group.List

/-! Facts about the least-squares line. -/

namespace Verif.LineFit
open Verif

theorem wsum_cons (f : Pt → ℝ) (p : Pt) (pts : List Pt) :
    wsum f (p :: pts) = f p / p.σ ^ 2 + wsum f pts := by
  simp [wsum]

theorem wsum_nil (f : Pt → ℝ) : wsum f [] = 0 := rfl

theorem chi2_expand (pts : List Pt) (b m : ℝ) :
    Chi2 pts b m = wsum (fun p => p.y ^ 2) pts + m ^ 2 * wsum (fun p => p.x ^ 2) pts +
      b ^ 2 * wsum (fun _ => 1) pts - 2 * m * wsum (fun p => p.x * p.y) pts -
      2 * b * wsum (fun p => p.y) pts + 2 * m * b * wsum (fun p => p.x) pts := by
  induction pts with
  | nil => simp [Chi2, wsum_nil]
  | cons p pts ih =>
    have : Chi2 (p :: pts) b m = ((p.y - (m * p.x + b)) / p.σ) ^ 2 + Chi2 pts b m := by
      simp [Chi2]
    rw [this, ih]
    simp only [wsum_cons]
    ring

theorem chi2_nonneg (pts : List Pt) (b m : ℝ) : 0 ≤ Chi2 pts b m := by
  apply List.sum_nonneg
  intro v hv
  obtain ⟨p, _, rfl⟩ := List.mem_map.1 hv
  positivity

/-- The normal equations. -/
theorem solve_normal {pts : List Pt} (h : det pts ≠ 0) :
    wsum (fun _ => 1) pts * (solve pts).b + wsum (fun p => p.x) pts * (solve pts).m =
        wsum (fun p => p.y) pts ∧
      wsum (fun p => p.x) pts * (solve pts).b + wsum (fun p => p.x ^ 2) pts * (solve pts).m =
        wsum (fun p => p.x * p.y) pts := by
  unfold solve
  unfold det at h ⊢
  constructor
  all_goals
    rw [← mul_div_assoc, ← mul_div_assoc, ← add_div, div_eq_iff h]
    ring

theorem wsum_quad (pts : List Pt) (u v : ℝ) :
    wsum (fun p => (u + v * p.x) ^ 2) pts = u ^ 2 * wsum (fun _ => 1) pts +
      2 * u * v * wsum (fun p => p.x) pts + v ^ 2 * wsum (fun p => p.x ^ 2) pts := by
  induction pts with
  | nil => simp [wsum_nil]
  | cons p pts ih =>
    simp only [wsum_cons, ih]
    ring

theorem wsum_nonneg {f : Pt → ℝ} (hf : ∀ p, 0 ≤ f p) (pts : List Pt) : 0 ≤ wsum f pts := by
  apply List.sum_nonneg
  intro v hv
  obtain ⟨p, _, rfl⟩ := List.mem_map.1 hv
  exact div_nonneg (hf p) (by positivity)

theorem det_pos {pts : List Pt} (h : det pts ≠ 0) : 0 < wsum (fun _ => 1) pts ∧ 0 < det pts := by
  have hS : 0 ≤ wsum (fun _ => 1) pts := wsum_nonneg (fun _ => zero_le_one) pts
  have hX : 0 ≤ wsum (fun p => p.x ^ 2) pts := wsum_nonneg (fun p => by positivity) pts
  have q1 : 0 ≤ wsum (fun p => (-wsum (fun p => p.x) pts + wsum (fun _ => 1) pts * p.x) ^ 2) pts :=
    wsum_nonneg (fun p => by positivity) pts
  rw [wsum_quad] at q1
  have hpos : 0 < wsum (fun _ => 1) pts := by
    rcases hS.eq_or_lt with h0 | h0
    · exfalso
      apply h
      unfold det
      by_cases hx : wsum (fun p => p.x) pts = 0
      · rw [← h0, hx]
        ring
      · exfalso
        have q2 : 0 ≤ wsum (fun p => (-(wsum (fun p => p.x ^ 2) pts + 1) /
            (2 * wsum (fun p => p.x) pts) + 1 * p.x) ^ 2) pts :=
          wsum_nonneg (fun p => by positivity) pts
        rw [wsum_quad, ← h0] at q2
        have : 2 * (-(wsum (fun p => p.x ^ 2) pts + 1) / (2 * wsum (fun p => p.x) pts)) * 1 *
            wsum (fun p => p.x) pts = -(wsum (fun p => p.x ^ 2) pts + 1) := by
          field_simp
        rw [this] at q2
        linarith
    · exact h0
  refine ⟨hpos, lt_of_le_of_ne ?_ h.symm⟩
  have : 0 ≤ wsum (fun _ => 1) pts * det pts := by
    unfold det
    linarith
  exact nonneg_of_mul_nonneg_right this hpos

/-- The closed form is the strict minimiser. -/
theorem solve_best {pts : List Pt} (h : det pts ≠ 0) :
    IsBestLine pts (solve pts).b (solve pts).m := by
  intro b' m' hne
  obtain ⟨n1, n2⟩ := solve_normal h
  obtain ⟨hS, hD⟩ := det_pos h
  unfold det at hD
  set S := wsum (fun _ => 1) pts
  set X := wsum (fun p => p.x) pts
  set XX := wsum (fun p => p.x ^ 2) pts
  set b := (solve pts).b
  set m := (solve pts).m
  have key : S * (Chi2 pts b' m' - Chi2 pts b m) =
      (S * (b' - b) + X * (m' - m)) ^ 2 + (S * XX - X ^ 2) * (m' - m) ^ 2 := by
    rw [chi2_expand, chi2_expand, ← n1, ← n2]
    ring
  have hpos : 0 < (S * (b' - b) + X * (m' - m)) ^ 2 + (S * XX - X ^ 2) * (m' - m) ^ 2 := by
    by_cases hm : m' = m
    · subst hm
      have hb : b' - b ≠ 0 := by
        intro hb
        exact hne (by rw [sub_eq_zero.1 hb])
      have := mul_ne_zero hS.ne' hb
      rw [sub_self, mul_zero, add_zero]
      positivity
    · have : m' - m ≠ 0 := sub_ne_zero.2 hm
      have : 0 < (m' - m) ^ 2 := by positivity
      have := mul_pos hD this
      positivity
  rw [← key] at hpos
  linarith [pos_of_mul_pos_right hpos hS.le]

/-- Exact data are recovered. -/
theorem solve_exact {pts : List Pt} (h : det pts ≠ 0) {b m : ℝ} (hon : OnLine pts b m) :
    (solve pts).b = b ∧ (solve pts).m = m := by
  have h0 : Chi2 pts b m = 0 := by
    unfold Chi2
    rw [List.map_congr_left (g := fun _ => 0)]
    · simp
    · intro p hp
      rw [hon p hp]
      simp
  by_contra hne
  have := solve_best h b m (by
    intro e
    rw [Prod.mk.injEq] at e
    exact hne ⟨e.1.symm, e.2.symm⟩)
  rw [h0] at this
  exact absurd this (not_lt.2 (chi2_nonneg _ _ _))

theorem wsum_withY {f : Pt → ℝ} (hf : ∀ p y, f ⟨p.x, y, p.σ⟩ = f p) (pts : List Pt) :
    ∀ ys : List ℝ, ys.length = pts.length → wsum f (withY pts ys) = wsum f pts := by
  induction pts with
  | nil => intro ys h; rw [List.length_nil, List.length_eq_zero_iff] at h; subst h; rfl
  | cons p pts ih =>
    intro ys h
    rcases ys with _ | ⟨y, ys⟩
    · simp at h
    · have : withY (p :: pts) (y :: ys) = ⟨p.x, y, p.σ⟩ :: withY pts ys := rfl
      rw [this, wsum_cons, wsum_cons, ih ys (by simpa using h), hf]

theorem wsum_lin (A B D : ℝ) (pts : List Pt) :
    ∀ ys : List ℝ, ys.length = pts.length →
      (A * wsum (fun p => p.y) (withY pts ys) + B * wsum (fun p => p.x * p.y) (withY pts ys)) / D =
        (List.zipWith (fun p y => ((A + B * p.x) / (D * p.σ ^ 2)) * y) pts ys).sum := by
  induction pts with
  | nil => intro ys h; rw [List.length_nil, List.length_eq_zero_iff] at h; subst h; simp [withY, wsum_nil]
  | cons p pts ih =>
    intro ys h
    rcases ys with _ | ⟨y, ys⟩
    · simp at h
    · have e : withY (p :: pts) (y :: ys) = ⟨p.x, y, p.σ⟩ :: withY pts ys := rfl
      rw [e, List.zipWith_cons_cons, List.sum_cons, ← ih ys (by simpa using h), wsum_cons, wsum_cons]
      simp only [div_eq_mul_inv, mul_inv]
      ring

theorem sum_sq_lin {A B D : ℝ} {pts : List Pt} (hσ : ∀ p ∈ pts, p.σ ≠ 0) :
    (pts.map fun p => ((A + B * p.x) / (D * p.σ ^ 2) * p.σ) ^ 2).sum =
      (A ^ 2 * wsum (fun _ => 1) pts + 2 * A * B * wsum (fun p => p.x) pts +
        B ^ 2 * wsum (fun p => p.x ^ 2) pts) / D ^ 2 := by
  rw [← wsum_quad]
  induction pts with
  | nil => simp [wsum_nil]
  | cons p pts ih =>
    have hp := hσ p List.mem_cons_self
    rw [List.map_cons, List.sum_cons, ih fun q hq => hσ q (List.mem_cons_of_mem _ hq), wsum_cons]
    by_cases hD : D = 0
    · simp [hD]
    · field_simp

/-- The variance of the intercept. -/
theorem variance_b {pts : List Pt} (hσ : ∀ p ∈ pts, p.σ ≠ 0) (h : det pts ≠ 0) :
    IsVariance pts (fun l => (solve l).b) (solve pts).cbb := by
  refine ⟨fun p => (wsum (fun p => p.x ^ 2) pts + (-wsum (fun p => p.x) pts) * p.x) /
    (det pts * p.σ ^ 2), ?_, ?_⟩
  · intro ys hys
    rw [← wsum_lin _ _ _ _ _ hys]
    simp only [solve, det]
    rw [wsum_withY (f := fun _ => 1) (by simp) pts ys hys,
      wsum_withY (f := fun p => p.x) (by simp) pts ys hys,
      wsum_withY (f := fun p => p.x ^ 2) (by simp) pts ys hys]
    ring
  · rw [sum_sq_lin hσ]
    unfold solve
    rw [div_eq_div_iff h (pow_ne_zero 2 h)]
    unfold det
    ring

/-- The variance of the slope. -/
theorem variance_m {pts : List Pt} (hσ : ∀ p ∈ pts, p.σ ≠ 0) (h : det pts ≠ 0) :
    IsVariance pts (fun l => (solve l).m) (solve pts).cmm := by
  refine ⟨fun p => (-wsum (fun p => p.x) pts + wsum (fun _ => 1) pts * p.x) /
    (det pts * p.σ ^ 2), ?_, ?_⟩
  · intro ys hys
    rw [← wsum_lin _ _ _ _ _ hys]
    simp only [solve, det]
    rw [wsum_withY (f := fun _ => 1) (by simp) pts ys hys,
      wsum_withY (f := fun p => p.x) (by simp) pts ys hys,
      wsum_withY (f := fun p => p.x ^ 2) (by simp) pts ys hys]
    ring
  · rw [sum_sq_lin hσ]
    unfold solve
    rw [div_eq_div_iff h (pow_ne_zero 2 h)]
    unfold det
    ring

/-- What a successful `curve_fit` means. -/
theorem curveFit_ok {pts : List (Option Pt)} {f : Fit} (h : curveFit pts = .ok f) :
    ∃ l : List Pt, pts = l.map some ∧ 2 ≤ l.length ∧ (∀ p ∈ l, p.σ ≠ 0) ∧ det l ≠ 0 ∧
      f = solve l := by
  unfold curveFit at h
  split_ifs at h with h1 h2 h3
  rw [not_or] at h1 h3
  have e : pts = (pts.filterMap id).map some := by
    have : ∀ l : List (Option Pt), none ∉ l → l = (l.filterMap id).map some := by
      intro l
      induction l with
      | nil => intro _; rfl
      | cons a l ih =>
        intro hn
        rcases a with _ | a
        · simp at hn
        · exact congrArg (some a :: ·) (ih fun h => hn (List.mem_cons_of_mem _ h))
    exact this pts h1.2
  refine ⟨pts.filterMap id, e, ?_, ?_, h3.2, ?_⟩
  · have := congrArg List.length e
    rw [List.length_map] at this
    omega
  · intro p hp h0
    exact h3.1 ⟨p, hp, h0⟩
  · cases h
    rfl

end Verif.LineFit
