import Verif.IvUnitsSpec
import Verif.IvProps

/-! Lemmas for C129. -/

namespace Verif.LineFit
open Verif

/-- Both axes rescaled and shifted. -/
def aff2 (v e a d : ℝ) (p : Pt) : Pt := ⟨v * p.x + e, a * p.y + d, |a| * p.σ⟩

/-- The corresponding line and its covariance. -/
noncomputable def affFit (v e a d : ℝ) (f : Fit) : Fit :=
  ⟨a * f.b + d - a / v * f.m * e, a / v * f.m,
    a ^ 2 * (f.cbb - 2 * (e / v) * f.cbm + (e / v) ^ 2 * f.cmm), a ^ 2 / v ^ 2 * f.cmm,
    a ^ 2 / v * (f.cbm - e / v * f.cmm)⟩

theorem wsum_aff2 {v e a d : ℝ} (ha : a ≠ 0) (pts : List Pt) :
    wsum (fun _ => 1) (pts.map (aff2 v e a d)) = wsum (fun _ => 1) pts / a ^ 2 ∧
    wsum (fun p => p.x) (pts.map (aff2 v e a d)) =
      (v * wsum (fun p => p.x) pts + e * wsum (fun _ => 1) pts) / a ^ 2 ∧
    wsum (fun p => p.x ^ 2) (pts.map (aff2 v e a d)) = (v ^ 2 * wsum (fun p => p.x ^ 2) pts +
      2 * v * e * wsum (fun p => p.x) pts + e ^ 2 * wsum (fun _ => 1) pts) / a ^ 2 ∧
    wsum (fun p => p.y) (pts.map (aff2 v e a d)) =
      (a * wsum (fun p => p.y) pts + d * wsum (fun _ => 1) pts) / a ^ 2 ∧
    wsum (fun p => p.x * p.y) (pts.map (aff2 v e a d)) =
      (v * a * wsum (fun p => p.x * p.y) pts + v * d * wsum (fun p => p.x) pts +
        e * a * wsum (fun p => p.y) pts + e * d * wsum (fun _ => 1) pts) / a ^ 2 := by
  induction pts with
  | nil => simp [wsum_nil]
  | cons p l ih =>
    obtain ⟨h1, h2, h3, h4, h5⟩ := ih
    simp only [List.map_cons, wsum_cons, h1, h2, h3, h4, h5, aff2, mul_pow, sq_abs]
    generalize wsum (fun _ => 1) l = W1
    generalize wsum (fun p => p.x) l = W2
    generalize wsum (fun p => p.x ^ 2) l = W3
    generalize wsum (fun p => p.y) l = W4
    generalize wsum (fun p => p.x * p.y) l = W5
    have key : ∀ z : ℝ, z / (a ^ 2 * p.σ ^ 2) = z * (1 / p.σ ^ 2) / a ^ 2 := by
      intro z
      by_cases hσ : p.σ = 0
      · rw [hσ]; simp
      · field_simp
    simp only [key]
    have k1 : ∀ z : ℝ, z / p.σ ^ 2 = z * (1 / p.σ ^ 2) := fun z => by ring
    rw [k1 p.x, k1 (p.x ^ 2), k1 p.y, k1 (p.x * p.y)]
    generalize 1 / p.σ ^ 2 = w
    refine ⟨?_, ?_, ?_, ?_, ?_⟩ <;> ring

theorem det_aff2 {v e a d : ℝ} (ha : a ≠ 0) (pts : List Pt) :
    det (pts.map (aff2 v e a d)) = v ^ 2 / a ^ 4 * det pts := by
  obtain ⟨h1, h2, h3, _, _⟩ := wsum_aff2 (v := v) (e := e) (d := d) ha pts
  unfold det
  rw [h1, h2, h3]
  field_simp
  ring

theorem solve_aff2 {v e a d : ℝ} (hv : v ≠ 0) (ha : a ≠ 0) {pts : List Pt} (hd : det pts ≠ 0) :
    solve (pts.map (aff2 v e a d)) = affFit v e a d (solve pts) := by
  obtain ⟨h1, h2, h3, h4, h5⟩ := wsum_aff2 (v := v) (e := e) (d := d) ha pts
  simp only [solve, affFit, det_aff2 ha, h1, h2, h3, h4, h5, Fit.mk.injEq]
  have hD : det pts = wsum (fun _ => 1) pts * wsum (fun p => p.x ^ 2) pts - wsum (fun p => p.x) pts ^ 2 :=
    rfl
  revert hd hD
  generalize det pts = D
  generalize wsum (fun _ => 1) pts = W1
  generalize wsum (fun p => p.x) pts = W2
  generalize wsum (fun p => p.x ^ 2) pts = W3
  generalize wsum (fun p => p.y) pts = W4
  generalize wsum (fun p => p.x * p.y) pts = W5
  intro hd hD
  refine ⟨?_, ?_, ?_, ?_, ?_⟩ <;> field_simp <;> (try rw [hD]) <;> ring

theorem filterMap_id_map {α β : Type} (g : α → β) (l : List (Option α)) :
    (l.map (Option.map g)).filterMap id = (l.filterMap id).map g := by
  induction l with
  | nil => rfl
  | cons x l ih => cases x <;> simp_all

/-- The fit in the other coordinates. -/
theorem curveFit_aff2 {v e a d : ℝ} (hv : v ≠ 0) (ha : a ≠ 0) (pts : List (Option Pt)) :
    curveFit (pts.map (Option.map (aff2 v e a d))) = (curveFit pts).map (affFit v e a d) := by
  unfold curveFit
  rw [filterMap_id_map, List.length_map]
  have c1 : (pts.map (Option.map (aff2 v e a d)) = [] ∨ none ∈ pts.map (Option.map (aff2 v e a d))) ↔
      (pts = [] ∨ none ∈ pts) := by
    rw [List.map_eq_nil_iff, List.mem_map]
    refine or_congr Iff.rfl ⟨?_, fun h => ⟨none, h, rfl⟩⟩
    rintro ⟨x, hx, e⟩
    cases x with
    | none => exact hx
    | some x => cases e
  have c2 : ((∃ p ∈ (pts.filterMap id).map (aff2 v e a d), p.σ = 0) ∨
      det ((pts.filterMap id).map (aff2 v e a d)) = 0) ↔
      ((∃ p ∈ pts.filterMap id, p.σ = 0) ∨ det (pts.filterMap id) = 0) := by
    refine or_congr ⟨?_, ?_⟩ ?_
    · rintro ⟨p, hp, e⟩
      obtain ⟨q, hq, rfl⟩ := List.mem_map.1 hp
      exact ⟨q, hq, (mul_eq_zero.1 e).resolve_left (abs_ne_zero.2 ha)⟩
    · rintro ⟨p, hp, e⟩
      exact ⟨_, List.mem_map_of_mem hp, by simp only [aff2, e, mul_zero]⟩
    · rw [det_aff2 ha, mul_eq_zero, or_iff_right (div_ne_zero (pow_ne_zero _ hv) (pow_ne_zero _ ha))]
  by_cases h1 : pts = [] ∨ none ∈ pts
  · rw [if_pos h1, if_pos (c1.2 h1)]; rfl
  rw [if_neg h1, if_neg (fun h => h1 (c1.1 h))]
  by_cases h2 : pts.length < 2
  · rw [if_pos h2, if_pos h2]; rfl
  rw [if_neg h2, if_neg h2]
  by_cases h3 : (∃ p ∈ pts.filterMap id, p.σ = 0) ∨ det (pts.filterMap id) = 0
  · rw [if_pos h3, if_pos (c2.2 h3)]; rfl
  rw [if_neg h3, if_neg (fun h => h3 (c2.1 h)), solve_aff2 hv ha (not_or.1 h3).2]
  rfl

theorem wsum_perm {f : Pt → ℝ} {l l' : List Pt} (h : l'.Perm l) : wsum f l' = wsum f l :=
  (h.map _).sum_eq

/-- The fit does not depend on the order of the points. -/
theorem curveFit_perm {l l' : List (Option Pt)} (h : l'.Perm l) : curveFit l' = curveFit l := by
  have hf : (l'.filterMap id).Perm (l.filterMap id) := h.filterMap id
  have hd : det (l'.filterMap id) = det (l.filterMap id) := by
    simp only [det, wsum_perm hf]
  have c1 : (l' = [] ∨ none ∈ l') ↔ (l = [] ∨ none ∈ l) := by
    refine or_congr ?_ h.mem_iff
    rw [← List.length_eq_zero_iff, ← List.length_eq_zero_iff, h.length_eq]
  have c2 : ((∃ p ∈ l'.filterMap id, p.σ = 0) ∨ det (l'.filterMap id) = 0) ↔
      ((∃ p ∈ l.filterMap id, p.σ = 0) ∨ det (l.filterMap id) = 0) := by
    rw [hd]
    refine or_congr ⟨?_, ?_⟩ Iff.rfl
    · rintro ⟨p, hp, e⟩; exact ⟨p, hf.mem_iff.1 hp, e⟩
    · rintro ⟨p, hp, e⟩; exact ⟨p, hf.mem_iff.2 hp, e⟩
  have hs : solve (l'.filterMap id) = solve (l.filterMap id) := by
    simp only [solve, hd, wsum_perm hf]
  unfold curveFit
  by_cases h1 : l = [] ∨ none ∈ l
  · rw [if_pos h1, if_pos (c1.2 h1)]
  rw [if_neg h1, if_neg (fun h => h1 (c1.1 h)), h.length_eq]
  by_cases h2 : l.length < 2
  · rw [if_pos h2, if_pos h2]
  rw [if_neg h2, if_neg h2]
  by_cases h3 : (∃ p ∈ l.filterMap id, p.σ = 0) ∨ det (l.filterMap id) = 0
  · rw [if_pos h3, if_pos (c2.2 h3)]
  rw [if_neg h3, if_neg (fun h => h3 (c2.1 h)), hs]

end Verif.LineFit

namespace Verif.Iv
open Verif LineFit

theorem mapM_map {α β γ : Type} (f : α → Except Err β) (g : β → γ) (l : List α) :
    l.mapM (fun x => (f x).map g) = (l.mapM f).map (List.map g) := by
  induction l with
  | nil => rfl
  | cons a l ih =>
    rw [List.mapM_cons, List.mapM_cons, ih]
    cases f a with
    | error e => rfl
    | ok b => cases l.mapM f <;> rfl

theorem fancy_map {α β : Type} (g : α → β) (row : List α) (inds : List ℤ) :
    fancy (row.map g) inds = (fancy row inds).map (List.map g) := by
  unfold fancy
  rw [← mapM_map]
  congr 1
  funext i
  rw [List.length_map, List.getElem?_map]
  cases row[(if i < 0 then i + (row.length : ℤ) else i).toNat]? with
  | none => rfl
  | some a =>
    simp only [Option.map_some]
    split_ifs <;> rfl

theorem chi2_aff2 {v e a d : ℝ} (hv : v ≠ 0) (ha : a ≠ 0) (f : Fit) (pts : List (Option Pt)) :
    chi2 (affFit v e a d f) (pts.map (Option.map (aff2 v e a d))) = chi2 f pts := by
  unfold chi2
  rw [filterMap_id_map, List.map_map]
  congr 1
  refine List.map_congr_left fun p _ => ?_
  simp only [Function.comp_apply, affFit, aff2]
  rw [div_pow, mul_pow, sq_abs, div_pow]
  rw [show a / v * f.m * (v * p.x + e) + (a * f.b + d - a / v * f.m * e) - (a * p.y + d) =
    a * (f.m * p.x + f.b - p.y) by field_simp; ring, mul_pow,
    mul_div_mul_left _ _ (pow_ne_zero 2 ha)]

theorem growLoop_aff2 {v e a d : ℝ} (hv : v ≠ 0) (ha : a ≠ 0) (pts : List (Option Pt)) (tol : ℝ) :
    ∀ fuel s, growLoop (pts.map (Option.map (aff2 v e a d))) tol fuel s = growLoop pts tol fuel s := by
  intro fuel
  induction fuel with
  | zero => intro s; rfl
  | succ n ih =>
    intro s
    unfold growLoop
    rw [← List.map_take, curveFit_aff2 hv ha, List.length_map]
    have hc : (s < pts.length ∧ (pts.map (Option.map (aff2 v e a d)))[s]? ≠ some none) ↔
        (s < pts.length ∧ pts[s]? ≠ some none) := by
      refine and_congr Iff.rfl (not_congr ?_)
      rw [List.getElem?_map]
      cases pts[s]? with
      | none => simp
      | some x => cases x <;> simp
    by_cases h : s < pts.length ∧ pts[s]? ≠ some none
    · rw [if_pos h, if_pos (hc.2 h)]
      cases curveFit (pts.take (s + 1)) with
      | error e => rfl
      | ok f =>
        simp only [Except.map, chi2_aff2 hv ha, ih]
    · rw [if_neg h, if_neg (fun h' => h (hc.1 h'))]

/-- A row fit in the other units. -/
noncomputable def Units.fit (u : Units) (f : RowFit) : RowFit :=
  ⟨u.a * f.ioff + u.d, |u.a| * f.ioffErr, u.v / u.a * f.rfit, u.v / u.a * f.rfitErr⟩

theorem Units.ne (u : Units) : u.v ≠ 0 ∧ u.a ≠ 0 := by
  have := u.pos
  constructor
  · intro h; rw [h, zero_div] at this; exact lt_irrefl _ this
  · intro h; rw [h, div_zero] at this; exact lt_irrefl _ this

theorem pt_units (u : Units) (r : Option Reading) :
    pt (r.map u.reading) = (pt r).map (aff2 u.v 0 u.a u.d) := by
  cases r with
  | none => rfl
  | some r => simp [pt, Units.reading, aff2]

theorem rowFit_units (u : Units) (row : List (Option Reading)) (ninds : Option (List ℤ)) :
    rowFit (row.map (Option.map u.reading)) ninds = (rowFit row ninds).map u.fit := by
  obtain ⟨hv, ha⟩ := u.ne
  have hp : (row.map (Option.map u.reading)).map pt = (row.map pt).map (Option.map (aff2 u.v 0 u.a u.d)) := by
    rw [List.map_map, List.map_map]
    exact List.map_congr_left fun r _ => pt_units u r
  have key : ∀ npts : List (Option Pt),
      (match curveFit (npts.map (Option.map (aff2 u.v 0 u.a u.d))) with
        | .error e => .error e
        | .ok f =>
          if f.m = 0 then .error .nan
          else .ok ⟨f.b, Real.sqrt f.cbb, 1 / f.m,
            Real.sqrt ((-1 / f.m ^ 2) * (f.cmm * (-1 / f.m ^ 2)))⟩ : Except Err RowFit) =
      (match curveFit npts with
        | .error e => .error e
        | .ok f =>
          if f.m = 0 then .error .nan
          else .ok ⟨f.b, Real.sqrt f.cbb, 1 / f.m,
            Real.sqrt ((-1 / f.m ^ 2) * (f.cmm * (-1 / f.m ^ 2)))⟩ : Except Err RowFit).map u.fit := by
    intro npts
    rw [curveFit_aff2 hv ha]
    cases curveFit npts with
    | error e => rfl
    | ok f =>
      simp only [Except.map, affFit]
      by_cases hm : f.m = 0
      · rw [if_pos hm, if_pos (by rw [hm, mul_zero])]
      · rw [if_neg hm, if_neg (mul_ne_zero (div_ne_zero ha hv) hm)]
        simp only [Units.fit, Except.ok.injEq, RowFit.mk.injEq]
        refine ⟨by ring, ?_, by field_simp, ?_⟩
        · rw [← Real.sqrt_sq_eq_abs, ← Real.sqrt_mul (sq_nonneg _)]
          congr 1
          ring
        · conv_rhs => rw [← Real.sqrt_sq u.pos.le, ← Real.sqrt_mul (sq_nonneg _)]
          congr 1
          field_simp
  unfold rowFit
  simp only [hp]
  generalize row.map pt = pts
  cases ninds with
  | none =>
    simp only [findnormalinds, growLoop_aff2 hv ha, List.length_map]
    cases growLoop pts 10 pts.length 2 with
    | error e => rfl
    | ok k =>
      simp only [fancy_map]
      cases fancy pts ((List.range (k - 1)).map fun (i : ℕ) => (i : ℤ)) with
      | error e => rfl
      | ok npts => exact key npts
  | some inds =>
    simp only [fancy_map]
    cases fancy pts inds with
    | error e => rfl
    | ok npts => exact key npts

theorem row_units (u : Units) (o : Obj) (t c : ℕ) :
    (u.obj o).row t c = (o.row t c).map (Option.map u.reading) := by
  unfold Obj.row
  rw [List.map_map]
  rfl

theorem fits_units (u : Units) (o : Obj) :
    (u.obj o).fits = o.fits.map (List.map (List.map u.fit)) := by
  unfold Obj.fits
  simp only [row_units, rowFit_units]
  simp only [Units.obj]
  simp only [mapM_map]

/-- A table of successful computations. -/
theorem mapM_all {α β : Type} {f : α → Except Err β} {l : List α} {g : α → β}
    (h : ∀ x ∈ l, f x = .ok (g x)) : l.mapM f = .ok (l.map g) := by
  induction l with
  | nil => rfl
  | cons a l ih =>
    rw [List.mapM_cons, h a List.mem_cons_self, ih fun x hx => h x (List.mem_cons_of_mem _ hx)]
    rfl

/-- Non-negative indices in range select the entries. -/
theorem fancy_nat {α : Type} (f : ℕ → α) {n : ℕ} {inds : List ℕ} (h : ∀ i ∈ inds, i < n) :
    fancy ((List.range n).map f) (inds.map fun (i : ℕ) => (i : ℤ)) = .ok (inds.map f) := by
  unfold fancy
  rw [List.mapM_map]
  refine mapM_all fun i hi => ?_
  have hi' := h i hi
  simp only [Function.comp_apply, List.length_map, List.length_range]
  rw [if_neg (by omega), Int.toNat_natCast, List.getElem?_map, List.getElem?_range hi']
  simp only [Option.map_some]
  rw [if_neg (by omega)]

theorem fits_of {o : Obj} {g : ℕ → ℕ → RowFit}
    (h : ∀ t < o.data.n0, ∀ c < o.data.n1, rowFit (o.row t c) o.normalinds = .ok (g t c)) :
    o.fits = .ok ((List.range o.data.n0).map fun t => (List.range o.data.n1).map fun c => g t c) := by
  unfold Obj.fits
  exact mapM_all fun t ht => mapM_all fun c hc => h t (List.mem_range.1 ht) c (List.mem_range.1 hc)

theorem table_getD {α : Type} (g : ℕ → ℕ → α) (d : α) {n m t c : ℕ} (ht : t < n) (hc : c < m) :
    (((List.range n).map fun t => (List.range m).map fun c => g t c).getD t []).getD c d = g t c := by
  simp [List.getD_eq_getElem?_getD, ht, hc]

end Verif.Iv
