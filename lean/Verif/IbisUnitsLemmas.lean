import Verif.IbisUnitsSpec
import Verif.IvUnitsLemmas
import Verif.IbisProps

/-! Lemmas for C130. -/

namespace Verif.Ibis
open Verif LineFit
open Verif.Iv (A3 Nd ValErr fancy mapM_range fancy_map mapM_map)

/-- The fit of one row (the body of the loops of `Obj.fits`). -/
noncomputable def rowFit (pts : List (Option Pt)) (inds : List ℤ) : Except Err Fit :=
  match fancy pts inds with
  | .error e => .error e
  | .ok q =>
    match curveFit q with
    | .error e => .error e
    | .ok f => if f.m = 0 then .error .nan else .ok f

theorem fits_eq (o : Obj) (inds : List ℤ) : o.fits inds =
    (List.range o.data.n0).mapM fun t => (List.range o.data.n1).mapM fun c =>
      rowFit ((o.row t c).map pt) inds := rfl

theorem fits_entry {o : Obj} {inds : List ℤ} {l : List (List Fit)} (h : o.fits inds = .ok l) {t c : ℕ}
    (ht : t < o.data.n0) (hc : c < o.data.n1) : rowFit ((o.row t c).map pt) inds = .ok (fitAt l t c) :=
  mapM_range (d := noFit) (mapM_range (d := []) h ht) hc

theorem rowFit_aff {v e a d : ℝ} (hv : v ≠ 0) (ha : a ≠ 0) (pts : List (Option Pt)) (inds : List ℤ) :
    rowFit (pts.map (Option.map (aff2 v e a d))) inds = (rowFit pts inds).map (affFit v e a d) := by
  unfold rowFit
  rw [fancy_map]
  cases fancy pts inds with
  | error e => rfl
  | ok q =>
    simp only [Except.map]
    rw [curveFit_aff2 hv ha]
    cases curveFit q with
    | error e => rfl
    | ok f =>
      simp only [Except.map, affFit, mul_eq_zero, div_eq_zero_iff, ha, hv, or_false, false_or]
      by_cases h : f.m = 0
      · rw [if_pos h, if_pos h]
      · rw [if_neg h, if_neg h]

/-- The line in the other units. -/
noncomputable def Units.fit (u : Units) (f : Fit) : Fit := affFit u.a u.e u.a u.d f

theorem row_units (u : Units) (o : Obj) (t c : ℕ) : ((u.obj o).row t c).map pt =
    ((o.row t c).map pt).map (Option.map (aff2 u.a u.e u.a u.d)) := by
  unfold Obj.row
  simp only [Units.obj, List.map_map]
  refine List.map_congr_left fun i _ => ?_
  simp only [Function.comp_apply, pt]
  cases o.data.get t c i <;> rfl

theorem fits_units (u : Units) (o : Obj) (inds : List ℤ) :
    (u.obj o).fits inds = (o.fits inds).map (List.map (List.map u.fit)) := by
  rw [fits_eq, fits_eq]
  simp only [row_units, rowFit_aff u.ha u.ha]
  simp only [Units.obj]
  rw [← mapM_map]
  congr 1
  funext t
  rw [← mapM_map]
  rfl

theorem fitAt_units (u : Units) {o : Obj} {inds : List ℤ} {l l' : List (List Fit)}
    (h : o.fits inds = .ok l) (h' : (u.obj o).fits inds = .ok l') {t c : ℕ} (ht : t < o.data.n0)
    (hc : c < o.data.n1) : fitAt l' t c = u.fit (fitAt l t c) := by
  have h1 := fits_entry h ht hc
  have h2 := fits_entry h' (t := t) (c := c) ht hc
  rw [row_units, rowFit_aff u.ha u.ha, h1] at h2
  exact (Except.ok.inj h2).symm

theorem fit_m (u : Units) (f : Fit) : (u.fit f).m = f.m := by
  simp only [Units.fit, affFit]
  rw [div_self u.ha, one_mul]

theorem fit_cmm (u : Units) (f : Fit) : (u.fit f).cmm = f.cmm := by
  simp only [Units.fit, affFit]
  rw [div_self (pow_ne_zero 2 u.ha), one_mul]

theorem fit_b (u : Units) (f : Fit) : (u.fit f).b = u.a * f.b + u.d - f.m * u.e := by
  simp only [Units.fit, affFit]
  rw [div_self u.ha, one_mul]

theorem invVar_units (u : Units) (f : Fit) : invVar (u.fit f) = invVar f := by
  simp only [invVar, fit_m, fit_cmm]

theorem fit_cbb (u : Units) (he : u.e = 0) (f : Fit) : (u.fit f).cbb = u.a ^ 2 * f.cbb := by
  simp only [Units.fit, affFit, he]
  ring

theorem intX_units (u : Units) {n s : Fit} (h : s.m ≠ n.m) :
    intX true (u.fit n) (u.fit s) = u.a * intX true n s + u.e := by
  have : s.m - n.m ≠ 0 := sub_ne_zero.2 h
  simp only [intX, fit_m, fit_b, if_true]
  field_simp
  ring

theorem intY_units (u : Units) {n s : Fit} (h : s.m ≠ n.m) :
    intY true (u.fit n) (u.fit s) = u.a * intY true n s + u.d := by
  simp only [intY, if_true, intX_units u h, fit_m, fit_b]
  ring

theorem sq_sqrt_mul (k x : ℝ) : Real.sqrt (k ^ 2 * x) ^ 2 = k ^ 2 * Real.sqrt x ^ 2 := by
  rw [Real.sqrt_mul (sq_nonneg k), Real.sqrt_sq_eq_abs, mul_pow, sq_abs]

theorem intXErr_units (u : Units) (he : u.e = 0) (n s : Fit) :
    intXErr (u.fit n) (u.fit s) = |u.a| * intXErr n s := by
  unfold intXErr intCov
  rw [← Real.sqrt_sq_eq_abs, ← Real.sqrt_mul (sq_nonneg _), propagate_diag, propagate_diag]
  simp only [Fin.sum_univ_four, xJac, Matrix.cons_val_zero, Matrix.cons_val_one, Matrix.cons_val, fit_m,
    fit_b, fit_cmm, fit_cbb u he, he, sq_sqrt_mul]
  congr 1
  ring

theorem intYErr_units (u : Units) (he : u.e = 0) (n s : Fit) :
    intYErr (u.fit n) (u.fit s) = |u.a| * intYErr n s := by
  unfold intYErr intCov
  rw [← Real.sqrt_sq_eq_abs, ← Real.sqrt_mul (sq_nonneg _), propagate_diag, propagate_diag]
  simp only [Fin.sum_univ_four, yJac, Matrix.cons_val_zero, Matrix.cons_val_one, Matrix.cons_val, fit_m,
    fit_b, fit_cmm, fit_cbb u he, he, sq_sqrt_mul]
  congr 1
  ring

theorem intXErr_nosc (u : Units) (he : u.e = 0) (hd : u.d = 0) (n : Fit) :
    intXErr (u.fit n) noFit = |u.a| * intXErr n noFit := by
  have : u.fit noFit = noFit := by simp [Units.fit, affFit, noFit, hd]
  rw [← intXErr_units u he, this]

theorem intYErr_nosc (u : Units) (he : u.e = 0) (hd : u.d = 0) (n : Fit) :
    intYErr (u.fit n) noFit = |u.a| * intYErr n noFit := by
  have : u.fit noFit = noFit := by simp [Units.fit, affFit, noFit, hd]
  rw [← intYErr_units u he, this]

theorem rtes_units (u : Units) (i b s d f r : ℝ) :
    rtes (u.a * i + u.e) (u.a * b + u.e) (u.s * s) (u.a * d + u.d) (u.a * f + u.d) (u.s * r) =
      u.s * rtes i b s d f r := by
  unfold rtes
  rw [show u.a * i + u.e - (u.a * b + u.e) = u.a * (i - b) by ring,
    show u.a * d + u.d - (u.a * f + u.d) = u.a * (d - f) by ring,
    show u.a * (i - b) * (u.s * s) = u.a * ((i - b) * (u.s * s)) by ring, mul_div_mul_left _ _ u.ha]
  ring

theorem ptes_units (u : Units) (i b s d f r : ℝ) :
    ptes (u.a * i + u.e) (u.a * b + u.e) (u.s * s) (u.a * d + u.d) (u.a * f + u.d) (u.s * r) =
      u.a ^ 2 * u.s * ptes i b s d f r := by
  unfold ptes
  ring

theorem rtesErr_units (u : Units) {i b s d f : ℝ} {σ σ' : Fin 6 → ℝ} (h : d - f ≠ 0)
    (h4 : σ' 4 = u.s ^ 2 * σ 4) (h5 : σ' 5 = u.s ^ 2 * σ 5)
    (h0 : ∀ j : Fin 6, j.val < 4 → σ' j = u.a ^ 2 * σ j) :
    rtesErr (u.a * i + u.e) (u.a * b + u.e) (u.s * s) (u.a * d + u.d) (u.a * f + u.d)
      (Matrix.diagonal σ') = u.s * rtesErr i b s d f (Matrix.diagonal σ) := by
  have ha := u.ha
  unfold rtesErr
  conv_rhs => rw [← Real.sqrt_sq u.hs.le, ← Real.sqrt_mul (sq_nonneg _)]
  rw [propagate_diag, propagate_diag]
  simp only [Fin.sum_univ_six, rtesJac, Matrix.cons_val_zero, Matrix.cons_val_one, Matrix.cons_val]
  rw [h4, h5, h0 0 (by decide), h0 1 (by decide), h0 2 (by decide), h0 3 (by decide),
    show u.a * i + u.e - (u.a * b + u.e) = u.a * (i - b) by ring,
    show u.a * d + u.d - (u.a * f + u.d) = u.a * (d - f) by ring]
  congr 1
  field_simp

theorem ptesErr_units (u : Units) {i b s d f r : ℝ} {σ σ' : Fin 6 → ℝ}
    (h4 : σ' 4 = u.s ^ 2 * σ 4) (h5 : σ' 5 = u.s ^ 2 * σ 5)
    (h0 : ∀ j : Fin 6, j.val < 4 → σ' j = u.a ^ 2 * σ j) :
    ptesErr (u.a * i + u.e) (u.a * b + u.e) (u.s * s) (u.a * d + u.d) (u.a * f + u.d) (u.s * r)
      (Matrix.diagonal σ') = u.a ^ 2 * u.s * ptesErr i b s d f r (Matrix.diagonal σ) := by
  unfold ptesErr
  conv_rhs => rw [← Real.sqrt_sq (mul_nonneg (sq_nonneg u.a) u.hs.le), ← Real.sqrt_mul (sq_nonneg _)]
  rw [propagate_diag, propagate_diag]
  simp only [Fin.sum_univ_six, ptesJac, Matrix.cons_val_zero, Matrix.cons_val_one, Matrix.cons_val]
  rw [h4, h5, h0 0 (by decide), h0 1 (by decide), h0 2 (by decide), h0 3 (by decide),
    show u.a * i + u.e - (u.a * b + u.e) = u.a * (i - b) by ring,
    show u.a * d + u.d - (u.a * f + u.d) = u.a * (d - f) by ring]
  congr 1
  ring

/-- The derived quantities in the other units, given the fits, offsets and parasitic resistance. -/
theorem assemble_values (u : Units) {o : Obj} {n s n' s' : ℕ → ℕ → Fit}
    {y x y' x' : ℕ → ℕ → ℕ → ValErr} {rp rp' : ℕ → ℕ → ValErr}
    (hn : ∀ t < o.data.n0, ∀ c < o.data.n1, n' t c = u.fit (n t c))
    (hs : ∀ t < o.data.n0, ∀ c < o.data.n1, (s' t c).m = (s t c).m)
    (hy : ∀ t < o.data.n0, ∀ c < o.data.n1, ∀ i, (y' t c i).val = u.a * (y t c i).val + u.d)
    (hx : ∀ t < o.data.n0, ∀ c < o.data.n1, ∀ i, (x' t c i).val = u.a * (x t c i).val + u.e)
    (hrp : ∀ t < o.data.n0, ∀ c < o.data.n1, rp' t c = scale u.s (rp t c)) :
    SameValues u o (assemble o n s y x rp) (assemble (u.obj o) n' s' y' x' rp') := by
  have hsq : ∀ x : ℝ, |u.s| * Real.sqrt x = Real.sqrt (u.s ^ 2 * x) := by
    intro x
    rw [Real.sqrt_mul (sq_nonneg _), Real.sqrt_sq_eq_abs]
  have hrf : ∀ t < o.data.n0, ∀ c < o.data.n1,
      (assemble (u.obj o) n' s' y' x' rp').rfit t c = scale u.s ((assemble o n s y x rp).rfit t c) := by
    intro t ht c hc
    simp only [assemble, hn t ht c hc, fit_m, invVar_units, scale, hsq, Units.obj, ValErr.mk.injEq]
    refine ⟨by ring, ?_⟩
    congr 1
    ring
  constructor
  · intro t ht c hc; exact hy t ht c hc 0
  · intro t ht c hc; exact hx t ht c hc 0
  · intro t ht c hc; simp only [assemble, hn t ht c hc, fit_m]
  · intro t ht c hc; exact hs t ht c hc
  · exact hrf
  · exact hrp
  · intro t ht c hc
    have h1 := hrf t ht c hc
    have h2 := hrp t ht c hc
    have e : ∀ (o : Obj) (n s : ℕ → ℕ → Fit) (y x : ℕ → ℕ → ℕ → ValErr) (rp : ℕ → ℕ → ValErr),
        (assemble o n s y x rp).rnorm t c =
          ⟨((assemble o n s y x rp).rfit t c).val - o.rsh - (rp t c).val,
            Real.sqrt (((assemble o n s y x rp).rfit t c).err ^ 2 + (rp t c).err ^ 2)⟩ :=
      fun _ _ _ _ _ _ => rfl
    rw [e, e, h1, h2]
    simp only [scale, hsq, Units.obj, ValErr.mk.injEq, mul_pow, sq_abs]
    refine ⟨by ring, ?_⟩
    congr 1
    ring
  · intro t ht c hc i
    simp only [assemble, Units.obj, vals]
    cases o.data.get t c i with
    | none => rfl
    | some r => simp only [Option.map_some, Units.reading, hy t ht c hc]; congr 1; ring
  · intro t ht c hc i
    simp only [assemble, Units.obj, vals]
    cases o.data.get t c i with
    | none => rfl
    | some r => simp only [Option.map_some, Units.reading, hx t ht c hc]; congr 1; ring
  · intro t ht c hc i
    simp only [assemble, Units.obj, vals]
    cases o.data.get t c i with
    | none => rfl
    | some r => simp only [Option.map_some, Units.reading, hx t ht c hc]; congr 1; ring
  · intro t ht c hc i
    simp only [assemble, Units.obj, vals]
    cases o.data.get t c i with
    | none => rfl
    | some r =>
      have e0 : u.a * r.dites + u.d - (u.a * (y t c 0).val + u.d) = u.a * (r.dites - (y t c 0).val) := by
        ring
      simp only [Option.map_some, Option.bind_some, Units.reading, hx t ht c hc, hy t ht c hc,
        hrp t ht c hc, scale, e0, mul_eq_zero, u.ha, false_or]
      by_cases h : r.dites - (y t c 0).val = 0
      · rw [if_pos h, if_pos h]; rfl
      · rw [if_neg h, if_neg h]
        simp only [Option.map_some, rtes_units]
  · intro t ht c hc i
    simp only [assemble, Units.obj, vals]
    cases o.data.get t c i with
    | none => rfl
    | some r =>
      simp only [Option.map_some, Units.reading, hx t ht c hc, hy t ht c hc, hrp t ht c hc, scale,
        ptes_units]

theorem assemble_errors (u : Units) {o : Obj} {n s n' s' : ℕ → ℕ → Fit}
    {y x y' x' : ℕ → ℕ → ℕ → ValErr} {rp rp' : ℕ → ℕ → ValErr}
    (hy : ∀ t < o.data.n0, ∀ c < o.data.n1, ∀ i, (y' t c i).val = u.a * (y t c i).val + u.d)
    (hx : ∀ t < o.data.n0, ∀ c < o.data.n1, ∀ i, (x' t c i).val = u.a * (x t c i).val + u.e)
    (hye : ∀ t < o.data.n0, ∀ c < o.data.n1, ∀ i, (y' t c i).err = |u.a| * (y t c i).err)
    (hxe : ∀ t < o.data.n0, ∀ c < o.data.n1, ∀ i, (x' t c i).err = |u.a| * (x t c i).err)
    (hrp : ∀ t < o.data.n0, ∀ c < o.data.n1, rp' t c = scale u.s (rp t c)) :
    SameErrors u o (assemble o n s y x rp) (assemble (u.obj o) n' s' y' x' rp') := by
  have hE : ∀ x y : ℝ, Real.sqrt ((|u.a| * x) ^ 2 + (|u.a| * y) ^ 2) = |u.a| * Real.sqrt (x ^ 2 + y ^ 2) := by
    intro x y
    rw [← mul_right_inj' (two_ne_zero (α := ℝ))]
    rw [show (|u.a| * x) ^ 2 + (|u.a| * y) ^ 2 = |u.a| ^ 2 * (x ^ 2 + y ^ 2) by ring,
      Real.sqrt_mul (sq_nonneg _), Real.sqrt_sq (abs_nonneg _)]
  constructor
  · intro t ht c hc; exact hye t ht c hc 0
  · intro t ht c hc; exact hxe t ht c hc 0
  · intro t ht c hc i
    simp only [assemble, Units.obj, errs]
    cases o.data.get t c i with
    | none => rfl
    | some r => simp only [Option.map_some, Units.reading, hye t ht c hc, hE]
  · intro t ht c hc i
    simp only [assemble, Units.obj, errs]
    cases o.data.get t c i with
    | none => rfl
    | some r => simp only [Option.map_some, Units.reading, hxe t ht c hc, hE]
  · intro t ht c hc i
    simp only [assemble, Units.obj, errs]
    cases o.data.get t c i with
    | none => rfl
    | some r =>
      simp only [Option.map_some, Units.reading, hxe t ht c hc, hx t ht c hc, hE]
      congr 1
      have h : 0 ≤ |u.a| * u.s := mul_nonneg (abs_nonneg _) u.hs.le
      conv_rhs => rw [← Real.sqrt_sq h, ← Real.sqrt_mul (sq_nonneg _)]
      congr 1
      rw [mul_pow |u.a|, sq_abs,
        show (u.s * o.rsh * (|u.a| * Real.sqrt (r.ibiasErr ^ 2 + (x t c i).err ^ 2))) ^ 2 =
          |u.a| ^ 2 * (u.s * o.rsh * Real.sqrt (r.ibiasErr ^ 2 + (x t c i).err ^ 2)) ^ 2 by ring, sq_abs]
      ring
  · intro t ht c hc i
    simp only [assemble, Units.obj, errs]
    cases o.data.get t c i with
    | none => rfl
    | some r =>
      have e0 : u.a * r.dites + u.d - (u.a * (y t c 0).val + u.d) = u.a * (r.dites - (y t c 0).val) := by
        ring
      simp only [Option.map_some, Option.bind_some, Units.reading, hx t ht c hc, hy t ht c hc,
        hrp t ht c hc, hye t ht c hc, hxe t ht c hc, scale, e0, mul_eq_zero, u.ha, false_or]
      by_cases h : r.dites - (y t c 0).val = 0
      · rw [if_pos h, if_pos h]; rfl
      · rw [if_neg h, if_neg h]
        simp only [Option.map_some]
        congr 1
        refine rtesErr_units u h ?_ ?_ ?_
        · simp only [Matrix.cons_val]; ring
        · simp only [Matrix.cons_val, mul_pow, sq_abs]
        · intro j hj
          fin_cases j <;> simp [mul_pow, sq_abs] at hj ⊢
  · intro t ht c hc i
    simp only [assemble, Units.obj, errs]
    cases o.data.get t c i with
    | none => rfl
    | some r =>
      simp only [Option.map_some, Units.reading, hx t ht c hc, hy t ht c hc, hrp t ht c hc, hye t ht c hc,
        hxe t ht c hc, scale]
      congr 1
      refine ptesErr_units u ?_ ?_ ?_
      · simp only [Matrix.cons_val]; ring
      · simp only [Matrix.cons_val, mul_pow, sq_abs]
      · intro j hj
        fin_cases j <;> simp [mul_pow, sq_abs] at hj ⊢

/-- The offsets found by the fits. -/
noncomputable def yOff (fitsc : Bool) (n s : ℕ → ℕ → Fit) : ℕ → ℕ → ℕ → ValErr :=
  fun t c _ => ⟨intY fitsc (n t c) (s t c), intYErr (n t c) (s t c)⟩

/-- The bias offsets found by the fits. -/
noncomputable def xOff (fitsc : Bool) (n s : ℕ → ℕ → Fit) : ℕ → ℕ → ℕ → ValErr :=
  fun t c _ => ⟨intX fitsc (n t c) (s t c), intXErr (n t c) (s t c)⟩

/-- The parasitic resistance from the superconducting slope. -/
noncomputable def rpOf (o : Obj) (s : Fit) : ValErr :=
  ⟨1 / s.m * o.rsh - o.rsh, Real.sqrt ((o.rsh * invVar s) ^ 2 + ((1 / s.m - 1) * o.rshErr) ^ 2)⟩

/-- Both analyses, with the superconducting fit. -/
theorem analyze_units_sc (u : Units) {o : Obj} {res : Result} (hsc : o.fitsc = true)
    (h : analyze o .none .none = .ok res) :
    ∃ inds nf sf nf' sf', o.scinds = some inds ∧ o.fits o.normalinds = .ok nf ∧ o.fits inds = .ok sf ∧
      (∀ t < o.data.n0, ∀ c < o.data.n1, fitAt nf' t c = u.fit (fitAt nf t c) ∧
        fitAt sf' t c = u.fit (fitAt sf t c) ∧ (fitAt sf t c).m ≠ (fitAt nf t c).m) ∧
      res = assemble o (fitAt nf) (fitAt sf) (yOff true (fitAt nf) (fitAt sf))
        (xOff true (fitAt nf) (fitAt sf)) (fun t c => rpOf o (fitAt sf t c)) ∧
      analyze (u.obj o) .none .none = .ok (assemble (u.obj o) (fitAt nf') (fitAt sf')
        (yOff true (fitAt nf') (fitAt sf')) (xOff true (fitAt nf') (fitAt sf'))
        (fun t c => rpOf (u.obj o) (fitAt sf' t c))) := by
  have h0 := h
  obtain ⟨nf, sf, src, ioff, ibo, rp, h1, h2, h3, h4, rfl⟩ := analyze_ok h
  obtain ⟨inds, hi, hf, hm, rfl⟩ := scFits_fit hsc h2
  have h1' := fits_units u o o.normalinds
  have hf' := fits_units u o inds
  rw [h1] at h1'
  rw [hf] at hf'
  simp only [Except.map] at h1' hf'
  have e1 := fun t (ht : t < o.data.n0) c (hc : c < o.data.n1) => fitAt_units u h1 h1' ht hc
  have e2 := fun t (ht : t < o.data.n0) c (hc : c < o.data.n1) => fitAt_units u hf hf' ht hc
  refine ⟨inds, nf, sf, _, _, hi, h1, hf,
    fun t ht c hc => ⟨e1 t ht c hc, e2 t ht c hc, hm t ht c hc⟩, ?_, ?_⟩
  · cases h4
    unfold offsets at h3
    cases h3
    rw [hsc]
    rfl
  · have hn : ¬ (o.data.n0 = 0 ∨ o.data.n1 = 0) := by
      intro hn
      unfold Obj.scFits at h2
      rw [if_pos hsc, hi] at h2
      simp only [hf] at h2
      rw [if_pos hn] at h2
      cases h2
    unfold analyze
    rw [show (u.obj o).normalinds = o.normalinds from rfl, h1']
    simp only
    have hs : (u.obj o).scFits (nf.map (List.map u.fit)) =
        .ok (sf.map (List.map u.fit), .inr fun s => rpOf (u.obj o) s) := by
      unfold Obj.scFits
      rw [if_pos (show (u.obj o).fitsc = true from hsc), show (u.obj o).scinds = some inds from hi]
      simp only [hf']
      rw [if_neg (show ¬ ((u.obj o).data.n0 = 0 ∨ (u.obj o).data.n1 = 0) from hn), if_neg]
      · rfl
      · rintro ⟨t, ht, c, hc, e⟩
        refine hm t ht c hc ?_
        rwa [e1 t ht c hc, e2 t ht c hc, fit_m, fit_m] at e
    rw [hs]
    simp only [offsets, rpValues]
    rw [show (u.obj o).fitsc = true from hsc]
    rfl

/-- Both analyses, without the superconducting fit. -/
theorem analyze_units_nosc (u : Units) {o : Obj} {res : Result} (hsc : o.fitsc = false)
    (h : analyze o .none .none = .ok res) :
    ∃ nf nf' b, o.rp = some (.d3 b) ∧ o.fits o.normalinds = .ok nf ∧
      (∀ t < o.data.n0, ∀ c < o.data.n1, fitAt nf' t c = u.fit (fitAt nf t c)) ∧
      res = assemble o (fitAt nf) (fitAt []) (yOff false (fitAt nf) (fitAt []))
        (xOff false (fitAt nf) (fitAt [])) (fun t c => b.get t c 0) ∧
      analyze (u.obj o) .none .none = .ok (assemble (u.obj o) (fitAt nf') (fitAt [])
        (yOff false (fitAt nf') (fitAt [])) (xOff false (fitAt nf') (fitAt []))
        (fun t c => scale u.s (b.get t c 0))) := by
  obtain ⟨nf, sf, src, ioff, ibo, rp, h1, h2, h3, h4, rfl⟩ := analyze_ok h
  obtain ⟨a, hi, rfl, rfl⟩ := scFits_nofit hsc h2
  have h1' := fits_units u o o.normalinds
  rw [h1] at h1'
  simp only [Except.map] at h1'
  have e1 := fun t (ht : t < o.data.n0) c (hc : c < o.data.n1) => fitAt_units u h1 h1' ht hc
  cases a with
  | d1 b => cases h4
  | d2 b => cases h4
  | other => cases h4
  | d3 b =>
    refine ⟨nf, _, b, hi, h1, e1, ?_, ?_⟩
    · cases h4
      unfold offsets at h3
      cases h3
      rw [hsc]
      rfl
    · unfold analyze
      rw [show (u.obj o).normalinds = o.normalinds from rfl, h1']
      simp only
      have hs : (u.obj o).scFits (nf.map (List.map u.fit)) = .ok ([], .inl (ndMap (scale u.s) (.d3 b))) := by
        unfold Obj.scFits
        rw [show (u.obj o).fitsc = false from hsc, if_neg (by simp)]
        simp only [Units.obj, hi, Option.map_some]
      rw [hs]
      simp only [offsets, rpValues, ndMap]
      rw [show (u.obj o).fitsc = false from hsc]
      rfl

theorem rpOf_units (u : Units) (o : Obj) (f : Fit) : rpOf (u.obj o) (u.fit f) = scale u.s (rpOf o f) := by
  have hsq : ∀ x : ℝ, |u.s| * Real.sqrt x = Real.sqrt (u.s ^ 2 * x) := by
    intro x
    rw [Real.sqrt_mul (sq_nonneg _), Real.sqrt_sq_eq_abs]
  simp only [rpOf, scale, fit_m, invVar_units, hsq, Units.obj, ValErr.mk.injEq]
  refine ⟨by ring, ?_⟩
  congr 1
  ring

/-- The variance assigned to the bias offset. -/
theorem intXErr_sq {n s : Fit} (h1 : 0 ≤ n.cbb) (h2 : 0 ≤ n.cmm) (h3 : 0 ≤ s.cbb) (h4 : 0 ≤ s.cmm) :
    intXErr n s ^ 2 = (1 / (s.m - n.m)) ^ 2 * n.cbb + ((n.b - s.b) / (s.m - n.m) ^ 2) ^ 2 * n.cmm +
      (-1 / (s.m - n.m)) ^ 2 * s.cbb + (-(n.b - s.b) / (s.m - n.m) ^ 2) ^ 2 * s.cmm := by
  unfold intXErr intCov
  rw [propagate_diag]
  simp only [Fin.sum_univ_four, xJac, Matrix.cons_val_zero, Matrix.cons_val_one, Matrix.cons_val,
    Real.sq_sqrt h1, Real.sq_sqrt h2, Real.sq_sqrt h3, Real.sq_sqrt h4]
  rw [Real.sq_sqrt]
  positivity

/-- The table of fits of a measurement whose rows occur in another one. -/
theorem fits_rows {o o' : Obj} {inds : List ℤ} {l : List (List Fit)} (h : o.fits inds = .ok l)
    (h2 : o'.data.n2 = o.data.n2) {src : ℕ → ℕ → ℕ × ℕ}
    (hs : ∀ t < o'.data.n0, ∀ c < o'.data.n1, (src t c).1 < o.data.n0 ∧ (src t c).2 < o.data.n1 ∧
      ∀ i < o.data.n2, o'.data.get t c i = o.data.get (src t c).1 (src t c).2 i) :
    ∃ l', o'.fits inds = .ok l' ∧ ∀ t < o'.data.n0, ∀ c < o'.data.n1,
      fitAt l' t c = fitAt l (src t c).1 (src t c).2 := by
  have hrow : ∀ t < o'.data.n0, ∀ c < o'.data.n1, o'.row t c = o.row (src t c).1 (src t c).2 := by
    intro t ht c hc
    unfold Obj.row
    rw [h2]
    exact List.map_congr_left fun i hi => (hs t ht c hc).2.2 i (List.mem_range.1 hi)
  refine ⟨_, Iv.mapM_all (g := fun t => (List.range o'.data.n1).map fun c =>
    fitAt l (src t c).1 (src t c).2) fun t ht => Iv.mapM_all fun c hc => ?_, fun t ht c hc => ?_⟩
  · have ht := List.mem_range.1 ht
    have hc := List.mem_range.1 hc
    change rowFit ((o'.row t c).map pt) inds = _
    rw [hrow t ht c hc]
    exact fits_entry h (hs t ht c hc).1 (hs t ht c hc).2.1
  · exact Iv.table_getD (fun t c => fitAt l (src t c).1 (src t c).2) noFit ht hc

theorem assemble_row {o o' : Obj} {n s n' s' : ℕ → ℕ → Fit} {y x y' x' : ℕ → ℕ → ℕ → ValErr}
    {rp rp' : ℕ → ℕ → ValErr} (hset : SameSettings o o') {t c t' c' : ℕ}
    (hd : ∀ i < o.data.n2, o'.data.get t' c' i = o.data.get t c i) (hn : n' t' c' = n t c)
    (hs : s' t' c' = s t c) (hy : ∀ i, y' t' c' i = y t c i) (hx : ∀ i, x' t' c' i = x t c i)
    (hrp : rp' t' c' = rp t c) :
    SameRowResult o.data.n2 (assemble o n s y x rp) (assemble o' n' s' y' x' rp') t c t' c' := by
  obtain ⟨_, _, _, h4, h5, _⟩ := hset
  simp only [SameRowResult, assemble, hn, hs, hy, hx, hrp, h4, h5]
  refine ⟨trivial, trivial, trivial, trivial, trivial, trivial, trivial, trivial, trivial, fun i hi => ?_⟩
  simp only [hd i hi, and_self]

end Verif.Ibis
