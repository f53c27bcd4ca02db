import Verif.IbisLemmas

/-! Properties C51 (circuit laws, derivatives), C52 (accepted arguments) and C68 (errors of the fitted
quantities) of IBIS. -/

namespace Verif.Ibis
open Verif LineFit
open Verif.Iv (A1 A2 A3 Nd ValErr RLoad NormalPts fancy)

/-! ### Circuit laws -/

/-- Kirchhoff's law and the power law at every bias point with non-zero TES current, whatever the source of
the offsets and of the parasitic resistance. -/
theorem analyze_laws {o : Obj} {y x : Off} {res : Result} (h : analyze o y x = .ok res) {t c i : ℕ}
    {r : Reading} (hd : o.data.get t c i = some r) (hI : r.dites ≠ (res.ioff t c).val) :
    ∃ R P : ValErr, res.r0 t c i = some R ∧ res.ptes t c i = some P ∧
      (R.val + o.rsh + (res.rp t c).val) * (r.dites - (res.ioff t c).val) =
        (r.ibias - (res.ibiasOff t c).val) * o.rsh ∧
      P.val = (r.dites - (res.ioff t c).val) ^ 2 * R.val := by
  obtain ⟨nf, sf, src, ioff, ibo, rp, _, _, _, _, rfl⟩ := analyze_ok h
  simp only [assemble] at hI ⊢
  have hI' := sub_ne_zero.2 hI
  simp only [hd, Option.bind_some, Option.map_some, if_neg hI']
  refine ⟨_, _, rfl, rfl, ?_, ?_⟩
  · simp only [rtes]
    field_simp
    ring
  · simp only [rtes, ptes]
    field_simp

/-- The stored currents and bias voltage: measured minus offset, and shunt resistance times true bias
current. -/
theorem analyze_currents {o : Obj} {res : Result} (h : analyze o .none .none = .ok res) {t c i : ℕ}
    {r : Reading} (hd : o.data.get t c i = some r) :
    ∃ I B V : ValErr, res.ites t c i = some I ∧ res.ibiasTrue t c i = some B ∧ res.vb t c i = some V ∧
      I.val = r.dites - (res.ioff t c).val ∧ B.val = r.ibias - (res.ibiasOff t c).val ∧
      V.val = B.val * o.rsh := by
  obtain ⟨nf, sf, src, ioff, ibo, rp, _, _, h3, _, rfl⟩ := analyze_ok h
  unfold offsets at h3
  cases h3
  simp only [assemble, hd, Option.map_some]
  exact ⟨_, _, _, rfl, rfl, rfl, rfl, rfl, rfl⟩

/-- Offsets passed by the user replace the fitted ones and leave the fitted lines, the resistances and the
other offset as they were. -/
theorem analyze_given_offsets {o : Obj} {y x : Off} {res res0 : Result} (h0 : analyze o .none .none = .ok res0)
    (h : analyze o y x = .ok res) (t c : ℕ) :
    res.slopeN = res0.slopeN ∧ res.slopeSc = res0.slopeSc ∧ res.rfit t c = res0.rfit t c ∧
      res.rp t c = res0.rp t c ∧ res.rnorm t c = res0.rnorm t c ∧
      (y = .none → res.ioff t c = res0.ioff t c ∧ ∀ i, res.ites t c i = res0.ites t c i) ∧
      (∀ a, y = .array a → res.ioff t c = a.get t c 0 ∧ ∀ i, res.ites t c i =
        (o.data.get t c i).map fun r => ⟨r.dites - (a.get t c i).val,
          Real.sqrt (r.ditesErr ^ 2 + (a.get t c i).err ^ 2)⟩) ∧
      (x = .none → res.ibiasOff t c = res0.ibiasOff t c ∧
        ∀ i, res.ibiasTrue t c i = res0.ibiasTrue t c i) ∧
      (∀ b, x = .array b → res.ibiasOff t c = b.get t c 0 ∧ ∀ i, res.ibiasTrue t c i =
        (o.data.get t c i).map fun r => ⟨r.ibias - (b.get t c i).val,
          Real.sqrt (r.ibiasErr ^ 2 + (b.get t c i).err ^ 2)⟩) := by
  obtain ⟨nf, sf, src, ioff, ibo, rp, e1, e2, e3, e4, rfl⟩ := analyze_ok h
  obtain ⟨nf', sf', src', ioff', ibo', rp', e1', e2', e3', e4', rfl⟩ := analyze_ok h0
  rw [e1] at e1'; cases e1'
  rw [e2] at e2'; cases e2'
  rw [e4] at e4'; cases e4'
  unfold offsets at e3'
  cases e3'
  refine ⟨rfl, rfl, rfl, rfl, rfl, ?_, ?_, ?_, ?_⟩
  · rintro rfl
    cases x <;> (unfold offsets at e3; cases e3; try exact ⟨rfl, fun _ => rfl⟩)
  · rintro a rfl
    cases x <;> (unfold offsets at e3; cases e3; try exact ⟨rfl, fun _ => rfl⟩)
  · rintro rfl
    cases y <;> (unfold offsets at e3; cases e3; try exact ⟨rfl, fun _ => rfl⟩)
  · rintro b rfl
    cases y <;> (unfold offsets at e3; cases e3; try exact ⟨rfl, fun _ => rfl⟩)

/-- The hypotheses hold on the two-branch example with a given current offset. -/
example : (∃ res0, analyze (demo true none) .none .none = .ok res0) ∧
    ∃ res, analyze (demo true none) (.array ⟨1, 1, 1, fun _ _ _ => ⟨2, 0⟩⟩) .none = .ok res := by
  obtain ⟨res, h, -⟩ := demo_sc none
  refine ⟨⟨res, h⟩, ?_⟩
  obtain ⟨nf, sf, src, ioff, ibo, rp, e1, e2, e3, e4, -⟩ := analyze_ok h
  unfold analyze
  simp only [e1, e2, e4, offsets]
  exact ⟨_, rfl⟩

/-! ### Fits -/

/-- With the superconducting fit: both branches are fitted by their best lines, the offsets are the point
where the two lines cross, and the resistances are those of the two slopes. -/
theorem analyze_sc {o : Obj} {res : Result} (hsc : o.fitsc = true)
    (h : analyze o .none .none = .ok res) {t c : ℕ} (ht : t < o.data.n0) (hc : c < o.data.n1) :
    ∃ inds ln ls, o.scinds = some inds ∧
      NormalPts ((o.row t c).map pt) (some o.normalinds) ln ∧
      NormalPts ((o.row t c).map pt) (some inds) ls ∧
      IsBestLine ln (res.intN t c) (res.slopeN t c) ∧
      IsBestLine ls (res.intSc t c) (res.slopeSc t c) ∧
      res.slopeN t c * (res.ibiasOff t c).val + res.intN t c = (res.ioff t c).val ∧
      res.slopeSc t c * (res.ibiasOff t c).val + res.intSc t c = (res.ioff t c).val ∧
      res.slopeSc t c ≠ res.slopeN t c ∧
      (res.rfit t c).val * res.slopeN t c = o.rsh ∧
      ((res.rp t c).val + o.rsh) * res.slopeSc t c = o.rsh ∧
      (res.rnorm t c).val + o.rsh + (res.rp t c).val = (res.rfit t c).val := by
  obtain ⟨nf, sf, src, ioff, ibo, rp, h1, h2, h3, h4, rfl⟩ := analyze_ok h
  obtain ⟨inds, hi, hf, hne, rfl⟩ := scFits_fit hsc h2
  obtain ⟨ln, hn, _, _, hdn, en, hmn⟩ := fits_ok h1 ht hc
  obtain ⟨ls, hs, _, _, hds, es, hms⟩ := fits_ok hf ht hc
  have hd := sub_ne_zero.2 (hne t ht c hc)
  unfold offsets at h3
  cases h3
  cases h4
  simp only [assemble, intX, intY, hsc, if_true]
  refine ⟨inds, ln, ls, hi, hn, hs, ?_, ?_, trivial, ?_, hne t ht c hc, ?_, ?_, by ring⟩
  · rw [en]
    exact solve_best hdn
  · rw [es]
    exact solve_best hds
  · field_simp
    ring
  · field_simp
  · rw [sub_add_cancel]
    field_simp

/-- Data that follow the bias circuit are decoded exactly: if the normal points see the total resistance
`rsh + rp + rn` and the superconducting points `rsh + rp`, with offsets `ioff` and `ibiasOff`, then
`analyze` returns `ioff`, `ibiasOff`, `rp` and `rn`. -/
theorem analyze_recovers {o : Obj} {res : Result} (hsc : o.fitsc = true)
    (h : analyze o .none .none = .ok res) {t c : ℕ} (ht : t < o.data.n0) (hc : c < o.data.n1)
    {inds : List ℤ} (hi : o.scinds = some inds) {ioff ibiasOff rp rn : ℝ} (hr : o.rsh ≠ 0)
    (hp : o.rsh + rp ≠ 0) (hn : o.rsh + rp + rn ≠ 0)
    (h1 : FollowsCircuit o t c o.normalinds ioff ibiasOff (o.rsh + rp + rn))
    (h2 : FollowsCircuit o t c inds ioff ibiasOff (o.rsh + rp)) :
    (res.ioff t c).val = ioff ∧ (res.ibiasOff t c).val = ibiasOff ∧ (res.rp t c).val = rp ∧
      (res.rnorm t c).val = rn := by
  obtain ⟨inds', ln, ls, hi', hnN, hnS, bN, bS, cN, cS, hne, eF, eP, eN⟩ := analyze_sc hsc h ht hc
  rw [hi] at hi'
  cases hi'
  have best : ∀ {l : List Pt} {b m b' m' : ℝ}, IsBestLine l b m → (∀ p ∈ l, p.y = m' * p.x + b') →
      b = b' ∧ m = m' := by
    intro l b m b' m' hb hon
    by_contra hcon
    have h0 : Chi2 l b' m' = 0 := by
      unfold Chi2
      rw [List.map_congr_left (g := fun _ => 0)]
      · simp
      · intro p hp
        rw [hon p hp]
        simp
    have := hb b' m' fun e => by
      rw [Prod.mk.injEq] at e
      exact hcon ⟨e.1.symm, e.2.symm⟩
    rw [h0] at this
    exact absurd this (not_lt.2 (chi2_nonneg _ _ _))
  obtain ⟨b1, m1⟩ := best (b' := ioff - ibiasOff * o.rsh / (o.rsh + rp + rn))
    (m' := o.rsh / (o.rsh + rp + rn)) bN (fun p hp => by rw [h1 ln hnN p hp]; ring)
  obtain ⟨b2, m2⟩ := best (b' := ioff - ibiasOff * o.rsh / (o.rsh + rp)) (m' := o.rsh / (o.rsh + rp))
    bS (fun p hp => by rw [h2 ls hnS p hp]; ring)
  have hX : (res.ibiasOff t c).val = ibiasOff := by
    have e : (res.slopeSc t c - res.slopeN t c) * ((res.ibiasOff t c).val - ibiasOff) = 0 := by
      have e1 : res.slopeN t c * ibiasOff + res.intN t c = ioff := by rw [b1, m1]; ring
      have e2 : res.slopeSc t c * ibiasOff + res.intSc t c = ioff := by rw [b2, m2]; ring
      linear_combination cS - cN - e2 + e1
    rcases mul_eq_zero.1 e with e | e
    · exact absurd (sub_eq_zero.1 e) hne
    · exact sub_eq_zero.1 e
  have hY : (res.ioff t c).val = ioff := by
    rw [← cN, hX, b1, m1]
    ring
  have hP : (res.rp t c).val = rp := by
    rw [m2] at eP
    field_simp at eP
    linarith
  refine ⟨hY, hX, hP, ?_⟩
  rw [m1] at eF
  field_simp at eF
  rw [hP, eF] at eN
  linarith

/-- Without the superconducting fit the offset is the intercept of the normal line, the bias offset is
zero and the parasitic resistance is the one given. -/
theorem analyze_nosc {o : Obj} {res : Result} (hsc : o.fitsc = false)
    (h : analyze o .none .none = .ok res) {t c : ℕ} (ht : t < o.data.n0) (hc : c < o.data.n1) :
    ∃ ln a, o.rp = some (.d3 a) ∧ NormalPts ((o.row t c).map pt) (some o.normalinds) ln ∧
      IsBestLine ln (res.ioff t c).val (res.slopeN t c) ∧ (res.ibiasOff t c).val = 0 ∧
      res.rp t c = a.get t c 0 ∧ (res.rfit t c).val * res.slopeN t c = o.rsh ∧
      (res.rnorm t c).val + o.rsh + (res.rp t c).val = (res.rfit t c).val := by
  obtain ⟨nf, sf, src, ioff, ibo, rp, h1, h2, h3, h4, rfl⟩ := analyze_ok h
  obtain ⟨a, ha, rfl, rfl⟩ := scFits_nofit hsc h2
  obtain ⟨ln, hn, _, _, hdn, en, hmn⟩ := fits_ok h1 ht hc
  unfold offsets at h3
  cases h3
  match a, h4 with
  | .d3 a, h4 =>
    cases h4
    simp only [assemble, intX, intY, hsc, Bool.false_eq_true, if_false]
    refine ⟨ln, a, ha, hn, ?_, trivial, rfl, ?_, by ring⟩
    · rw [en]
      exact solve_best hdn
    · field_simp

/-! ### Errors -/

/-- The errors of the resistance and of the power are the first-order propagation of the errors of the
six quantities they are computed from. -/
theorem analyze_point_errors {o : Obj} {y x : Off} {res : Result} (h : analyze o y x = .ok res)
    {t c i : ℕ} {r : Reading} (hd : o.data.get t c i = some r)
    (hI : r.dites ≠ (res.ioff t c).val) :
    ∃ R P : ValErr, res.r0 t c i = some R ∧ res.ptes t c i = some P ∧
      (let p : Fin 6 → ℝ := ![r.ibias, (res.ibiasOff t c).val, r.dites, (res.ioff t c).val, o.rsh,
        (res.rp t c).val]
      let σ : Fin 6 → ℝ := ![r.ibiasErr, (res.ibiasOff t c).err, r.ditesErr, (res.ioff t c).err,
        o.rshErr, (res.rp t c).err]
      R.val = resistance p ∧ Propagates resistance p σ R.err ∧
      P.val = power p ∧ Propagates power p σ P.err) := by
  obtain ⟨nf, sf, src, ioff, ibo, rp, _, _, _, _, rfl⟩ := analyze_ok h
  simp only [assemble] at hI ⊢
  have hI' := sub_ne_zero.2 hI
  simp only [hd, Option.bind_some, Option.map_some, if_neg hI']
  refine ⟨_, _, rfl, rfl, rfl, ?_, rfl, ?_⟩
  · refine propagates_sqrt (resistance_partials _ _ hI') fun j => ?_
    fin_cases j <;> rfl
  · refine propagates_sqrt (power_partials _ _ _ _ _ _) fun j => ?_
    fin_cases j <;> rfl

/-- With the superconducting fit, the error of the bias offset is the first-order propagation of the
errors of the two fitted lines (neglecting the correlation of slope and intercept, as the code
does).

Missing from the full claim (C51): the error of `ioff`, see `ioffErr_violated`. -/
theorem analyze_ibiasOff_error_partial {o : Obj} {res : Result} (hsc : o.fitsc = true)
    (h : analyze o .none .none = .ok res) {t c : ℕ} (ht : t < o.data.n0) (hc : c < o.data.n1)
    {icept slope : List Pt → ℝ} (hi : ∀ l b m, IsBestLine l b m → icept l = b ∧ slope l = m) :
    ∃ (inds : List ℤ) (ln ls : List Pt) (σ : Fin 4 → ℝ), o.scinds = some inds ∧
      NormalPts ((o.row t c).map pt) (some o.normalinds) ln ∧
      NormalPts ((o.row t c).map pt) (some inds) ls ∧
      IsVariance ln icept (σ 0 ^ 2) ∧ IsVariance ln slope (σ 1 ^ 2) ∧
      IsVariance ls icept (σ 2 ^ 2) ∧ IsVariance ls slope (σ 3 ^ 2) ∧
      Propagates crossX ![res.intN t c, res.slopeN t c, res.intSc t c, res.slopeSc t c] σ
        (res.ibiasOff t c).err := by
  obtain ⟨nf, sf, src, ioff, ibo, rp, h1, h2, h3, h4, rfl⟩ := analyze_ok h
  obtain ⟨inds, hin, hf, hne, rfl⟩ := scFits_fit hsc h2
  obtain ⟨ln, hn, _, hσn, hdn, en, hmn⟩ := fits_ok h1 ht hc
  obtain ⟨ls, hs, _, hσs, hds, es, hms⟩ := fits_ok hf ht hc
  have hd := sub_ne_zero.2 (hne t ht c hc)
  unfold offsets at h3
  cases h3
  simp only [assemble]
  have hpos : ∀ {l : List Pt}, det l ≠ 0 → 0 ≤ (solve l).cbb ∧ 0 ≤ (solve l).cmm := by
    intro l hl
    have := det_pos hl
    exact ⟨div_nonneg (wsum_nonneg (fun p => by positivity) l) this.2.le,
      div_nonneg this.1.le this.2.le⟩
  have hdY : ∀ {l : List Pt}, det l ≠ 0 → ∀ ys : List ℝ, ys.length = l.length →
      det (withY l ys) ≠ 0 := by
    intro l hdet ys hys
    unfold det at hdet ⊢
    rwa [wsum_withY (f := fun _ => 1) (by simp) l ys hys,
      wsum_withY (f := fun p => p.x) (by simp) l ys hys,
      wsum_withY (f := fun p => p.x ^ 2) (by simp) l ys hys]
  have vb : ∀ {l : List Pt}, (∀ p ∈ l, p.σ ≠ 0) → det l ≠ 0 →
      IsVariance l icept (Real.sqrt (solve l).cbb ^ 2) := by
    intro l hσ hl
    rw [Real.sq_sqrt (hpos hl).1]
    obtain ⟨w, hw, hv⟩ := variance_b hσ hl
    exact ⟨w, fun ys hys => by rw [(hi _ _ _ (solve_best (hdY hl ys hys))).1]; exact hw ys hys, hv⟩
  have vm : ∀ {l : List Pt}, (∀ p ∈ l, p.σ ≠ 0) → det l ≠ 0 →
      IsVariance l slope (Real.sqrt (solve l).cmm ^ 2) := by
    intro l hσ hl
    rw [Real.sq_sqrt (hpos hl).2]
    obtain ⟨w, hw, hv⟩ := variance_m hσ hl
    exact ⟨w, fun ys hys => by rw [(hi _ _ _ (solve_best (hdY hl ys hys))).2]; exact hw ys hys, hv⟩
  refine ⟨inds, ln, ls, ![Real.sqrt (solve ln).cbb, Real.sqrt (solve ln).cmm,
    Real.sqrt (solve ls).cbb, Real.sqrt (solve ls).cmm], hin, hn, hs, vb hσn hdn, vm hσn hdn,
    vb hσs hds, vm hσs hds, ?_⟩
  refine propagates_sqrt (crossX_partials hd) fun j => ?_
  rw [en, es]
  fin_cases j <;> rfl

/-- In general the error of `ioff` is not the propagated one: in the derivative of the ordinate of the
crossing with respect to the slope of the normal line the code leaves out a factor.  For `demo` the
crossing is (1, 1); the variances of intercept and slope are 25/3 and 1/2 for the normal line and 1/3
and 1/2 for the superconducting line, and the reported error is not the first-order one. -/
theorem ioffErr_violated : ∃ res, analyze (demo true none) .none .none = .ok res ∧
    (res.ibiasOff 0 0).val = 1 ∧ (res.ioff 0 0).val = 1 ∧
    IsVariance normPts (fun l => (solve l).b) (25 / 3) ∧
    IsVariance normPts (fun l => (solve l).m) (1 / 2) ∧
    IsVariance scPts (fun l => (solve l).b) (1 / 3) ∧
    IsVariance scPts (fun l => (solve l).m) (1 / 2) ∧
    ¬ Propagates crossY ![res.intN 0 0, res.slopeN 0 0, res.intSc 0 0, res.slopeSc 0 0]
      ![Real.sqrt (25 / 3), Real.sqrt (1 / 2), Real.sqrt (1 / 3), Real.sqrt (1 / 2)]
      (res.ioff 0 0).err := by
  obtain ⟨res, h, h1, h2, h3, h4, h5, h6, -, -⟩ := demo_sc none
  have hσN : ∀ p ∈ normPts, p.σ ≠ 0 := by simp [normPts]
  have hσS : ∀ p ∈ scPts, p.σ ≠ 0 := by simp [scPts]
  have hN : det normPts ≠ 0 := by rw [normPts_solve.1]; norm_num
  have hS : det scPts ≠ 0 := by rw [scPts_solve.1]; norm_num
  refine ⟨res, h, by rw [h5], by rw [h6], ?_, ?_, ?_, ?_, ?_⟩
  · rw [show (25 / 3 : ℝ) = (solve normPts).cbb by rw [normPts_solve.2]; norm_num]
    exact variance_b hσN hN
  · rw [show (1 / 2 : ℝ) = (solve normPts).cmm by rw [normPts_solve.2]]
    exact variance_m hσN hN
  · rw [show (1 / 3 : ℝ) = (solve scPts).cbb by rw [scPts_solve.2]]
    exact variance_b hσS hS
  · rw [show (1 / 2 : ℝ) = (solve scPts).cmm by rw [scPts_solve.2]]
    exact variance_m hσS hS
  · rw [h1, h2, h3, h4, h6]
    intro hP
    have e := propagates_unique (crossY_partials (n := ⟨1 / 2, 1 / 2, 50 / 6, 1 / 2, -2⟩)
      (s := ⟨0, 1, 1 / 3, 1 / 2, 0⟩) (by norm_num)) hP
    simp only [intYErr, intCov] at e
    rw [Real.sq_sqrt] at e
    · rw [propagate_diag] at e
      simp only [Fin.sum_univ_four, yTrue, yJac, mul_pow, Matrix.cons_val_zero, Matrix.cons_val_one,
        Matrix.cons_val] at e
      rw [Real.sq_sqrt (by norm_num), Real.sq_sqrt (by norm_num), Real.sq_sqrt (by norm_num),
        Real.sq_sqrt (by norm_num)] at e
      norm_num at e
    · rw [propagate_diag]
      apply Finset.sum_nonneg
      intro i _
      fin_cases i <;> simp <;> positivity

/-- The hypotheses of the theorems above are met by `demo`, for which the offsets are (1, 1), the parasitic
resistance is 0 and the normal resistance 1. -/
example : ∃ res, analyze (demo true none) .none .none = .ok res ∧
    (∃ r, (demo true none).data.get 0 0 0 = some r ∧ r.dites ≠ (res.ioff 0 0).val) ∧
    FollowsCircuit (demo true none) 0 0 [0, 1, 2] 1 1 (1 + 0 + 1) ∧
    FollowsCircuit (demo true none) 0 0 [3, 4, 5] 1 1 (1 + 0) := by
  obtain ⟨res, h, -, -, -, -, -, h6, -, -⟩ := demo_sc none
  refine ⟨res, h, ⟨_, rfl, ?_⟩, ?_, ?_⟩
  · rw [h6]
    norm_num
  · intro l hl p hp
    rw [demo_row] at hl
    have := fancy_of (l := l.map some) (by rw [List.forall₂_map_right_iff]; exact hl)
    have e : normPts.map some = l.map some := Except.ok.inj this
    rw [← Iv.map_some_inj e] at hp
    simp only [normPts, List.mem_cons, List.not_mem_nil, or_false] at hp
    rcases hp with rfl | rfl | rfl <;> norm_num [demo]
  · intro l hl p hp
    rw [demo_row] at hl
    have := fancy_of (l := l.map some) (by rw [List.forall₂_map_right_iff]; exact hl)
    have e : scPts.map some = l.map some := Except.ok.inj this
    rw [← Iv.map_some_inj e] at hp
    simp only [scPts, List.mem_cons, List.not_mem_nil, or_false] at hp
    rcases hp with rfl | rfl | rfl <;> norm_num [demo]

/-- There are functions returning the parameters of the best line whenever there is one. -/
example : ∃ icept slope : List Pt → ℝ, ∀ l b m, IsBestLine l b m → icept l = b ∧ slope l = m := by
  classical
  refine ⟨fun l => if h : ∃ p : ℝ × ℝ, IsBestLine l p.1 p.2 then h.choose.1 else 0,
    fun l => if h : ∃ p : ℝ × ℝ, IsBestLine l p.1 p.2 then h.choose.2 else 0, ?_⟩
  intro l b m hb
  have h : ∃ p : ℝ × ℝ, IsBestLine l p.1 p.2 := ⟨(b, m), hb⟩
  simp only [dif_pos h]
  exact Iv.isBestLine_unique hb h.choose_spec

/-! ### C68: errors of the currents and of the fitted resistances -/

/-- The errors of TES current, true bias current and bias voltage are the propagated ones, given those of
the offsets; the error of the normal resistance is the quadratic sum of those of the fitted and of the
parasitic resistance.

Missing from the full claim: the errors of the offsets and of the two resistances themselves, see
`ioffErr_violated`, `resistanceErr_violated`, `offsetErr_nosc_violated`. -/
theorem analyze_current_errors_partial {o : Obj} {res : Result} (h : analyze o .none .none = .ok res)
    {t c i : ℕ} {r : Reading} (hd : o.data.get t c i = some r) :
    ∃ I B V : ValErr, res.ites t c i = some I ∧ res.ibiasTrue t c i = some B ∧ res.vb t c i = some V ∧
      Propagates (fun p : Fin 2 → ℝ => p 0 - p 1) ![r.dites, (res.ioff t c).val]
        ![r.ditesErr, (res.ioff t c).err] I.err ∧
      Propagates (fun p : Fin 2 → ℝ => p 0 - p 1) ![r.ibias, (res.ibiasOff t c).val]
        ![r.ibiasErr, (res.ibiasOff t c).err] B.err ∧
      Propagates (fun p : Fin 2 → ℝ => p 0 * p 1) ![B.val, o.rsh] ![B.err, o.rshErr] V.err ∧
      (res.rnorm t c).err ^ 2 = (res.rfit t c).err ^ 2 + (res.rp t c).err ^ 2 := by
  obtain ⟨nf, sf, src, ioff, ibo, rp, _, _, h3, _, rfl⟩ := analyze_ok h
  unfold offsets at h3
  cases h3
  simp only [assemble, hd, Option.map_some]
  have hsub : ∀ a b ea eb : ℝ, Propagates (fun p : Fin 2 → ℝ => p 0 - p 1) ![a, b] ![ea, eb]
      (Real.sqrt (ea ^ 2 + eb ^ 2)) := by
    intro a b ea eb
    refine ⟨![1, -1], ?_, Real.sqrt_nonneg _, ?_⟩
    · intro i
      fin_cases i
      · change HasDerivAt (fun u => u - b) 1 a
        exact hasDerivAt_aff _ (-b) _ fun u => by ring
      · change HasDerivAt (fun u => a - u) (-1) b
        exact hasDerivAt_aff _ a _ fun u => by ring
    · rw [Real.sq_sqrt (by positivity), Fin.sum_univ_two]
      simp
  refine ⟨_, _, _, rfl, rfl, rfl, hsub _ _ _ _, hsub _ _ _ _, ?_, Real.sq_sqrt (by positivity)⟩
  refine ⟨![o.rsh, r.ibias - intX o.fitsc (fitAt nf t c) (fitAt sf t c)], ?_, Real.sqrt_nonneg _, ?_⟩
  · intro i
    fin_cases i
    · exact hasDerivAt_aff _ 0 _ fun u => by simp; ring
    · exact hasDerivAt_aff _ 0 _ fun u => by simp
  · rw [Real.sq_sqrt (by positivity), Fin.sum_univ_two]
    simp only [Matrix.cons_val_zero, Matrix.cons_val_one]
    ring

/-- The errors of the fitted and of the parasitic resistance use the variance of the inverse slope where its
standard deviation belongs.  For `demo` (shunt 1 without error) the slopes are 1/2 and 1, both with variance
1/2; the reported errors 8 and 1/2 are not the propagated ones (`√8` and `√(1/2)`). -/
theorem resistanceErr_violated : ∃ res, analyze (demo true none) .none .none = .ok res ∧
    res.slopeN 0 0 = 1 / 2 ∧ res.slopeSc 0 0 = 1 ∧
    IsVariance normPts (fun l => (solve l).m) (1 / 2) ∧
    IsVariance scPts (fun l => (solve l).m) (1 / 2) ∧
    res.rfit 0 0 = ⟨2, 8⟩ ∧ res.rp 0 0 = ⟨0, 1 / 2⟩ ∧
    ¬ Propagates (fun p : Fin 2 → ℝ => p 1 / p 0) ![1 / 2, 1] ![Real.sqrt (1 / 2), 0]
      (res.rfit 0 0).err ∧
    ¬ Propagates (fun p : Fin 2 → ℝ => p 1 / p 0 - p 1) ![1, 1] ![Real.sqrt (1 / 2), 0]
      (res.rp 0 0).err := by
  obtain ⟨res, h, -, h2, -, h4, -, -, h7, h8⟩ := demo_sc none
  refine ⟨res, h, h2, h4, ?_, ?_, h7, h8, ?_, ?_⟩
  · rw [show (1 / 2 : ℝ) = (solve normPts).cmm by rw [normPts_solve.2]]
    exact variance_m (by simp [normPts]) (by rw [normPts_solve.1]; norm_num)
  · rw [show (1 / 2 : ℝ) = (solve scPts).cmm by rw [scPts_solve.2]]
    exact variance_m (by simp [scPts]) (by rw [scPts_solve.1]; norm_num)
  · rw [h7]
    intro hP
    have e := propagates_unique (g := ![-4, 2]) (fun i => by
      fin_cases i
      · change HasDerivAt (fun u => (1 : ℝ) / u) (-4) (1 / 2)
        exact hasDerivAt_recip 1 1 0 0 (by norm_num) (fun u => by ring) (by norm_num)
      · change HasDerivAt (fun u => u / (1 / 2)) 2 (1 : ℝ)
        exact hasDerivAt_aff _ 0 _ fun u => by ring) hP
    simp only [Fin.sum_univ_two, Matrix.cons_val_zero, Matrix.cons_val_one, mul_pow] at e
    rw [Real.sq_sqrt (by norm_num)] at e
    norm_num at e
  · rw [h8]
    intro hP
    have e := propagates_unique (g := ![-1, 0]) (fun i => by
      fin_cases i
      · change HasDerivAt (fun u => (1 : ℝ) / u - 1) (-1) 1
        exact hasDerivAt_recip 1 1 0 (-1) (by norm_num) (fun u => by ring) (by norm_num)
      · change HasDerivAt (fun u => u / 1 - u) 0 (1 : ℝ)
        exact hasDerivAt_aff _ 0 _ fun u => by ring) hP
    simp only [Fin.sum_univ_two, Matrix.cons_val_zero, Matrix.cons_val_one, mul_pow] at e
    rw [Real.sq_sqrt (by norm_num)] at e
    norm_num at e

/-- Without the superconducting fit the bias offset is the constant zero, yet it gets an error; the current
offset is the intercept of the normal line, whose variance for `demo` is 25/3, but the error
reported is `√(1/2)`. -/
theorem offsetErr_nosc_violated :
    ∃ res, analyze (demo false (some (.d3 ⟨1, 1, 6, fun _ _ _ => ⟨0, 0⟩⟩))) .none .none = .ok res ∧
      (res.ibiasOff 0 0).val = 0 ∧ 0 < (res.ibiasOff 0 0).err ∧
      (res.ioff 0 0).val = 1 / 2 ∧ (solve normPts).b = 1 / 2 ∧
      IsVariance normPts (fun l => (solve l).b) (25 / 3) ∧
      (res.ioff 0 0).err ^ 2 = 1 / 2 := by
  obtain ⟨res, h, -, h2, h3⟩ := demo_nosc ⟨0, 0⟩
  refine ⟨res, h, by rw [h2], ?_, by rw [h3], by rw [normPts_solve.2], ?_, ?_⟩
  · rw [h2]
    simp only [intXErr, intCov]
    rw [Real.sqrt_pos, propagate_diag]
    simp only [Fin.sum_univ_four, xJac, noFit, Matrix.cons_val_zero, Matrix.cons_val_one,
      Matrix.cons_val]
    rw [Real.sq_sqrt (by norm_num), Real.sq_sqrt (by norm_num)]
    norm_num
  · rw [show (25 / 3 : ℝ) = (solve normPts).cbb by rw [normPts_solve.2]; norm_num]
    exact variance_b (by simp [normPts]) (by rw [normPts_solve.1]; norm_num)
  · rw [h3]
    simp only [intYErr, intCov]
    rw [propagate_diag]
    simp only [Fin.sum_univ_four, yJac, noFit, Matrix.cons_val_zero, Matrix.cons_val_one,
      Matrix.cons_val]
    rw [Real.sq_sqrt (x := 50 / 6) (by norm_num), Real.sq_sqrt (x := 1 / 2) (by norm_num)]
    norm_num

/-! ### C52: accepted arguments -/

/-- With the superconducting fit every data shape and every documented `rp_guess` works, provided each row
has fittable normal and superconducting points on lines of different slope.

Missing from the full claim: scalar offsets (`scalar_offset_violated`) and, without the superconducting
fit, scalar `rp_guess` with data of fewer than three dimensions (`scalar_rp_violated`). -/
theorem analyze_sc_accepts_partial {d : Nd (Option Reading)} {a : A3 (Option Reading)}
    (ha : d.reshape3 = some a) {rp : RLoad} (hs : rp.HasShape a.n0 a.n1 a.n2) (rsh rshErr : ℝ)
    (ninds scinds : List ℤ) (h0 : 0 < a.n0) (h1 : 0 < a.n1) :
    ∃ o, init d rsh rshErr ninds rp a.n1 true (some scinds) = .ok o ∧ o.data = a ∧
      (Fittable o ninds → Fittable o scinds →
        (∀ t < a.n0, ∀ c < a.n1, ∀ l l' b b' m m', NormalPts ((o.row t c).map pt) (some ninds) l →
          NormalPts ((o.row t c).map pt) (some scinds) l' → IsBestLine l b m →
          IsBestLine l' b' m' → m' ≠ m) →
        ∀ y x, (∀ v, y ≠ .scalar v) → (∀ v, x ≠ .scalar v) → ∃ res, analyze o y x = .ok res) := by
  have hinit : ∃ o, init d rsh rshErr ninds rp a.n1 true (some scinds) = .ok o ∧ o.data = a ∧
      o.fitsc = true ∧ o.normalinds = ninds ∧ o.scinds = some scinds := by
    unfold init
    rw [if_neg (by simp), ha]
    simp only [ne_eq, not_true_eq_false, if_false]
    match rp with
    | .scalar v => exact ⟨_, rfl, rfl, rfl, rfl, rfl⟩
    | .array (.d1 x) =>
      have hx : x.n0 = a.n1 := hs
      simp only [if_pos hx]
      exact ⟨_, rfl, rfl, rfl, rfl, rfl⟩
    | .array (.d2 x) =>
      have hx : x.n0 = a.n0 ∧ x.n1 = a.n1 := hs
      simp only [if_pos hx]
      exact ⟨_, rfl, rfl, rfl, rfl, rfl⟩
    | .array (.d3 x) =>
      have hx : x.n0 = a.n0 ∧ x.n1 = a.n1 ∧ x.n2 = a.n2 := hs
      simp only [if_pos hx]
      exact ⟨_, rfl, rfl, rfl, rfl, rfl⟩
    | .array .other => exact absurd hs (fun h => h)
  obtain ⟨o, ho, hd, hf, hn, hsc⟩ := hinit
  refine ⟨o, ho, hd, fun fn fs hpar y x hy hx => ?_⟩
  obtain ⟨nf, en⟩ := fits_of fn
  obtain ⟨sf, es⟩ := fits_of fs
  unfold analyze
  rw [hn, en]
  simp only
  have : o.scFits nf = .ok (sf, .inr fun s => ⟨1 / s.m * o.rsh - o.rsh,
      Real.sqrt ((o.rsh * invVar s) ^ 2 + ((1 / s.m - 1) * o.rshErr) ^ 2)⟩) := by
    unfold Obj.scFits
    rw [if_pos hf, hsc]
    simp only [es]
    rw [if_neg (by rw [hd]; omega), if_neg]
    rintro ⟨t, ht, c, hc, e⟩
    obtain ⟨l, h1, _, _, hdl, e1, _⟩ := fits_ok en ht hc
    obtain ⟨l', h1', _, _, hdl', e1', _⟩ := fits_ok es ht hc
    rw [hd] at ht hc
    refine hpar t ht c hc l l' _ _ _ _ h1 h1' (solve_best hdl) (solve_best hdl') ?_
    rw [← e1, ← e1', e]
  rw [this]
  simp only [rpValues]
  match y, x, hy, hx with
  | .scalar v, _, hy, _ => exact absurd rfl (hy v)
  | .none, .scalar v, _, hx => exact absurd rfl (hx v)
  | .array _, .scalar v, _, hx => exact absurd rfl (hx v)
  | .none, .none, _, _ => exact ⟨_, rfl⟩
  | .none, .array _, _, _ => exact ⟨_, rfl⟩
  | .array _, .none, _, _ => exact ⟨_, rfl⟩
  | .array _, .array _, _, _ => exact ⟨_, rfl⟩

/-- Without the superconducting fit, three-dimensional data with a scalar `rp_guess`, or any data with a
one- or two-dimensional `rp_guess` of the documented shape, work. -/
theorem analyze_nosc_accepts_partial {d : Nd (Option Reading)} {a : A3 (Option Reading)}
    (ha : d.reshape3 = some a) {rp : RLoad} (hs : rp.HasShape a.n0 a.n1 a.n2)
    (h3 : ∀ x, rp ≠ .array (.d3 x)) (hd3 : (∃ v, rp = .scalar v) → d = .d3 a) (rsh rshErr : ℝ)
    (ninds : List ℤ) (scinds : Option (List ℤ)) :
    ∃ o, init d rsh rshErr ninds rp a.n1 false scinds = .ok o ∧ o.data = a ∧
      (Fittable o ninds → ∀ y x, (∀ v, y ≠ .scalar v) → (∀ v, x ≠ .scalar v) →
        ∃ res, analyze o y x = .ok res) := by
  have hinit : ∃ o r, init d rsh rshErr ninds rp a.n1 false scinds = .ok o ∧ o.data = a ∧
      o.fitsc = false ∧ o.normalinds = ninds ∧ o.rp = some (.d3 r) := by
    unfold init
    rw [if_neg (by simp), ha]
    simp only [ne_eq, not_true_eq_false, if_false]
    match rp with
    | .scalar v =>
      rw [hd3 ⟨v, rfl⟩]
      exact ⟨_, _, rfl, rfl, rfl, rfl, rfl⟩
    | .array (.d1 x) =>
      have hx : x.n0 = a.n1 := hs
      simp only [if_pos hx]
      exact ⟨_, _, rfl, rfl, rfl, rfl, rfl⟩
    | .array (.d2 x) =>
      have hx : x.n0 = a.n0 ∧ x.n1 = a.n1 := hs
      simp only [if_pos hx]
      exact ⟨_, _, rfl, rfl, rfl, rfl, rfl⟩
    | .array (.d3 x) => exact absurd rfl (h3 x)
    | .array .other => exact absurd hs (fun h => h)
  obtain ⟨o, r, ho, hd, hf, hn, hr⟩ := hinit
  refine ⟨o, ho, hd, fun fn y x hy hx => ?_⟩
  obtain ⟨nf, en⟩ := fits_of fn
  unfold analyze
  rw [hn, en]
  simp only
  have : o.scFits nf = .ok ([], .inl (.d3 r)) := by
    unfold Obj.scFits
    rw [hf, if_neg (by simp), hr]
  rw [this]
  simp only [rpValues]
  match y, x, hy, hx with
  | .scalar v, _, hy, _ => exact absurd rfl (hy v)
  | .none, .scalar v, _, hx => exact absurd rfl (hx v)
  | .array _, .scalar v, _, hx => exact absurd rfl (hx v)
  | .none, .none, _, _ => exact ⟨_, rfl⟩
  | .none, .array _, _, _ => exact ⟨_, rfl⟩
  | .array _, .none, _, _ => exact ⟨_, rfl⟩
  | .array _, .array _, _, _ => exact ⟨_, rfl⟩

/-- A scalar current or bias offset never works. -/
theorem scalar_offset_violated (o : Obj) (v : ValErr) (z : Off) (res : Result) :
    analyze o (.scalar v) z ≠ .ok res ∧ analyze o z (.scalar v) ≠ .ok res := by
  constructor
  · intro h
    obtain ⟨nf, sf, src, ioff, ibo, rp, _, _, h3, _, _⟩ := analyze_ok h
    cases h3
  · intro h
    obtain ⟨nf, sf, src, ioff, ibo, rp, _, _, h3, _, _⟩ := analyze_ok h
    match z, h3 with
    | .none, h3 => cases h3
    | .scalar _, h3 => cases h3
    | .array _, h3 => cases h3

/-- Without the superconducting fit a scalar `rp_guess` is accepted at construction for data of one or two
dimensions, and then `analyze` never works; likewise for a three-dimensional `rp_guess` with any
data. -/
theorem scalar_rp_violated {d : Nd (Option Reading)} {a : A3 (Option Reading)}
    (ha : d.reshape3 = some a) {rp : RLoad} (hs : rp.HasShape a.n0 a.n1 a.n2)
    (hbad : ((∃ v, rp = .scalar v) ∧ ∀ x, d ≠ .d3 x) ∨ ∃ x, rp = .array (.d3 x)) (rsh rshErr : ℝ)
    (ninds : List ℤ) (scinds : Option (List ℤ)) :
    ∃ o, init d rsh rshErr ninds rp a.n1 false scinds = .ok o ∧ ∀ y x res, analyze o y x ≠ .ok res := by
  have hinit : ∃ o, init d rsh rshErr ninds rp a.n1 false scinds = .ok o ∧ o.fitsc = false ∧
      ∀ r, o.rp ≠ some (.d3 r) := by
    unfold init
    rw [if_neg (by simp), ha]
    simp only [ne_eq, not_true_eq_false, if_false]
    rcases hbad with ⟨⟨v, rfl⟩, hd⟩ | ⟨x, rfl⟩
    · match d, ha, hd with
      | .d1 _, _, _ => exact ⟨_, rfl, rfl, fun r h => by cases h⟩
      | .d2 _, _, _ => exact ⟨_, rfl, rfl, fun r h => by cases h⟩
      | .d3 x, _, hd => exact absurd rfl (hd x)
    · have hx : x.n0 = a.n0 ∧ x.n1 = a.n1 ∧ x.n2 = a.n2 := hs
      simp only [if_pos hx]
      exact ⟨_, rfl, rfl, fun r h => by cases h⟩
  obtain ⟨o, ho, hf, hr⟩ := hinit
  refine ⟨o, ho, fun y x res h => ?_⟩
  obtain ⟨nf, sf, src, ioff, ibo, rp', _, h2, _, h4, _⟩ := analyze_ok h
  obtain ⟨b, hb, _, rfl⟩ := scFits_nofit hf h2
  match b, hb, h4 with
  | .d3 r, hb, _ => exact hr r hb

/-- The default `chan_names` is the empty string, which has no characters, so construction without channel
names raises ValueError whenever there is a channel. -/
theorem default_chan_names_violated {d : Nd (Option Reading)} {a : A3 (Option Reading)}
    (ha : d.reshape3 = some a) (h1 : 0 < a.n1) (rsh rshErr : ℝ) (ninds : List ℤ) (rp : RLoad)
    (fitsc : Bool) (scinds : Option (List ℤ)) :
    init d rsh rshErr ninds rp 0 fitsc scinds = .error .valueError := by
  unfold init
  split
  · rfl
  · rw [ha]
    simp only
    rw [if_pos (by omega)]

/-- The constructed object holds each reading at its temperature, channel and bias point, and one row for each
channel name. -/
theorem init_layout {d : Nd (Option Reading)} {rsh rshErr : ℝ} {ninds : List ℤ} {rp : RLoad} {nchan : ℕ}
    {fitsc : Bool} {scinds : Option (List ℤ)} {o : Obj}
    (h : init d rsh rshErr ninds rp nchan fitsc scinds = .ok o) :
    o.data.n1 = nchan ∧ ∀ t c i, o.data.entry t c i = d.entry t c i := by
  unfold init at h
  split_ifs at h with hs
  cases ha : d.reshape3 with
  | none => rw [ha] at h; cases h
  | some a =>
    rw [ha] at h
    simp only at h
    split_ifs at h with hn
    have hd : o.data = a := by
      match rp, h with
      | .scalar v, h => cases h; rfl
      | .array (.d1 x), h => simp only at h; split_ifs at h; cases h; rfl
      | .array (.d2 x), h => simp only at h; split_ifs at h; cases h; rfl
      | .array (.d3 x), h => simp only at h; split_ifs at h; cases h; rfl
    rw [hd]
    exact ⟨(not_not.1 hn).symm, Iv.reshape3_entry ha⟩

example : ∃ o, init (.d2 ⟨2, 3, fun c i => some ⟨c, 0, i, 1⟩⟩) 1 0 [0] (.scalar ⟨0, 0⟩) 2 false none = .ok o ∧
    o.data.entry 0 1 2 = some (some ⟨1, 0, 2, 1⟩) := ⟨_, rfl, by simp [Iv.A3.entry]⟩

/-- Other shapes, a wrong number of channel names, and a superconducting fit without the indices of the
superconducting points raise ValueError at construction. -/
theorem init_malformed {d : Nd (Option Reading)} {rsh rshErr : ℝ} {ninds : List ℤ} {rp : RLoad} {nchan : ℕ}
    {fitsc : Bool} {scinds : Option (List ℤ)}
    (h : (fitsc = true ∧ scinds = none) ∨ d.reshape3 = none ∨ ∃ a, d.reshape3 = some a ∧
      (nchan ≠ a.n1 ∨ ¬ rp.HasShape a.n0 a.n1 a.n2)) :
    init d rsh rshErr ninds rp nchan fitsc scinds = .error .valueError := by
  unfold init
  by_cases hsc : fitsc = true ∧ scinds = none
  · rw [if_pos hsc]
  · rw [if_neg hsc]
    rcases h.resolve_left hsc with h | ⟨a, h, h'⟩
    · rw [h]
    · rw [h]
      simp only
      by_cases hn : nchan ≠ a.n1
      · rw [if_pos hn]
      · rw [if_neg hn]
        have hs := h'.resolve_left hn
        match rp, hs with
        | .scalar v, hs => exact absurd trivial hs
        | .array (.d1 x), hs => exact if_neg hs
        | .array (.d2 x), hs => exact if_neg hs
        | .array (.d3 x), hs => exact if_neg hs
        | .array .other, hs => rfl

example : ∃ o, init (.d1 ⟨6, fun i => (demo false none).data.get 0 0 i⟩) 1 0 [0] (.scalar ⟨0, 0⟩) 1 true
    (some [3]) = .ok o := ⟨_, rfl⟩

/-- The hypotheses are met: `demo` is the object made from one-dimensional data with a one-element
`rp_guess`, and its normal points are fittable; the scalar guess is a documented shape. -/
example : Fittable (demo false (some (.d3 ⟨1, 1, 6, fun _ _ _ => ⟨0, 0⟩⟩))) [0, 1, 2] ∧
    (RLoad.scalar ⟨0, 0⟩).HasShape 1 1 6 ∧
    (Nd.d1 ⟨6, fun i => (demo false none).data.get 0 0 i⟩).reshape3 = some (demo false none).data := by
  refine ⟨?_, trivial, rfl⟩
  intro t ht c hc
  have ht : t = 0 := by simpa [demo] using ht
  have hc : c = 0 := by simpa [demo] using hc
  subst ht hc
  have hd : det normPts ≠ 0 := by rw [normPts_solve.1]; norm_num
  refine ⟨normPts, _, _, ?_, by simp [normPts], ⟨⟨3, 2, 1⟩, by simp [normPts], ⟨4, 5 / 2, 1⟩,
    by simp [normPts], by norm_num⟩, solve_best hd, by rw [normPts_solve.2]; norm_num⟩
  rw [demo_row]
  have : fancy ((normPts ++ scPts).map some) [0, 1, 2] = .ok (normPts.map some) := rfl
  have := Iv.fancy_ok this
  rw [List.forall₂_map_right_iff] at this
  exact this

end Verif.Ibis
