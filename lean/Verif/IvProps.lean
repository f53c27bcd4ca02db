import Verif.IvLemmas
import Mathlib.Analysis.Calculus.Deriv.Add

/-! Properties C22, C23, C24 and C67: the IV curve. -/

namespace Verif.Iv
open Verif LineFit

/-! ### C22: circuit laws and fit -/

/-- The TES current, resistance and power satisfy the circuit laws at every bias point with non-zero
current. -/
theorem calcIv_laws {o : Obj} {res : Result} (h : calcIv o = .ok res) {t c i : ℕ} {r : Reading}
    (hd : o.data.get t c i = some r) (hne : r.dites ≠ res.ioff t c) :
    ∃ (rl : A3 ValErr) (I R P : ℝ), o.rload = some rl ∧ res.ites t c i = some I ∧
      res.r0 t c i = some R ∧ res.ptes t c i = some P ∧
      I = r.dites - res.ioff t c ∧ (R + (rl.get t c i).val) * I = r.vb ∧ P = I ^ 2 * R ∧
      P = I * r.vb - I ^ 2 * (rl.get t c i).val := by
  unfold calcIv at h
  cases hf : o.fits with
  | error e => rw [hf] at h; cases h
  | ok fits =>
    rw [hf] at h
    simp only at h
    cases hr : o.rload with
    | none => rw [hr] at h; cases h
    | some rl =>
      rw [hr] at h
      simp only at h
      by_cases h0 : o.data.n2 = 0
      · rw [if_pos h0] at h; cases h
      · rw [if_neg h0] at h
        cases h
        simp only at hne
        have hI := sub_ne_zero.2 hne
        simp only [hd, Option.map_some, Option.bind_some, if_neg hI]
        refine ⟨rl, _, _, _, rfl, rfl, rfl, rfl, rfl, ?_, rfl, ?_⟩
        · field_simp
          ring
        · field_simp

/-- The fit: offset and total resistance are those of the line that fits the normal points strictly
better than any other, and the normal resistance is what remains of the total resistance after
subtracting the load resistance (of the first bias point). -/
theorem calcIv_fit {o : Obj} {res : Result} (h : calcIv o = .ok res) {t c : ℕ}
    (ht : t < o.data.n0) (hc : c < o.data.n1) :
    ∃ (rl : A3 ValErr) (l : List Pt), o.rload = some rl ∧
      NormalPts ((o.row t c).map pt) o.normalinds l ∧ 2 ≤ l.length ∧
      IsBestLine l (res.ioff t c) (1 / res.rfit t c) ∧ res.rfit t c ≠ 0 ∧
      res.rnorm t c + (rl.get t c 0).val = res.rfit t c := by
  unfold calcIv at h
  cases hf : o.fits with
  | error e => rw [hf] at h; cases h
  | ok fits =>
    rw [hf] at h
    simp only at h
    cases hr : o.rload with
    | none => rw [hr] at h; cases h
    | some rl =>
      rw [hr] at h
      simp only at h
      by_cases h0 : o.data.n2 = 0
      · rw [if_pos h0] at h; cases h
      · rw [if_neg h0] at h
        cases h
        obtain ⟨l, hn, h2, _, hdet, hm, e1, _, e3, _⟩ := rowFit_ok (fits_row hf ht hc)
        refine ⟨rl, l, rfl, hn, h2, ?_, ?_, ?_⟩
        · simp only [e1, e3, one_div_one_div]
          exact solve_best hdet
        · simp only [e3]
          exact one_div_ne_zero hm
        · simp only
          ring

/-- Exactly linear normal data (offset `b`, total resistance `R`) are recovered exactly. -/
theorem calcIv_exact {o : Obj} {res : Result} (h : calcIv o = .ok res) {t c : ℕ}
    (ht : t < o.data.n0) (hc : c < o.data.n1) {b R : ℝ}
    (hlin : ∀ i < o.data.n2, ∀ r, o.data.get t c i = some r → r.dites = r.vb / R + b) :
    res.ioff t c = b ∧ res.rfit t c = R := by
  obtain ⟨_, l, _, hn, h2, hb, hr, _⟩ := calcIv_fit h ht hc
  have hmem : ∀ p ∈ l, some p ∈ (o.row t c).map pt := by
    intro p hp
    unfold NormalPts at hn
    cases hi : o.normalinds with
    | none =>
      rw [hi] at hn
      obtain ⟨k, e, _⟩ := hn
      have : some p ∈ l.map some := List.mem_map_of_mem hp
      rw [e] at this
      exact List.mem_of_mem_take this
    | some inds =>
      rw [hi] at hn
      obtain ⟨j, hj, rfl⟩ := List.getElem_of_mem hp
      have := (List.forall₂_iff_get.1 hn).2 j (by rw [hn.length_eq]; exact hj) hj
      rcases this with ⟨_, e⟩ | ⟨_, _, e⟩
      · exact List.mem_of_getElem? e
      · exact List.mem_of_getElem? e
  have hon : OnLine l b (1 / R) := by
    intro p hp
    obtain ⟨r, hr, e⟩ := List.mem_map.1 (hmem p hp)
    obtain ⟨i, hi, e'⟩ := List.mem_map.1 hr
    rw [List.mem_range] at hi
    subst e'
    cases hg : o.data.get t c i with
    | none => rw [hg] at e; cases e
    | some r =>
      rw [hg] at e
      cases e
      simp only
      rw [hlin i hi r hg]
      ring
  have h0 : Chi2 l b (1 / R) = 0 := by
    unfold Chi2
    rw [List.map_congr_left (g := fun _ => 0)]
    · simp
    · intro p hp
      rw [hon p hp]
      simp
  by_cases hne : (b, 1 / R) = (res.ioff t c, 1 / res.rfit t c)
  · rw [Prod.mk.injEq] at hne
    refine ⟨hne.1.symm, ?_⟩
    have := hne.2
    rw [one_div, one_div, inv_inj] at this
    exact this.symm
  · have := hb _ _ hne
    rw [h0] at this
    exact absurd this (not_lt.2 (chi2_nonneg _ _ _))

/-- The hypotheses of the three theorems are met by `demo`. -/
example : ∃ res, calcIv (demo (some [0, 1, 2])) = .ok res ∧
    (demo (some [0, 1, 2])).data.get 0 0 1 = some ⟨1 + 1, 0, 1 + 1, 1⟩ ∧ (1 + 1 : ℝ) ≠ res.ioff 0 0 := by
  obtain ⟨res, e, h0, _⟩ := demo_calcIv
  refine ⟨res, e, ?_, ?_⟩
  · simp [demo]
  · rw [h0]
    norm_num

/-! ### C67: the guessed normal region -/

/-- The normal points guessed by IV: every initial stretch of at least three of them is linear within
the tolerance, and the next longer stretch is not linear, or the data end (or are `nan`) one point
later.

Missing from the full claim (that the guess is the longest linear stretch): in the latter case the last
linear point is left out (`findnormalinds_violated`). -/
theorem findnormalinds_partial {pts : List (Option Pt)} {tol : ℝ} {k : ℕ}
    (h : findnormalinds pts tol = .ok k) (hk : 2 ≤ k) :
    k < pts.length ∧ (∀ j, 3 ≤ j → j ≤ k → Linear pts tol j) ∧
      (¬ Linear pts tol (k + 1) ∨
        Linear pts tol (k + 1) ∧ (k + 1 = pts.length ∨ pts[k + 1]? = some none)) := by
  unfold findnormalinds at h
  cases hg : growLoop pts tol pts.length 2 with
  | error e => rw [hg] at h; cases h
  | ok e =>
    rw [hg] at h
    cases h
    obtain ⟨_, b, c, d⟩ := growLoop_spec _ le_rfl (by omega) hg
    have he : e - 1 + 1 = e := by omega
    rw [he]
    have := c (by omega)
    refine ⟨by omega, fun j h1 h2 => b j (by omega) (by omega), ?_⟩
    rcases d with ⟨_, d⟩ | ⟨d1, d2⟩
    · exact .inl d
    · refine .inr ⟨d1 (by omega), ?_⟩
      rcases d2 with d2 | d2
      · exact .inl (by omega)
      · exact .inr d2

/-- Three bias points exactly on a line: only the first two are taken as normal. -/
theorem findnormalinds_violated :
    findnormalinds (demoPts.map some) 10 = .ok 2 ∧ Linear (demoPts.map some) 10 3 := by
  obtain ⟨hd, hb, hm, hc⟩ := demo_solve
  have hf : curveFit ((demoPts.map some).take 3) = .ok (solve demoPts) := by
    rw [List.take_of_length_le (by simp [demoPts])]
    unfold curveFit
    rw [if_neg (by simp [demoPts]), if_neg (by simp [demoPts]), filterMap_map_some, if_neg]
    rw [hd]
    simp [demoPts]
  have h0 : chi2 (solve demoPts) ((demoPts.map some).take 3) = 0 := by
    rw [List.take_of_length_le (by simp [demoPts]), chi2_eq, hb, hm]
    norm_num [Chi2, demoPts]
  have hx : ¬ chi2 (solve demoPts) ((demoPts.map some).take 3) / ((3 : ℕ) - 2 : ℝ) > 10 := by
    rw [h0]
    norm_num
  refine ⟨?_, (linear_iff le_rfl hf).2 hx⟩
  have hlen : (demoPts.map some).length = 3 := rfl
  unfold findnormalinds
  rw [hlen, growLoop, if_pos (by constructor <;> simp [demoPts]), hf]
  simp only
  rw [if_neg hx, growLoop, if_neg (by simp [demoPts])]

/-! ### C23: shapes of `rload` -/

/-- For a scalar load resistance, one per channel, or one per temperature and channel, the constructed
object holds the documented value for each temperature, channel and bias point.

Missing from the full claim: the documented three-dimensional shape, see `rload_violated`. -/
theorem rload_partial {d : Nd (Option Reading)} {a : A3 (Option Reading)} (ha : d.reshape3 = some a)
    {r : RLoad} (hs : r.HasShape a.n0 a.n1 a.n2) (h3 : ∀ x, r ≠ .array (.d3 x))
    (ninds : Option (List ℤ)) :
    ∃ (o : Obj) (rl : A3 ValErr), init d r a.n1 ninds = .ok o ∧ o.data = a ∧ o.rload = some rl ∧
      o.normalinds = ninds ∧ rl.n0 = a.n0 ∧ rl.n1 = a.n1 ∧ rl.n2 = a.n2 ∧
      ∀ t c i, some (rl.get t c i) = r.documented t c i := by
  unfold init
  rw [ha]
  simp only [ne_eq, not_true_eq_false, if_false]
  match r with
  | .scalar v => exact ⟨_, _, rfl, rfl, rfl, rfl, rfl, rfl, rfl, fun _ _ _ => rfl⟩
  | .array (.d1 x) =>
    have hx : x.n0 = a.n1 := hs
    simp only [if_pos hx]
    exact ⟨_, _, rfl, rfl, rfl, rfl, rfl, hx, rfl, fun _ _ _ => rfl⟩
  | .array (.d2 x) =>
    have hx : x.n0 = a.n0 ∧ x.n1 = a.n1 := hs
    simp only [if_pos hx]
    exact ⟨_, _, rfl, rfl, rfl, rfl, hx.1, hx.2, rfl, fun _ _ _ => rfl⟩
  | .array (.d3 x) => exact absurd rfl (h3 x)
  | .array .other => exact absurd hs (fun h => h)

/-- The constructed object holds each reading at its temperature, channel and bias point, and one row for each
channel name. -/
theorem init_layout {d : Nd (Option Reading)} {r : RLoad} {nchan : ℕ} {ninds : Option (List ℤ)} {o : Obj}
    (h : init d r nchan ninds = .ok o) :
    o.data.n1 = nchan ∧ ∀ t c i, o.data.entry t c i = d.entry t c i := by
  unfold init at h
  cases ha : d.reshape3 with
  | none => rw [ha] at h; cases h
  | some a =>
    rw [ha] at h
    simp only at h
    split_ifs at h with hn
    have hd : o.data = a := by
      match r, h with
      | .scalar v, h => cases h; rfl
      | .array (.d1 x), h => simp only at h; split_ifs at h; cases h; rfl
      | .array (.d2 x), h => simp only at h; split_ifs at h; cases h; rfl
      | .array (.d3 x), h => simp only at h; split_ifs at h; cases h; rfl
    rw [hd]
    exact ⟨(not_not.1 hn).symm, reshape3_entry ha⟩

/-- Two channels with three bias points each. -/
example : ∃ o, init (.d2 ⟨2, 3, fun c i => some ⟨c, 0, i, 1⟩⟩) (.scalar ⟨1, 0⟩) 2 none = .ok o ∧
    o.data.entry 0 1 2 = some (some ⟨1, 0, 2, 1⟩) := ⟨_, rfl, by simp [A3.entry]⟩

/-- Any other shape, or a wrong number of channel names, raises ValueError. -/
theorem init_malformed {d : Nd (Option Reading)} {r : RLoad} {nchan : ℕ} {ninds : Option (List ℤ)}
    (h : d.reshape3 = none ∨ ∃ a, d.reshape3 = some a ∧
      (nchan ≠ a.n1 ∨ ¬ r.HasShape a.n0 a.n1 a.n2)) :
    init d r nchan ninds = .error .valueError := by
  unfold init
  rcases h with h | ⟨a, h, h'⟩
  · rw [h]
  · rw [h]
    simp only
    by_cases hn : nchan ≠ a.n1
    · rw [if_pos hn]
    · rw [if_neg hn]
      have hs := h'.resolve_left hn
      match r, hs with
      | .scalar v, hs => exact absurd trivial hs
      | .array (.d1 x), hs => exact if_neg hs
      | .array (.d2 x), hs => exact if_neg hs
      | .array (.d3 x), hs => exact if_neg hs
      | .array .other, hs => rfl

/-- The documented shape `(ntemps, nch, niters)` is accepted by the constructor, but `calc_iv` then
never succeeds. -/
theorem rload_violated {d : Nd (Option Reading)} {a : A3 (Option Reading)} (ha : d.reshape3 = some a)
    {x : A3 ValErr} (hs : (RLoad.array (.d3 x)).HasShape a.n0 a.n1 a.n2) (ninds : Option (List ℤ)) :
    ∃ o, init d (.array (.d3 x)) a.n1 ninds = .ok o ∧ ∀ res, calcIv o ≠ .ok res := by
  have hx : x.n0 = a.n0 ∧ x.n1 = a.n1 ∧ x.n2 = a.n2 := hs
  refine ⟨⟨a, none, ninds⟩, ?_, fun res h => ?_⟩
  · unfold init
    rw [ha]
    simp only [ne_eq, not_true_eq_false, if_false, if_pos hx]
  · unfold calcIv at h
    simp only at h
    cases hf : (Obj.mk a none ninds).fits with
    | error e => rw [hf] at h; cases h
    | ok fits => rw [hf] at h; cases h

/-- All hypotheses can be met: one temperature, two channels, three bias points. -/
example : (RLoad.array (.d2 ⟨1, 2, fun _ c => ⟨c, 0⟩⟩)).HasShape 1 2 3 ∧
    (RLoad.array (.d3 ⟨1, 2, 3, fun _ c _ => ⟨c, 0⟩⟩)).HasShape 1 2 3 ∧
    (Nd.d2 ⟨2, 3, fun _ _ => some ⟨1, 0, 1, 1⟩⟩ : Nd (Option Reading)).reshape3 =
      some ⟨1, 2, 3, fun _ _ _ => some ⟨1, 0, 1, 1⟩⟩ := ⟨⟨rfl, rfl⟩, ⟨rfl, rfl, rfl⟩, rfl⟩

/-! ### C24: errors -/

/-- The errors of the current, resistance and power are the first-order propagation of the errors of
the reading, the offset and the load resistance. -/
theorem calcIv_point_errors {o : Obj} {res : Result} (h : calcIv o = .ok res) {t c i : ℕ} {r : Reading}
    (hd : o.data.get t c i = some r) (hne : r.dites ≠ res.ioff t c) :
    ∃ (rl : A3 ValErr) (I eI eR eP : ℝ), o.rload = some rl ∧ res.ites t c i = some I ∧
      res.itesErr t c i = some eI ∧ res.r0Err t c i = some eR ∧ res.ptesErr t c i = some eP ∧
      FirstOrder (fun d b _ => d - b) r.dites (res.ioff t c) 0 r.ditesErr (res.ioffErr t c) 0 eI ∧
      FirstOrder (fun v i l => v / i - l) r.vb I (rl.get t c i).val r.vbErr eI (rl.get t c i).err eR ∧
      FirstOrder (fun v i l => i * v - i ^ 2 * l) r.vb I (rl.get t c i).val r.vbErr eI
        (rl.get t c i).err eP := by
  unfold calcIv at h
  cases hf : o.fits with
  | error e => rw [hf] at h; cases h
  | ok fits =>
    rw [hf] at h
    simp only at h
    cases hr : o.rload with
    | none => rw [hr] at h; cases h
    | some rl =>
      rw [hr] at h
      simp only at h
      by_cases h0 : o.data.n2 = 0
      · rw [if_pos h0] at h; cases h
      · rw [if_neg h0] at h
        cases h
        simp only at hne
        have hI := sub_ne_zero.2 hne
        simp only [hd, Option.map_some, Option.bind_some, if_neg hI]
        refine ⟨rl, _, _, _, _, rfl, rfl, rfl, rfl, rfl, ?_, ?_, ?_⟩
        · refine ⟨1, -1, 0, (hasDerivAt_id _).sub_const _, (hasDerivAt_id _).const_sub _,
            hasDerivAt_const _ _, Real.sqrt_nonneg _, ?_⟩
          rw [Real.sq_sqrt (by positivity)]
          ring
        · set I := r.dites - ((fits.getD t []).getD c ⟨0, 0, 0, 0⟩).ioff
          refine ⟨1 / I, -(r.vb / I ^ 2), -1, ?_, ?_, (hasDerivAt_id _).const_sub _,
            Real.sqrt_nonneg _, ?_⟩
          · exact ((hasDerivAt_id _).div_const _).sub_const _
          · have := ((hasDerivAt_inv hI).const_mul r.vb).sub_const ((rl.get t c i).val)
            simp only [div_eq_mul_inv]
            exact this.congr_deriv (by ring)
          · rw [Real.sq_sqrt (by positivity)]
            ring
        · set I := r.dites - ((fits.getD t []).getD c ⟨0, 0, 0, 0⟩).ioff
          refine ⟨I, r.vb - 2 * I * (rl.get t c i).val, -I ^ 2, ?_, ?_, ?_,
            Real.sqrt_nonneg _, ?_⟩
          · have := ((hasDerivAt_id r.vb).const_mul I).sub_const (I ^ 2 * (rl.get t c i).val)
            exact this.congr_deriv (by ring)
          · have := ((hasDerivAt_id I).mul_const r.vb).sub
              (((hasDerivAt_id I).pow 2).mul_const (rl.get t c i).val)
            exact this.congr_deriv (by simp)
          · have := ((hasDerivAt_id (rl.get t c i).val).const_mul (I ^ 2)).const_sub (I * r.vb)
            exact this.congr_deriv (by ring)
          · rw [Real.sq_sqrt (by positivity)]
            ring

/-- The errors of the offset and of the normal resistance are those which the errors of the normal
points induce on the best line (to first order for the resistance `1/slope`).

Missing from the full claim: `rfit_err`, see `rfitErr_violated`. -/
theorem calcIv_fit_errors_partial {o : Obj} {res : Result} (h : calcIv o = .ok res) {t c : ℕ}
    (ht : t < o.data.n0) (hc : c < o.data.n1) {icept slope : List Pt → ℝ}
    (hi : ∀ l b m, IsBestLine l b m → icept l = b ∧ slope l = m) :
    ∃ (rl : A3 ValErr) (l : List Pt) (v : ℝ), o.rload = some rl ∧
      NormalPts ((o.row t c).map pt) o.normalinds l ∧
      0 ≤ res.ioffErr t c ∧ IsVariance l icept (res.ioffErr t c ^ 2) ∧
      0 ≤ v ∧ IsVariance l slope v ∧
      FirstOrder (fun m r _ => 1 / m - r) (1 / res.rfit t c) (rl.get t c 0).val 0
        (Real.sqrt v) (rl.get t c 0).err 0 (res.rnormErr t c) := by
  unfold calcIv at h
  cases hf : o.fits with
  | error e => rw [hf] at h; cases h
  | ok fits =>
    rw [hf] at h
    simp only at h
    cases hr : o.rload with
    | none => rw [hr] at h; cases h
    | some rl =>
      rw [hr] at h
      simp only at h
      by_cases h0 : o.data.n2 = 0
      · rw [if_pos h0] at h; cases h
      · rw [if_neg h0] at h
        cases h
        obtain ⟨l, hn, h2, hσ, hdet, hm, e1, e2, e3, e4⟩ := rowFit_ok (fits_row hf ht hc)
        have hdY : ∀ ys : List ℝ, ys.length = l.length → det (withY l ys) ≠ 0 := by
          intro ys hys
          unfold det at hdet ⊢
          rwa [wsum_withY (f := fun _ => 1) (by simp) l ys hys,
            wsum_withY (f := fun p => p.x) (by simp) l ys hys,
            wsum_withY (f := fun p => p.x ^ 2) (by simp) l ys hys]
        have hpos := det_pos hdet
        have hcbb : 0 ≤ (solve l).cbb :=
          div_nonneg (wsum_nonneg (fun p => by positivity) l) hpos.2.le
        have hcmm : 0 ≤ (solve l).cmm := div_nonneg hpos.1.le hpos.2.le
        refine ⟨rl, l, (solve l).cmm, rfl, hn, ?_, ?_, hcmm, ?_, ?_⟩
        · simp only [e2]
          exact Real.sqrt_nonneg _
        · simp only [e2]
          rw [Real.sq_sqrt hcbb]
          obtain ⟨w, hw, hv⟩ := variance_b hσ hdet
          exact ⟨w, fun ys hys => by rw [(hi _ _ _ (solve_best (hdY ys hys))).1]; exact hw ys hys, hv⟩
        · obtain ⟨w, hw, hv⟩ := variance_m hσ hdet
          exact ⟨w, fun ys hys => by rw [(hi _ _ _ (solve_best (hdY ys hys))).2]; exact hw ys hys, hv⟩
        · simp only [e3, one_div_one_div, e4]
          refine ⟨-(((solve l).m ^ 2)⁻¹), -1, 0, ?_, (hasDerivAt_id _).const_sub _,
            hasDerivAt_const _ _, Real.sqrt_nonneg _, ?_⟩
          · simp only [one_div]
            exact (hasDerivAt_inv hm).sub_const _
          · rw [Real.sq_sqrt (by positivity), Real.sq_sqrt (by positivity), mul_pow,
              Real.sq_sqrt hcmm]
            ring

/-- `rfit_err` is not an error at all: it always holds the fitted resistance itself. -/
theorem rfitErr_eq_rfit {o : Obj} {res : Result} (h : calcIv o = .ok res) (t c : ℕ) :
    res.rfitErr t c = res.rfit t c := by
  unfold calcIv at h
  cases hf : o.fits with
  | error e => rw [hf] at h; cases h
  | ok fits =>
    rw [hf] at h
    simp only at h
    cases hr : o.rload with
    | none => rw [hr] at h; cases h
    | some rl =>
      rw [hr] at h
      simp only at h
      by_cases h0 : o.data.n2 = 0
      · rw [if_pos h0] at h; cases h
      · rw [if_neg h0] at h
        cases h
        rfl

/-- For the object `demo` the variance of the slope (which is one, like the resistance) is `1/2`, so the
error of the resistance is `√(1/2)`; `calc_iv` reports `1`. -/
theorem rfitErr_violated : ∃ res, calcIv (demo (some [0, 1, 2])) = .ok res ∧ res.rfit 0 0 = 1 ∧
    IsVariance demoPts (fun l => (solve l).m) (1 / 2) ∧ res.rfitErr 0 0 = 1 ∧
    res.rfitErr 0 0 ≠ Real.sqrt (1 / 2) := by
  obtain ⟨res, e, _, h1, h2, _⟩ := demo_calcIv
  obtain ⟨hd, _, _, hc⟩ := demo_solve
  refine ⟨res, e, h1, ?_, h2, ?_⟩
  · rw [← hc]
    exact variance_m (by simp [demoPts]) (by rw [hd]; norm_num)
  · rw [h2]
    intro h
    have h' := Real.sq_sqrt (show (0 : ℝ) ≤ 1 / 2 by norm_num)
    rw [← h] at h'
    norm_num at h'

end Verif.Iv
