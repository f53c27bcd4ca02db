import Verif.NoiseSymSpec
import Verif.NoiseCsdLemmas

/-! Lemmas for `NoiseSymProps`. -/

namespace Verif.Noise
open Verif Verif.Dft

variable {n m c : ℕ} [NeZero n]

/-! ### Scaling -/

theorem rfft_smul (a : ℝ) (x : ZMod n → ℝ) (k : Half n) :
    rfft (fun s => a * x s) k = (a : ℂ) * rfft x k := fftR_smul a x k.bin

theorem segFft_smul (a : ℝ) (x : ZMod n → ℝ) (k : Half n) :
    segFft (fun s => a * x s) k = (a : ℂ) * segFft x k := by
  unfold segFft
  rw [← rfft_smul]
  congr 1
  funext j
  rw [← Finset.mul_sum]
  ring

omit [NeZero n] in
theorem avg_mul (a : ℝ) (f : Fin m → ℝ) : avg (fun t => a * f t) = a * avg f := by
  unfold avg
  rw [← Finset.mul_sum]
  ring

theorem csdScale_rate (r fs : ℝ) (k : Half n) : csdScale n (r * fs) k = csdScale n fs k / r := by
  unfold csdScale
  generalize ∑ j, hann n j ^ 2 = H
  rw [mul_assoc, ← div_div]
  ring

theorem csd1_scale (a b r : ℝ) (x y : ZMod n → ℝ) (fs : ℝ) (k : Half n) :
    csd1 (fun s => a * x s) (fun s => b * y s) (r * fs) k = ((a * b / r : ℝ) : ℂ) * csd1 x y fs k := by
  unfold csd1
  rw [segFft_smul, segFft_smul, csdScale_rate r fs, map_mul, Complex.conj_ofReal]
  push_cast
  ring

omit [NeZero n] in
theorem line_scale (a : ℝ) (p q : ℝ × ℝ) (x : ℝ) :
    Np.line (p.1, a * p.2) (q.1, a * q.2) x = a * Np.line p q x := by
  unfold Np.line
  ring

theorem interp_scale (a : ℝ) : ∀ (l : List (ℝ × ℝ)) (x : ℝ),
    Np.interp (l.map fun p => (p.1, a * p.2)) x = (Np.interp l x).map (a * ·)
  | [], x => rfl
  | [p], x => rfl
  | p :: q :: rest, x => by
    have ih := interp_scale a (q :: rest) x
    simp only [List.map_cons] at ih ⊢
    rw [Np.interp, Np.interp]
    by_cases h1 : x ≤ p.1
    · rw [if_pos h1, if_pos h1]
      rfl
    · rw [if_neg h1, if_neg h1]
      by_cases h2 : x ≤ q.1
      · rw [if_pos h2, if_pos h2, line_scale]
        rfl
      · rw [if_neg h2, if_neg h2, ih]

theorem goodPts_scale {a : ℝ} (ha : 0 < a) (l : List ℝ) :
    Utils.goodPts (l.map (a * ·)) = (Utils.goodPts l).map fun p => (p.1, a * p.2) := by
  unfold Utils.goodPts
  rw [List.zipIdx_map, List.filter_map, List.map_map, List.map_map]
  have : ((fun p : ℝ × ℕ => decide ¬ p.1 ≤ 0) ∘ Prod.map (a * ·) id) = fun p => decide ¬ p.1 ≤ 0 := by
    funext p
    simp only [Function.comp, Prod.map_fst]
    rw [decide_eq_decide, not_le, not_le, mul_pos_iff_of_pos_left ha]
  rw [this]
  rfl

theorem fillNegatives_scale {a : ℝ} (ha : 0 < a) (l : List ℝ) :
    Utils.fillNegatives (l.map (a * ·)) = (Utils.fillNegatives l).map (a * ·) := by
  unfold Utils.fillNegatives
  dsimp only
  rw [goodPts_scale ha, List.length_map]
  by_cases hz : (Utils.goodPts l).length ≠ 0
  · rw [if_pos hz, if_pos hz, List.zipIdx_map, List.map_map, List.map_map]
    refine List.map_congr_left fun p _ => ?_
    simp only [Function.comp, Prod.map_fst, Prod.map_snd, id]
    have hs : a * p.1 ≤ 0 ↔ p.1 ≤ 0 := by
      rw [← not_lt, ← not_lt, mul_pos_iff_of_pos_left ha]
    by_cases hp : p.1 ≤ 0
    · rw [if_pos hp, if_pos (hs.2 hp), interp_scale]
      cases Np.interp (Utils.goodPts l) (p.2 : ℝ) <;> rfl
    · rw [if_neg hp, if_neg (fun q => hp (hs.1 q))]
  · rw [if_neg hz, if_neg hz]

omit [NeZero n] in
theorem fillNeg_scale {a : ℝ} (ha : 0 < a) (f : Half n → ℝ) :
    fillNeg (fun k => a * f k) = fun k => a * fillNeg f k := by
  funext k
  unfold fillNeg
  have : List.ofFn (fun k => a * f k) = (List.ofFn f).map (a * ·) := by
    rw [List.map_ofFn]
    rfl
  rw [this, fillNegatives_scale ha, List.getElem?_map]
  have hl : (k : ℕ) < (Utils.fillNegatives (List.ofFn f)).length := by
    rw [Utils.fillNegatives_length, List.length_ofFn]
    exact k.2
  rw [List.getElem?_eq_getElem hl]
  rfl

theorem psdOf_rescale (traces : Fin m → Fin c → ZMod n → ℝ) (fs : ℝ) (a : Fin c → ℝ) {r : ℝ} :
    psdOf (fun t i s => a i * traces t i s) (r * fs) = fun i k => a i ^ 2 / r * psdOf traces fs i k := by
  funext i k
  unfold psdOf
  have : ∀ t, ‖rfft (fun s => a i * traces t i s) k‖ ^ 2 = a i ^ 2 * ‖rfft (traces t i) k‖ ^ 2 := by
    intro t
    rw [rfft_smul, norm_mul, Complex.norm_real, Real.norm_eq_abs, mul_pow, sq_abs]
  simp only [this, avg_mul]
  ring

theorem realPsdOf_rescale (traces : Fin m → Fin c → ZMod n → ℝ) (fs : ℝ) (a : Fin c → ℝ) {r : ℝ} :
    realPsdOf (fun t i s => a i * traces t i s) (r * fs) =
      fun i k => a i ^ 2 / r * realPsdOf traces fs i k := by
  funext i k
  unfold realPsdOf
  simp only [rfft_smul, Complex.re_ofReal_mul, mul_pow, avg_mul]
  ring

theorem imagPsdOf_rescale (traces : Fin m → Fin c → ZMod n → ℝ) (fs : ℝ) (a : Fin c → ℝ) {r : ℝ} :
    imagPsdOf (fun t i s => a i * traces t i s) (r * fs) =
      fun i k => a i ^ 2 / r * imagPsdOf traces fs i k := by
  funext i k
  unfold imagPsdOf
  simp only [rfft_smul, Complex.im_ofReal_mul, mul_pow, avg_mul]
  ring

omit [NeZero n] in
theorem cov_mul (a b : ℝ) (f g : Fin m → ℝ) :
    cov (fun t => a * f t) (fun t => b * g t) = a * b * cov f g := by
  unfold cov
  rw [avg_mul, avg_mul, Finset.mul_sum]
  exact Finset.sum_congr rfl fun t _ => by ring

omit [NeZero n] in
theorem corrcoef_mul {a b : ℝ} (ha : 0 < a) (hb : 0 < b) (f g : Fin m → ℝ) :
    corrcoef (fun t => a * f t) (fun t => b * g t) = corrcoef f g := by
  classical
  unfold corrcoef
  rw [cov_mul, cov_mul, cov_mul]
  have h1 : a * a * cov f f = 0 ↔ cov f f = 0 := by simp [ha.ne']
  have h2 : b * b * cov g g = 0 ↔ cov g g = 0 := by simp [hb.ne']
  refine if_congr (or_congr h1 h2) rfl ?_
  rw [Real.sqrt_mul (mul_self_nonneg a), Real.sqrt_mul (mul_self_nonneg b), Real.sqrt_mul_self ha.le,
    Real.sqrt_mul_self hb.le]
  congr 1
  rw [show a * Real.sqrt (cov f f) * (b * Real.sqrt (cov g g)) =
    a * b * (Real.sqrt (cov f f) * Real.sqrt (cov g g)) by ring, mul_div_mul_left _ _ (mul_pos ha hb).ne']

theorem corrcoeffOf_rescale (traces : Fin m → Fin c → ZMod n → ℝ) (a : Fin c → ℝ) (ha : ∀ i, a i ≠ 0) :
    corrcoeffOf (fun t i s => a i * traces t i s) = corrcoeffOf traces := by
  funext i j k
  unfold corrcoeffOf
  have : ∀ i t, ‖rfft (fun s => a i * traces t i s) k‖ = |a i| * ‖rfft (traces t i) k‖ := by
    intro i t
    rw [rfft_smul, norm_mul, Complex.norm_real, Real.norm_eq_abs]
  simp only [this]
  exact corrcoef_mul (abs_pos.2 (ha j)) (abs_pos.2 (ha i)) _ _

theorem csdOf_rescale_csd (traces : Fin m → Fin c → ZMod n → ℝ) (fs : ℝ) (a : Fin c → ℝ) {r : ℝ}
    (i j : Fin c) (k : Half n) :
    (csdOf (fun t i s => a i * traces t i s) (r * fs)).csd i j k =
      ((a i * a j / r : ℝ) : ℂ) * (csdOf traces fs).csd i j k := by
  simp only [csdOf]
  simp only [csd1_scale _ _ r]
  rw [← Finset.mul_sum, mul_div_assoc]

theorem csdOf_rescale_real (traces : Fin m → Fin c → ZMod n → ℝ) (fs : ℝ) (a : Fin c → ℝ) {r : ℝ}
    (i j : Fin c) (h : 0 < a i * a j / r) :
    (csdOf (fun t i s => a i * traces t i s) (r * fs)).real i j = fun k =>
      a i * a j / r * (csdOf traces fs).real i j k := by
  simp only [csdOf]
  simp only [csd1_scale _ _ r, Complex.re_ofReal_mul, avg_mul]
  rw [fillNeg_scale h]

theorem csdOf_rescale_imag (traces : Fin m → Fin c → ZMod n → ℝ) (fs : ℝ) (a : Fin c → ℝ) {r : ℝ}
    (i j : Fin c) (h : 0 < a i * a j / r) :
    (csdOf (fun t i s => a i * traces t i s) (r * fs)).imag i j = fun k =>
      a i * a j / r * (csdOf traces fs).imag i j k := by
  simp only [csdOf]
  simp only [csd1_scale _ _ r, Complex.im_ofReal_mul, avg_mul]
  rw [fillNeg_scale h]

omit [NeZero n] in
/-- Scaled rows and columns. -/
theorem csdMat_scaled {d d' : Csd c n} {a : Fin c → ℝ} {r : ℝ}
    (h : ∀ i j k, d'.csd i j k = ((a i * a j / r : ℝ) : ℂ) * d.csd i j k) (k : Half n) :
    csdMat d' k = ((1 / r : ℝ) : ℂ) • (Matrix.diagonal (fun i => (a i : ℂ)) * csdMat d k *
      Matrix.diagonal (fun i => (a i : ℂ))) := by
  ext i j
  rw [Matrix.smul_apply, Matrix.mul_diagonal, Matrix.diagonal_mul, smul_eq_mul]
  unfold csdMat
  rw [h]
  push_cast
  ring

omit [NeZero n] in
theorem csdMat_scaled_det {d d' : Csd c n} {a : Fin c → ℝ} {r : ℝ} (ha : ∀ i, a i ≠ 0) (hr : r ≠ 0)
    (h : ∀ i j k, d'.csd i j k = ((a i * a j / r : ℝ) : ℂ) * d.csd i j k) (k : Half n) :
    (csdMat d' k).det = 0 ↔ (csdMat d k).det = 0 := by
  rw [csdMat_scaled h, Matrix.det_smul, Matrix.det_mul, Matrix.det_mul, Matrix.det_diagonal]
  have h1 : (((1 / r : ℝ) : ℂ)) ^ Fintype.card (Fin c) ≠ 0 := by
    refine pow_ne_zero _ ?_
    exact_mod_cast one_div_ne_zero hr
  have h2 : ∏ i, (a i : ℂ) ≠ 0 := Finset.prod_ne_zero_iff.2 fun i _ => by exact_mod_cast ha i
  simp only [mul_eq_zero, h1, h2, false_or, or_false]

omit [NeZero n] in
theorem csdMat_scaled_inv {d d' : Csd c n} {a : Fin c → ℝ} {r : ℝ} (ha : ∀ i, a i ≠ 0) (hr : 0 < r)
    (h : ∀ i j k, d'.csd i j k = ((a i * a j / r : ℝ) : ℂ) * d.csd i j k) (k : Half n) (j : Fin c)
    (hd : (csdMat d k).det ≠ 0) :
    ‖(csdMat d' k)⁻¹ j j‖ = r / a j ^ 2 * ‖(csdMat d k)⁻¹ j j‖ := by
  have hinv : (csdMat d' k)⁻¹ = (r : ℂ) • (Matrix.diagonal (fun i => (a i : ℂ)⁻¹) * (csdMat d k)⁻¹ *
      Matrix.diagonal (fun i => (a i : ℂ)⁻¹)) := by
    refine Matrix.inv_eq_right_inv ?_
    rw [csdMat_scaled h, Matrix.smul_mul, Matrix.mul_smul, smul_smul]
    have hr' : ((1 / r : ℝ) : ℂ) * (r : ℂ) = 1 := by
      rw [← Complex.ofReal_mul, one_div_mul_cancel hr.ne', Complex.ofReal_one]
    have hD : Matrix.diagonal (fun i => (a i : ℂ)) * Matrix.diagonal (fun i => (a i : ℂ)⁻¹) = 1 := by
      rw [Matrix.diagonal_mul_diagonal, ← Matrix.diagonal_one]
      congr 1
      funext i
      exact mul_inv_cancel₀ (by exact_mod_cast ha i)
    rw [hr', one_smul]
    calc Matrix.diagonal (fun i => (a i : ℂ)) * csdMat d k * Matrix.diagonal (fun i => (a i : ℂ)) *
          (Matrix.diagonal (fun i => (a i : ℂ)⁻¹) * (csdMat d k)⁻¹ * Matrix.diagonal (fun i => (a i : ℂ)⁻¹))
        = Matrix.diagonal (fun i => (a i : ℂ)) * (csdMat d k * ((Matrix.diagonal (fun i => (a i : ℂ)) *
          Matrix.diagonal (fun i => (a i : ℂ)⁻¹)) * (csdMat d k)⁻¹)) *
            Matrix.diagonal (fun i => (a i : ℂ)⁻¹) := by
          simp only [Matrix.mul_assoc]
      _ = 1 := by
          rw [hD, Matrix.one_mul, Matrix.mul_nonsing_inv _ (isUnit_iff_ne_zero.2 hd), Matrix.mul_one, hD]
  rw [hinv, Matrix.smul_apply, Matrix.mul_diagonal, Matrix.diagonal_mul, smul_eq_mul, norm_mul, norm_mul,
    norm_mul, norm_inv, Complex.norm_real, Complex.norm_real, Real.norm_eq_abs, Real.norm_eq_abs,
    abs_of_pos hr, ← sq_abs (a j)]
  field_simp

theorem unslope_rescale (time x : ZMod n → ℝ) (a : ℝ) {r : ℝ} (hr : r ≠ 0) :
    unslope (fun s => time s / r) (fun s => a * x s) = fun s => a * unslope time x s := by
  have hn : 0 < n := Nat.pos_of_ne_zero (NeZero.ne n)
  have h1 : ∀ f : Fin n → ℝ, (∑ i, f i / r) / n = (∑ i, f i) / n / r := by
    intro f
    rw [← Finset.sum_div]
    ring
  have hs : Utils.slope (seq fun s => time s / r) (seq fun s => a * x s) true =
      a * r * Utils.slope (seq time) (seq x) true := by
    have hc : ∀ (u v : Fin n → ℝ) (q : ℝ), ∑ i, (u i - (∑ i, u i) / n) * (v i - q) =
        ∑ i, (u i - (∑ i, u i) / n) * v i := by
      intro u v q
      have h0 : ∑ i, (u i - (∑ i, u i) / n) = 0 := by
        rw [Finset.sum_sub_distrib, Finset.sum_const, Finset.card_univ, Fintype.card_fin, nsmul_eq_mul,
          mul_div_cancel₀ _ (by exact_mod_cast hn.ne'), sub_self]
      simp only [mul_sub]
      rw [Finset.sum_sub_distrib, ← Finset.sum_mul, h0, zero_mul, sub_zero]
    unfold Utils.slope
    simp only [if_true]
    rw [hc, hc]
    simp only [seq]
    rw [h1]
    have e1 : ∀ i : Fin n, (time ((i : ℕ) : ZMod n) / r - (∑ i : Fin n, time ((i : ℕ) : ZMod n)) / n / r) *
        (a * x ((i : ℕ) : ZMod n)) = a / r * ((time ((i : ℕ) : ZMod n) -
          (∑ i : Fin n, time ((i : ℕ) : ZMod n)) / n) * x ((i : ℕ) : ZMod n)) := fun i => by ring
    have e2 : ∀ i : Fin n, (time ((i : ℕ) : ZMod n) / r -
        (∑ i : Fin n, time ((i : ℕ) : ZMod n)) / n / r) ^ 2 = 1 / r ^ 2 * (time ((i : ℕ) : ZMod n) -
          (∑ i : Fin n, time ((i : ℕ) : ZMod n)) / n) ^ 2 := fun i => by ring
    rw [Finset.sum_congr rfl fun i _ => e1 i, Finset.sum_congr rfl fun i _ => e2 i, ← Finset.mul_sum,
      ← Finset.mul_sum]
    generalize ∑ i : Fin n, (time ((i : ℕ) : ZMod n) - (∑ i : Fin n, time ((i : ℕ) : ZMod n)) / n) *
      x ((i : ℕ) : ZMod n) = P
    generalize ∑ i : Fin n, (time ((i : ℕ) : ZMod n) -
      (∑ i : Fin n, time ((i : ℕ) : ZMod n)) / n) ^ 2 = Q
    by_cases hQ : Q = 0
    · simp [hQ]
    field_simp
  funext s
  unfold unslope
  rw [hs]
  field_simp

/-! ### Order -/

omit [NeZero n] in
theorem avg_perm (σ : Equiv.Perm (Fin m)) (f : Fin m → ℝ) : avg (fun t => f (σ t)) = avg f := by
  unfold avg
  rw [Equiv.sum_comp σ f]

omit [NeZero n] in
theorem cov_perm (σ : Equiv.Perm (Fin m)) (f g : Fin m → ℝ) :
    cov (fun t => f (σ t)) (fun t => g (σ t)) = cov f g := by
  unfold cov
  rw [avg_perm, avg_perm, Equiv.sum_comp σ fun t => (f t - avg f) * (g t - avg g)]

omit [NeZero n] in
theorem corrcoef_perm (σ : Equiv.Perm (Fin m)) (f g : Fin m → ℝ) :
    corrcoef (fun t => f (σ t)) (fun t => g (σ t)) = corrcoef f g := by
  unfold corrcoef
  rw [cov_perm, cov_perm, cov_perm]

theorem csdOf_perm (σ : Equiv.Perm (Fin m)) (traces : Fin m → Fin c → ZMod n → ℝ) (fs : ℝ) :
    csdOf (fun t => traces (σ t)) fs = csdOf traces fs := by
  unfold csdOf
  congr 1
  · funext i j k
    rw [Equiv.sum_comp σ fun t => csd1 (traces t i) (traces t j) fs k]
  · funext i j
    congr 1
    funext k
    exact avg_perm σ fun t => (csd1 (traces t i) (traces t j) fs k).re
  · funext i j
    congr 1
    funext k
    exact avg_perm σ fun t => (csd1 (traces t i) (traces t j) fs k).im

/-! ### Offsets -/

theorem bin_ne_zero {k : Half n} (hk : k ≠ 0) : k.bin ≠ 0 := by
  intro h
  unfold Half.bin at h
  rw [ZMod.natCast_eq_zero_iff] at h
  have h1 : (k : ℕ) ≠ 0 := fun q => hk (Fin.ext q)
  have h2 := Nat.le_of_dvd (Nat.pos_of_ne_zero h1) h
  have h3 : 0 < n := Nat.pos_of_ne_zero (NeZero.ne n)
  have h4 := k.2
  omega

theorem rfft_offset (x : ZMod n → ℝ) (b : ℝ) {k : Half n} (hk : k ≠ 0) :
    rfft (fun s => x s + b) k = rfft x k := by
  unfold rfft
  rw [show (fun s => x s + b) = fun s => x s + (fun _ : ZMod n => b) s from rfl, fftR_add, fftR_const,
    if_neg (bin_ne_zero hk), add_zero]

theorem segFft_offset (x : ZMod n → ℝ) (b : ℝ) (k : Half n) : segFft (fun s => x s + b) k = segFft x k := by
  unfold segFft
  congr 1
  funext j
  rw [Finset.sum_add_distrib, Finset.sum_const, Finset.card_univ, ZMod.card, nsmul_eq_mul, add_div,
    mul_div_cancel_left₀ _ (by exact_mod_cast NeZero.ne n)]
  ring

theorem csdOf_offset (traces : Fin m → Fin c → ZMod n → ℝ) (b : Fin m → Fin c → ℝ) (fs : ℝ) :
    csdOf (fun t i s => traces t i s + b t i) fs = csdOf traces fs := by
  unfold csdOf csd1
  simp only [segFft_offset]

theorem unslope_offset (time x : ZMod n → ℝ) (b : ℝ) (s : ZMod n) :
    unslope time (fun s => x s + b) s = unslope time x s + b := by
  have hn : 0 < n := Nat.pos_of_ne_zero (NeZero.ne n)
  have h := Utils.slope_translation (seq time) (seq x) hn b 0
  have e : (seq fun s => x s + b) = fun i => seq x i + b := rfl
  unfold unslope
  rw [e]
  have h' : Utils.slope (seq time) (fun i => seq x i + b) true = Utils.slope (seq time) (seq x) true := by
    simpa using h
  rw [h']
  ring

/-! ### Cyclic shifts -/

theorem norm_rfft_roll (x : ZMod n → ℝ) (d : ZMod n) (k : Half n) : ‖rfft (roll x d) k‖ = ‖rfft x k‖ := by
  unfold rfft
  rw [fftR_roll, norm_mul, norm_e, one_mul]

/-! ### The calls -/

theorem corrcoeffOf_perm (σ : Equiv.Perm (Fin m)) (traces : Fin m → Fin c → ZMod n → ℝ) :
    corrcoeffOf (fun t => traces (σ t)) = corrcoeffOf traces := by
  funext i j k
  exact corrcoef_perm σ (fun t => ‖rfft (traces t j) k‖) fun t => ‖rfft (traces t i) k‖

theorem calculateUncorrNoise_reorder (σ : Equiv.Perm (Fin m)) (o : Obj m c n) :
    calculateUncorrNoise (o.reorder σ) =
      ((calculateUncorrNoise o).1, (calculateUncorrNoise o).2.reorder σ) := by
  have hcs : csdOf (o.reorder σ).traces (o.reorder σ).fs = csdOf o.traces o.fs := csdOf_perm σ o.traces o.fs
  have hst : ∀ (q : Obj m c n) (d : Csd c n), storeUncorr (q.reorder σ) d =
      ((storeUncorr q d).1, (storeUncorr q d).2.reorder σ) := by
    intro q d
    unfold storeUncorr
    split_ifs <;> rfl
  unfold calculateUncorrNoise
  have hd : (o.reorder σ).csd = o.csd := rfl
  rw [hd]
  cases o.csd with
  | some d => exact hst o d
  | none =>
    unfold calculateCsd
    by_cases hc : c = 1
    · rw [if_pos hc, if_pos hc]
    · rw [if_neg hc, if_neg hc]
      dsimp only
      rw [hcs]
      exact hst { o with csd := some (csdOf o.traces o.fs) } _

theorem step_reorder (σ : Equiv.Perm (Fin m)) (o : Obj m c n) (op : Op) :
    step (o.reorder σ) op = (step o op).reorder σ := by
  cases op with
  | removeTraceSlope => rfl
  | calculatePsd =>
    have h1 : psdOf (fun t => o.traces (σ t)) o.fs = psdOf o.traces o.fs := by
      funext i k
      unfold psdOf
      rw [avg_perm σ fun t => ‖rfft (o.traces t i) k‖ ^ 2]
    have h2 : realPsdOf (fun t => o.traces (σ t)) o.fs = realPsdOf o.traces o.fs := by
      funext i k
      unfold realPsdOf
      rw [avg_perm σ fun t => (rfft (o.traces t i) k).re ^ 2]
    have h3 : imagPsdOf (fun t => o.traces (σ t)) o.fs = imagPsdOf o.traces o.fs := by
      funext i k
      unfold imagPsdOf
      rw [avg_perm σ fun t => (rfft (o.traces t i) k).im ^ 2]
    simp only [step, calculatePsd, Obj.reorder, h1, h2, h3]
  | calculateCorrcoeff =>
    simp only [step, calculateCorrcoeff]
    by_cases hc : c = 1
    · rw [if_pos hc, if_pos hc]
    · rw [if_neg hc, if_neg hc]
      simp only [Obj.reorder, corrcoeffOf_perm]
  | calculateCsd =>
    simp only [step, calculateCsd]
    by_cases hc : c = 1
    · rw [if_pos hc, if_pos hc]
    · rw [if_neg hc, if_neg hc]
      simp only [Obj.reorder, csdOf_perm]
  | calculateUncorrNoise =>
    simp only [step]
    rw [calculateUncorrNoise_reorder]

theorem outcome_reorder (σ : Equiv.Perm (Fin m)) (o : Obj m c n) (op : Op) :
    outcome (o.reorder σ) op = outcome o op := by
  cases op with
  | removeTraceSlope => rfl
  | calculatePsd => rfl
  | calculateCorrcoeff => simp only [outcome, calculateCorrcoeff]; split_ifs <;> rfl
  | calculateCsd => simp only [outcome, calculateCsd]; split_ifs <;> rfl
  | calculateUncorrNoise =>
    simp only [outcome]
    rw [calculateUncorrNoise_reorder]

omit [NeZero n] in
/-- The CSD matrix with reordered channels. -/
theorem csdMat_rewire (ρ : Equiv.Perm (Fin c)) (d : Csd c n) (k : Half n) :
    csdMat (n := n) ⟨fun i j => d.csd (ρ i) (ρ j), fun i j => d.real (ρ i) (ρ j),
      fun i j => d.imag (ρ i) (ρ j)⟩ k = (csdMat d k).submatrix ρ ρ := rfl

omit [NeZero n] in
theorem storeUncorr_rewire (ρ : Equiv.Perm (Fin c)) (o : Obj m c n) (d : Csd c n) :
    storeUncorr (o.rewire ρ) ⟨fun i j => d.csd (ρ i) (ρ j), fun i j => d.real (ρ i) (ρ j),
      fun i j => d.imag (ρ i) (ρ j)⟩ = ((storeUncorr o d).1, (storeUncorr o d).2.rewire ρ) := by
  unfold storeUncorr
  have hdet : (∃ k, (csdMat (n := n) ⟨fun i j => d.csd (ρ i) (ρ j), fun i j => d.real (ρ i) (ρ j),
      fun i j => d.imag (ρ i) (ρ j)⟩ k).det = 0) ↔ ∃ k, (csdMat d k).det = 0 := by
    simp only [csdMat_rewire, Matrix.det_submatrix_equiv_self]
  by_cases h : ∃ k, (csdMat d k).det = 0
  · rw [if_pos h, if_pos (hdet.2 h)]
  · rw [if_neg h, if_neg (fun q => h (hdet.1 q))]
    have hinv : ∀ j k, (csdMat (n := n) ⟨fun i j => d.csd (ρ i) (ρ j), fun i j => d.real (ρ i) (ρ j),
        fun i j => d.imag (ρ i) (ρ j)⟩ k)⁻¹ j j = (csdMat d k)⁻¹ (ρ j) (ρ j) := by
      intro j k
      rw [csdMat_rewire, Matrix.inv_submatrix_equiv]
      rfl
    have h1 : uncorrOf (n := n) ⟨fun i j => d.csd (ρ i) (ρ j), fun i j => d.real (ρ i) (ρ j),
        fun i j => d.imag (ρ i) (ρ j)⟩ = fun i => uncorrOf d (ρ i) := by
      funext i k
      unfold uncorrOf
      rw [hinv]
    have h2 : corrOf (n := n) ⟨fun i j => d.csd (ρ i) (ρ j), fun i j => d.real (ρ i) (ρ j),
        fun i j => d.imag (ρ i) (ρ j)⟩ = fun i => corrOf d (ρ i) := by
      funext i k
      unfold corrOf
      rw [hinv]
    rw [h1, h2]
    rfl

theorem calculateUncorrNoise_rewire (ρ : Equiv.Perm (Fin c)) (o : Obj m c n) :
    calculateUncorrNoise (o.rewire ρ) =
      ((calculateUncorrNoise o).1, (calculateUncorrNoise o).2.rewire ρ) := by
  unfold calculateUncorrNoise
  have hd : (o.rewire ρ).csd = o.csd.map fun d => ⟨fun i j => d.csd (ρ i) (ρ j),
    fun i j => d.real (ρ i) (ρ j), fun i j => d.imag (ρ i) (ρ j)⟩ := rfl
  rw [hd]
  cases o.csd with
  | some d => exact storeUncorr_rewire ρ o d
  | none =>
    unfold calculateCsd
    by_cases hc : c = 1
    · rw [if_pos hc, if_pos hc]
      rfl
    · rw [if_neg hc, if_neg hc]
      exact storeUncorr_rewire ρ { o with csd := some (csdOf o.traces o.fs) } (csdOf o.traces o.fs)

theorem step_rewire (ρ : Equiv.Perm (Fin c)) (o : Obj m c n) (op : Op) :
    step (o.rewire ρ) op = (step o op).rewire ρ := by
  cases op with
  | removeTraceSlope => rfl
  | calculatePsd => rfl
  | calculateCorrcoeff =>
    simp only [step, calculateCorrcoeff]
    by_cases hc : c = 1
    · rw [if_pos hc, if_pos hc]
    · rw [if_neg hc, if_neg hc]
      rfl
  | calculateCsd =>
    simp only [step, calculateCsd]
    by_cases hc : c = 1
    · rw [if_pos hc, if_pos hc]
    · rw [if_neg hc, if_neg hc]
      rfl
  | calculateUncorrNoise =>
    simp only [step]
    rw [calculateUncorrNoise_rewire]

theorem outcome_rewire (ρ : Equiv.Perm (Fin c)) (o : Obj m c n) (op : Op) :
    outcome (o.rewire ρ) op = outcome o op := by
  cases op with
  | removeTraceSlope => rfl
  | calculatePsd => rfl
  | calculateCorrcoeff => simp only [outcome, calculateCorrcoeff]; split_ifs <;> rfl
  | calculateCsd => simp only [outcome, calculateCsd]; split_ifs <;> rfl
  | calculateUncorrNoise =>
    simp only [outcome]
    rw [calculateUncorrNoise_rewire]

section
variable (a : Fin c → ℝ) (ha : ∀ i, 0 < a i) (r : ℝ) (hr : 0 < r)
include ha hr

theorem csdOf_rescale (traces : Fin m → Fin c → ZMod n → ℝ) (fs : ℝ) :
    csdOf (fun t i s => a i * traces t i s) (r * fs) =
      { csd := fun i j k => ((a i * a j / r : ℝ) : ℂ) * (csdOf traces fs).csd i j k
        real := fun i j k => a i * a j / r * (csdOf traces fs).real i j k
        imag := fun i j k => a i * a j / r * (csdOf traces fs).imag i j k } := by
  have hp : ∀ i j, 0 < a i * a j / r := fun i j => div_pos (mul_pos (ha i) (ha j)) hr
  have h1 := csdOf_rescale_csd traces fs a (r := r)
  have h2 := fun i j => csdOf_rescale_real traces fs a (r := r) i j (hp i j)
  have h3 := fun i j => csdOf_rescale_imag traces fs a (r := r) i j (hp i j)
  generalize csdOf (fun t i s => a i * traces t i s) (r * fs) = D at *
  cases D
  congr 1
  · funext i j k
    exact h1 i j k
  · funext i j
    exact h2 i j
  · funext i j
    exact h3 i j

omit [NeZero n] in
theorem storeUncorr_rescale (o : Obj m c n) (d : Csd c n) :
    storeUncorr (o.rescale a r)
      { csd := fun i j k => ((a i * a j / r : ℝ) : ℂ) * d.csd i j k
        real := fun i j k => a i * a j / r * d.real i j k
        imag := fun i j k => a i * a j / r * d.imag i j k } =
      ((storeUncorr o d).1, (storeUncorr o d).2.rescale a r) := by
  have hne : ∀ i, a i ≠ 0 := fun i => (ha i).ne'
  generalize hd' : (⟨fun i j k => ((a i * a j / r : ℝ) : ℂ) * d.csd i j k,
    fun i j k => a i * a j / r * d.real i j k, fun i j k => a i * a j / r * d.imag i j k⟩ : Csd c n) = d'
  have h : ∀ i j k, d'.csd i j k = ((a i * a j / r : ℝ) : ℂ) * d.csd i j k := by
    intro i j k
    rw [← hd']
  have hre : ∀ i j k, d'.real i j k = a i * a j / r * d.real i j k := by
    intro i j k
    rw [← hd']
  unfold storeUncorr
  have hdet : (∃ k, (csdMat d' k).det = 0) ↔ ∃ k, (csdMat d k).det = 0 :=
    exists_congr fun k => csdMat_scaled_det hne hr.ne' h k
  by_cases hz : ∃ k, (csdMat d k).det = 0
  · rw [if_pos hz, if_pos (hdet.2 hz)]
  · rw [if_neg hz, if_neg (fun q => hz (hdet.1 q))]
    push Not at hz
    have hinv : ∀ j k, 1 / ‖(csdMat d' k)⁻¹ j j‖ = a j ^ 2 / r * (1 / ‖(csdMat d k)⁻¹ j j‖) := by
      intro j k
      rw [csdMat_scaled_inv hne hr h k j (hz k)]
      have := hne j
      by_cases h0 : ‖(csdMat d k)⁻¹ j j‖ = 0
      · simp [h0]
      · field_simp
    have h1 : uncorrOf d' = fun i k => a i ^ 2 / r * uncorrOf d i k := by
      funext i k
      exact hinv i k
    have h2 : corrOf d' = fun i k => a i ^ 2 / r * corrOf d i k := by
      funext i k
      unfold corrOf
      rw [hinv, hre]
      ring
    rw [h1, h2]
    rfl

theorem calculateUncorrNoise_rescale (o : Obj m c n) :
    calculateUncorrNoise (o.rescale a r) =
      ((calculateUncorrNoise o).1, (calculateUncorrNoise o).2.rescale a r) := by
  unfold calculateUncorrNoise
  have hd : (o.rescale a r).csd = o.csd.map fun d =>
      { csd := fun i j k => ((a i * a j / r : ℝ) : ℂ) * d.csd i j k
        real := fun i j k => a i * a j / r * d.real i j k
        imag := fun i j k => a i * a j / r * d.imag i j k } := rfl
  have hcs : csdOf (o.rescale a r).traces (o.rescale a r).fs = _ := csdOf_rescale a ha r hr o.traces o.fs
  rw [hd]
  cases o.csd with
  | some d => exact storeUncorr_rescale a ha r hr o d
  | none =>
    unfold calculateCsd
    by_cases hc : c = 1
    · rw [if_pos hc, if_pos hc]
      rfl
    · rw [if_neg hc, if_neg hc]
      dsimp only [Option.map_none]
      rw [hcs]
      exact storeUncorr_rescale a ha r hr { o with csd := some (csdOf o.traces o.fs) } _

theorem step_rescale (o : Obj m c n) (op : Op) :
    step (o.rescale a r) op = (step o op).rescale a r := by
  have hne : ∀ i, a i ≠ 0 := fun i => (ha i).ne'
  cases op with
  | removeTraceSlope =>
    simp only [step, removeTraceSlope, Obj.rescale, unslope_rescale _ _ _ hr.ne']
  | calculatePsd =>
    simp only [step, calculatePsd, Obj.rescale, psdOf_rescale, realPsdOf_rescale, imagPsdOf_rescale,
      Option.map_some]
  | calculateCorrcoeff =>
    simp only [step, calculateCorrcoeff]
    by_cases hc : c = 1
    · rw [if_pos hc, if_pos hc]
    · rw [if_neg hc, if_neg hc]
      simp only [Obj.rescale, corrcoeffOf_rescale _ a hne]
  | calculateCsd =>
    simp only [step, calculateCsd]
    by_cases hc : c = 1
    · rw [if_pos hc, if_pos hc]
    · rw [if_neg hc, if_neg hc]
      simp only [Obj.rescale, csdOf_rescale a ha r hr, Option.map_some]
  | calculateUncorrNoise =>
    simp only [step]
    rw [calculateUncorrNoise_rescale a ha r hr]

theorem outcome_rescale (o : Obj m c n) (op : Op) : outcome (o.rescale a r) op = outcome o op := by
  cases op with
  | removeTraceSlope => rfl
  | calculatePsd => rfl
  | calculateCorrcoeff => simp only [outcome, calculateCorrcoeff]; split_ifs <;> rfl
  | calculateCsd => simp only [outcome, calculateCsd]; split_ifs <;> rfl
  | calculateUncorrNoise =>
    simp only [outcome]
    rw [calculateUncorrNoise_rescale a ha r hr]

end

omit [NeZero n] in
theorem Offset.traces_eq {b : Fin m → Fin c → ℝ} {o o' : Obj m c n} (h : Offset b o o') :
    o'.traces = fun t i s => o.traces t i s + b t i := by
  funext t i s
  exact h.traces t i s

omit [NeZero n] in
theorem Offset.store {b : Fin m → Fin c → ℝ} {o o' : Obj m c n} (h : Offset b o o') (d : Csd c n) :
    Offset b (storeUncorr o d).2 (storeUncorr o' d).2 := by
  unfold storeUncorr
  by_cases hz : ∃ k, (csdMat d k).det = 0
  · rw [if_pos hz, if_pos hz]
    exact h
  · rw [if_neg hz, if_neg hz]
    exact { h with uncorr := rfl, corr := rfl }

theorem step_offset (b : Fin m → Fin c → ℝ) {o o' : Obj m c n} (h : Offset b o o') (op : Op) :
    Offset b (step o op) (step o' op) := by
  have ht := h.traces_eq
  have hcs : csdOf o'.traces o'.fs = csdOf o.traces o.fs := by rw [ht, h.fs, csdOf_offset]
  cases op with
  | removeTraceSlope =>
    refine { h with traces := fun t i s => ?_ }
    simp only [step, removeTraceSlope]
    rw [ht, h.time]
    exact unslope_offset _ _ _ _
  | calculatePsd =>
    refine { h with psd := .some fun i k hk => ?_, realPsd := .some fun i k hk => ?_,
                    imagPsd := .some fun i k hk => ?_ }
    · unfold psdOf
      simp only [ht, h.fs, rfft_offset _ _ hk]
    · unfold realPsdOf
      simp only [ht, h.fs, rfft_offset _ _ hk]
    · unfold imagPsdOf
      simp only [ht, h.fs, rfft_offset _ _ hk]
  | calculateCorrcoeff =>
    simp only [step, calculateCorrcoeff]
    by_cases hc : c = 1
    · rw [if_pos hc, if_pos hc]
      exact h
    · rw [if_neg hc, if_neg hc]
      refine { h with corrcoeff := .some fun i j k hk => ?_ }
      unfold corrcoeffOf
      simp only [ht, rfft_offset _ _ hk]
  | calculateCsd =>
    simp only [step, calculateCsd]
    by_cases hc : c = 1
    · rw [if_pos hc, if_pos hc]
      exact h
    · rw [if_neg hc, if_neg hc]
      exact { h with csd := by dsimp only; rw [hcs] }
  | calculateUncorrNoise =>
    simp only [step]
    unfold calculateUncorrNoise
    rw [h.csd]
    cases o.csd with
    | some d => exact h.store d
    | none =>
      unfold calculateCsd
      by_cases hc : c = 1
      · rw [if_pos hc, if_pos hc]
        exact h
      · rw [if_neg hc, if_neg hc]
        dsimp only
        rw [hcs]
        exact Offset.store (o := { o with csd := some (csdOf o.traces o.fs) })
          (o' := { o' with csd := some (csdOf o.traces o.fs) }) { h with csd := rfl } _

end Verif.Noise
