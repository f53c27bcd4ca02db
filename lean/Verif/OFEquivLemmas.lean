import Verif.OFLemmas

/-! Helper lemmas: how the internal arrays transform with the signal. -/

namespace Verif.OF
open Verif Verif.Dft

variable {n : ℕ} [NeZero n]

section
variable (x y T : ZMod n → ℝ) (psd : ZMod n → WithTop ℝ) (fs : ℝ) (ac : Bool)

theorem norm_eq (b : Bool) : (init x T psd fs ac b).norm = (init y T psd fs ac b).norm := rfl

theorem sfTd_smul (c : ℝ) (m : ZMod n) :
    readSfTd (init (fun j => c * x j) T psd fs ac false) m
      = c * readSfTd (init x T psd fs ac false) m := by
  rw [init_sfTd, init_sfTd, ip_smul_right, norm_eq (fun j => c * x j) x, mul_div_assoc]

theorem sfTd_add (m : ZMod n) :
    readSfTd (init (fun j => x j + y j) T psd fs ac false) m
      = readSfTd (init x T psd fs ac false) m + readSfTd (init y T psd fs ac false) m := by
  rw [init_sfTd, init_sfTd, init_sfTd, ip_add_right, norm_eq (fun j => x j + y j) x, norm_eq y x,
    add_div]

theorem chi0_smul (c : ℝ) :
    readChi0 (init (fun j => c * x j) T psd fs ac false)
      = c ^ 2 * readChi0 (init x T psd fs ac false) := by
  rw [init_chi0, init_chi0, ← ip_self, ip_smul_right, ip_comm, ip_smul_right, ip_self]; ring

theorem ip_roll (wt : ZMod n → ℝ) (k : ZMod n) :
    ip fs wt (roll x k) (roll y k) = ip fs wt x y := by
  unfold ip
  refine Finset.sum_congr rfl fun j _ => ?_
  rw [fftR_roll, fftR_roll, mul_div_assoc, mul_div_assoc, map_mul, conj_e]
  have : e (- -(k * j)) * starRingEnd ℂ (fftR x j / (fs : ℂ)) * (e (-(k * j)) * (fftR y j / (fs : ℂ)))
      = (e (-(k * j)) * e (k * j)) * (starRingEnd ℂ (fftR x j / (fs : ℂ)) * (fftR y j / (fs : ℂ))) := by
    rw [neg_neg]; ring
  rw [this, e_neg_mul_e, one_mul]

omit [NeZero n] in
theorem roll_roll (k l : ZMod n) : roll (roll x k) l = roll x (k + l) := by
  funext j; simp only [roll]; congr 1; ring

theorem sfTd_roll (k m : ZMod n) :
    readSfTd (init (roll x k) T psd fs ac false) m
      = readSfTd (init x T psd fs ac false) (m - k) := by
  rw [init_sfTd, init_sfTd, norm_eq (roll x k) x]
  congr 1
  rw [← ip_roll (roll T (m - k)) x fs _ k, roll_roll, sub_add_cancel]

theorem chi0_roll (k : ZMod n) :
    readChi0 (init (roll x k) T psd fs ac false) = readChi0 (init x T psd fs ac false) := by
  rw [init_chi0, init_chi0, traceChi2_roll]

end

/-! ### Scaling of the search and the interpolation -/

/-- Scale a fit result. -/
def scaleRes (c : ℝ) : Except Err (ℝ × ℝ × ℝ) → Except Err (ℝ × ℝ × ℝ)
  | .error e => .error e
  | .ok (a, t, chi) => .ok (c * a, t, c ^ 2 * chi)

omit [NeZero n] in
theorem parabola_scale_none (v : ZMod n → ℝ) (c : ℝ) (hc : c ≠ 0) (i : ℤ) (d : ℝ) :
    interpolateParabola (fun m => c * v m) i d none =
      match interpolateParabola v i d none with
      | .error e => .error e
      | .ok (t, y) => .ok (t, c * y) := by
  unfold interpolateParabola
  split_ifs with h
  · rfl
  simp only
  have ha : 1 / (2 * d ^ 2) * (c * v ((i + 1 : ℤ) : ZMod n) - 2 * (c * v (i : ZMod n))
      + c * v ((i - 1 : ℤ) : ZMod n)) = c * (1 / (2 * d ^ 2) * (v ((i + 1 : ℤ) : ZMod n)
      - 2 * v (i : ZMod n) + v ((i - 1 : ℤ) : ZMod n))) := by ring
  have hb : 1 / (2 * d ^ 2) * d * (c * v ((i + 1 : ℤ) : ZMod n) - c * v ((i - 1 : ℤ) : ZMod n)) =
      c * (1 / (2 * d ^ 2) * d * (v ((i + 1 : ℤ) : ZMod n) - v ((i - 1 : ℤ) : ZMod n))) := by ring
  rw [ha, hb]
  generalize 1 / (2 * d ^ 2) * (v ((i + 1 : ℤ) : ZMod n)
      - 2 * v (i : ZMod n) + v ((i - 1 : ℤ) : ZMod n)) = A
  generalize 1 / (2 * d ^ 2) * d * (v ((i + 1 : ℤ) : ZMod n) - v ((i - 1 : ℤ) : ZMod n)) = B
  by_cases hA : A = 0
  · simp [hA]
  · rw [if_neg (mul_ne_zero hc hA), if_neg hA]
    have : -(c * B) / (2 * (c * A)) = -B / (2 * A) := by field_simp
    simp only [this, Except.ok.injEq, Prod.mk.injEq, true_and]
    ring

omit [NeZero n] in
theorem parabola_scale_some (v : ZMod n → ℝ) (c : ℝ) (i : ℤ) (d t : ℝ) :
    interpolateParabola (fun m => c * v m) i d (some t) =
      match interpolateParabola v i d (some t) with
      | .error e => .error e
      | .ok (t, y) => .ok (t, c * y) := by
  unfold interpolateParabola
  split_ifs with h
  · rfl
  simp only [Except.ok.injEq, Prod.mk.injEq, true_and]
  ring

omit [NeZero n] in
theorem interpolateOf_scale (amps chi : ZMod n → ℝ) (c : ℝ) (hc : c ≠ 0) (i : ℤ) (d : ℝ) :
    interpolateOf (fun m => c * amps m) (fun m => c ^ 2 * chi m) i d =
      scaleRes c (interpolateOf amps chi i d) := by
  unfold interpolateOf
  rw [parabola_scale_none chi (c ^ 2) (pow_ne_zero 2 hc)]
  cases h : interpolateParabola chi i d none with
  | error e => rfl
  | ok r =>
    obtain ⟨t, y⟩ := r
    simp only
    rw [parabola_scale_some]
    cases h2 : interpolateParabola amps i d (some t) with
    | error e => rfl
    | ok r2 => obtain ⟨t2, y2⟩ := r2; rfl

omit [NeZero n] in
theorem search_scale (amps chi : ZMod n → ℝ) (c : ℝ) (hc : c ≠ 0) (nc : Option ℤ) (o : Bool)
    (dir wc : ℤ) :
    search (fun m => c * amps m) (fun m => c ^ 2 * chi m) nc o (if 0 < c then dir else -dir) wc =
      search amps chi nc o dir wc := by
  have hmask : directionMask (asIdx fun m => c * amps m) (if 0 < c then dir else -dir) =
      directionMask (asIdx amps) dir := by
    unfold directionMask asIdx
    by_cases h0 : 0 < c
    · simp only [h0, if_true]
      have : ∀ i : ℤ, decide ((dir : ℝ) * (c * amps (i : ZMod n)) > 0) =
          decide ((dir : ℝ) * amps (i : ZMod n) > 0) := by
        intro i
        rw [decide_eq_decide, mul_left_comm, gt_iff_lt, mul_pos_iff_of_pos_left h0]
      simp only [this]
    · have hneg : c < 0 := lt_of_le_of_ne (not_lt.1 h0) hc
      simp only [h0, if_false]
      have h1 : (-dir = -1 ∨ dir = 0 ∨ -dir = 1) ↔ (dir = -1 ∨ dir = 0 ∨ dir = 1) := by omega
      have h2 : -dir = 0 ↔ dir = 0 := by omega
      have : ∀ i : ℤ, decide (((-dir : ℤ) : ℝ) * (c * amps (i : ZMod n)) > 0) =
          decide ((dir : ℝ) * amps (i : ZMod n) > 0) := by
        intro i
        rw [decide_eq_decide]
        push_cast
        rw [show -(dir : ℝ) * (c * amps (i : ZMod n)) = (-c) * (dir * amps (i : ZMod n)) by ring,
          gt_iff_lt, mul_pos_iff_of_pos_left (by linarith)]
      simp only [this, h2, h1]
  unfold search
  rw [hmask]
  cases directionMask (asIdx amps) dir with
  | error e => rfl
  | ok mask =>
    simp only
    refine argminChi2_order _ _ (fun i j => ?_) _ _ _ _
    have : 0 < c ^ 2 := by positivity
    exact mul_lt_mul_iff_right₀ this

end Verif.OF
