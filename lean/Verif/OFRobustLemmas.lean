import Verif.OFDelaySpec
import Verif.OFRateLemmas
import Verif.OFPairProps
import Verif.NsmbProps

/-! Auxiliary lemmas of property C158. -/

namespace Verif.OF
open Verif Verif.Dft

variable {n : ℕ} [NeZero n]

theorem norm_sub_two (u v : ℂ) : ‖u - v‖ ^ 2 ≤ 2 * (‖u‖ ^ 2 + ‖v‖ ^ 2) := by
  have h := norm_sub_le u v
  have h0 := norm_nonneg (u - v)
  nlinarith [sq_nonneg (‖u‖ - ‖v‖), norm_nonneg u, norm_nonneg v]

/-- The chi-square of a difference. -/
theorem traceChi2_two {fs : ℝ} {wt : ZMod n → ℝ} (hfs : 0 ≤ fs) (hw : ∀ k, 0 ≤ wt k) (u v : ZMod n → ℝ) :
    traceChi2 fs wt (fun j => u j - v j) ≤ 2 * (traceChi2 fs wt u + traceChi2 fs wt v) := by
  unfold traceChi2
  rw [← Finset.sum_add_distrib, Finset.mul_sum]
  refine Finset.sum_le_sum fun k _ => ?_
  rw [fftR_sub, sub_div]
  have h := norm_sub_two (fftR u k / (fs : ℂ)) (fftR v k / (fs : ℂ))
  have h1 : 0 ≤ wt k * (fs / n) := mul_nonneg (hw k) (by positivity)
  calc _ = ‖fftR u k / (fs : ℂ) - fftR v k / (fs : ℂ)‖ ^ 2 * (wt k * (fs / n)) := by ring
    _ ≤ _ := mul_le_mul_of_nonneg_right h h1
    _ = _ := by ring

theorem power_two {J : ZMod n → ℝ} (hJ : ∀ k, 0 < J k) (u v : ZMod n → ℝ) :
    Nsmb.Spec.power J (fun j => u j - v j) ≤ 2 * (Nsmb.Spec.power J u + Nsmb.Spec.power J v) := by
  unfold Nsmb.Spec.power
  rw [← Finset.sum_add_distrib, Finset.mul_sum]
  refine Finset.sum_le_sum fun k _ => ?_
  rw [fftR_sub, sub_div, ← add_div, ← mul_div_assoc]
  exact div_le_div_of_nonneg_right (norm_sub_two _ _) (hJ k).le

/-- A fit which is at least as good as the truth is close to it. -/
theorem close_of_best {fs : ℝ} {wt : ZMod n → ℝ} (hfs : 0 ≤ fs) (hw : ∀ k, 0 ≤ wt k) {x truth fit y : ZMod n → ℝ}
    (hx : ∀ j, x j = truth j + y j) (h : traceChi2 fs wt (fun j => x j - fit j) ≤ traceChi2 fs wt y) :
    traceChi2 fs wt (fun j => fit j - truth j) ≤ 4 * traceChi2 fs wt y := by
  have e : (fun j => fit j - truth j) = fun j => y j - (fun j => x j - fit j) j := by
    funext j
    simp only [hx]
    ring
  rw [e]
  refine (traceChi2_two hfs hw _ _).trans ?_
  linarith

/-- Cauchy-Schwarz. -/
theorem ip_sq_le {fs : ℝ} {wt : ZMod n → ℝ} (hfs : 0 ≤ fs) (hw : ∀ k, 0 ≤ wt k) {p : ZMod n → ℝ}
    (hp : 0 < traceChi2 fs wt p) (y : ZMod n → ℝ) : ip fs wt p y ^ 2 ≤ traceChi2 fs wt p * traceChi2 fs wt y := by
  have h := ip_nonneg fs wt (fun j => y j - ip fs wt p y / traceChi2 fs wt p * p j) hfs hw
  have e := traceChi2_expand1 fs wt y p (ip fs wt p y / traceChi2 fs wt p)
  have h' : 0 ≤ traceChi2 fs wt fun j => y j - ip fs wt p y / traceChi2 fs wt p * p j := h
  rw [e] at h'
  have h3 : traceChi2 fs wt y - 2 * (ip fs wt p y / traceChi2 fs wt p) * ip fs wt p y +
      (ip fs wt p y / traceChi2 fs wt p) ^ 2 * traceChi2 fs wt p =
      (traceChi2 fs wt p * traceChi2 fs wt y - ip fs wt p y ^ 2) / traceChi2 fs wt p := by
    field_simp
    ring
  rw [h3] at h'
  have := (div_nonneg_iff.1 h').resolve_right fun h => absurd h.2 (not_le.2 hp)
  linarith [this.1]

/-- Two pulses whose difference is small have similar heights. -/
theorem heights {fs : ℝ} {wt T : ZMod n → ℝ} (hfs : 0 ≤ fs) (hw : ∀ k, 0 ≤ wt k) (hN : 0 < traceChi2 fs wt T) {a b q : ℝ}
    {m d : ZMod n} (h : traceChi2 fs wt (fun j => a * roll T m j - b * roll T d j) ≤ q) :
    (|a| - |b|) ^ 2 * traceChi2 fs wt T ≤ q := by
  refine le_trans ?_ h
  have e := traceChi2_expand1 fs wt (fun j => a * roll T m j) (roll T d) b
  have e0 : traceChi2 fs wt (fun j => a * roll T m j) = a ^ 2 * traceChi2 fs wt T := by
    rw [← ip_self, ip_smul_right, ip_comm, ip_smul_right, ip_self, traceChi2_roll]
    ring
  rw [e, e0, traceChi2_roll, ip_smul_right]
  have hcs := ip_sq_le hfs hw (p := roll T d) (by rw [traceChi2_roll]; exact hN) (roll T m)
  rw [traceChi2_roll, traceChi2_roll, ← pow_two] at hcs
  have hab : a * b * ip fs wt (roll T d) (roll T m) ≤ |a| * |b| * traceChi2 fs wt T := by
    refine (le_abs_self _).trans ?_
    rw [abs_mul, abs_mul]
    exact mul_le_mul_of_nonneg_left (abs_le_of_sq_le_sq hcs hN.le) (by positivity)
  nlinarith [sq_abs a, sq_abs b]

end Verif.OF
