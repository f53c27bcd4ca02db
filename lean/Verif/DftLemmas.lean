import Verif.Dft
import Mathlib.Tactic.Linarith
import Mathlib.Tactic.Ring
import Mathlib.Tactic.FieldSimp

/-! Helper lemmas about the discrete Fourier transform. -/

namespace Verif.Dft
open ZMod AddChar

variable {n : ℕ} [NeZero n]

/-- `exp (2 π i j / n)` for a residue `j`. -/
noncomputable abbrev e (j : ZMod n) : ℂ := stdAddChar j

theorem e_add (j k : ZMod n) : e (j + k) = e j * e k := map_add_eq_mul _ _ _

theorem e_zero : e (0 : ZMod n) = 1 := map_zero_eq_one _

theorem norm_e (j : ZMod n) : ‖e j‖ = 1 := by
  rw [e, stdAddChar_apply]; exact Circle.norm_coe _

theorem conj_e (j : ZMod n) : starRingEnd ℂ (e j) = e (-j) := by
  have h1 : e j * e (-j) = 1 := by rw [← e_add, add_neg_cancel, e_zero]
  have h2 : e j * starRingEnd ℂ (e j) = 1 := by
    rw [Complex.mul_conj, Complex.normSq_eq_norm_sq, norm_e]; simp
  have h3 : e j ≠ 0 := fun h => by rw [h, zero_mul] at h1; exact zero_ne_one h1
  exact mul_left_cancel₀ h3 (h2.trans h1.symm)

theorem e_neg_mul_e (j : ZMod n) : e (-j) * e j = 1 := by
  rw [← e_add, neg_add_cancel, e_zero]

theorem fftR_apply (x : ZMod n → ℝ) (k : ZMod n) : fftR x k = ∑ j, e (-(j * k)) * (x j : ℂ) := by
  simp [fftR, dft_apply]

theorem fft_apply (x : ZMod n → ℂ) (k : ZMod n) : fft x k = ∑ j, e (-(j * k)) * x j := by
  simp [fft, dft_apply]

theorem ifft_apply (x : ZMod n → ℂ) (m : ZMod n) :
    ifft x m = (n : ℂ)⁻¹ * ∑ k, e (k * m) * x k := by
  simp [ifft, invDFT_apply]

/-- `ifft(x * n)` is the plain exponential sum. -/
theorem ifft_mul_n (x : ZMod n → ℂ) (m : ZMod n) :
    ifft (fun k => x k * (n : ℂ)) m = ∑ k, e (k * m) * x k := by
  rw [ifft_apply, Finset.mul_sum]
  have hn : (n : ℂ) ≠ 0 := Nat.cast_ne_zero.2 (NeZero.ne n)
  apply Finset.sum_congr rfl
  intro k _
  field_simp

theorem ifft_times_n (x : ZMod n → ℂ) (m : ZMod n) :
    (ifft x m).re * n = (∑ k, e (k * m) * x k).re := by
  have hn : (n : ℂ) ≠ 0 := Nat.cast_ne_zero.2 (NeZero.ne n)
  have h : (∑ k, e (k * m) * x k) = ((n : ℝ) : ℂ) * ifft x m := by
    rw [ifft_apply]; push_cast; field_simp
  rw [h, Complex.re_ofReal_mul]; ring

theorem ifft_fft (x : ZMod n → ℂ) : ifft (fft x) = x := by simp [ifft, fft]

theorem fft_ifft (x : ZMod n → ℂ) : fft (ifft x) = x := by simp [ifft, fft]

theorem fftR_add (x y : ZMod n → ℝ) (k : ZMod n) :
    fftR (fun j => x j + y j) k = fftR x k + fftR y k := by
  simp only [fftR_apply, Complex.ofReal_add, mul_add, Finset.sum_add_distrib]

theorem fftR_sub (x y : ZMod n → ℝ) (k : ZMod n) :
    fftR (fun j => x j - y j) k = fftR x k - fftR y k := by
  simp only [fftR_apply, Complex.ofReal_sub, mul_sub, Finset.sum_sub_distrib]

theorem fftR_smul (c : ℝ) (x : ZMod n → ℝ) (k : ZMod n) :
    fftR (fun j => c * x j) k = (c : ℂ) * fftR x k := by
  simp only [fftR_apply, Complex.ofReal_mul, Finset.mul_sum]
  exact Finset.sum_congr rfl fun j _ => by ring

/-- Shift theorem. -/
theorem fftR_roll (x : ZMod n → ℝ) (m k : ZMod n) :
    fftR (roll x m) k = e (-(m * k)) * fftR x k := by
  rw [fftR_apply, fftR_apply, Finset.mul_sum]
  refine Fintype.sum_equiv (Equiv.subRight m) _ _ fun j => ?_
  simp only [roll, Equiv.subRight_apply]
  rw [← mul_assoc, ← e_add]
  congr 2; ring

theorem fftR_zero_bin (x : ZMod n → ℝ) : fftR x 0 = ((∑ j, x j : ℝ) : ℂ) := by
  rw [fftR_apply]; simp

/-- A constant array only has a zero-frequency component. -/
theorem fftR_const (c : ℝ) (k : ZMod n) :
    fftR (fun _ : ZMod n => c) k = if k = 0 then (n : ℂ) * (c : ℂ) else 0 := by
  rw [fftR_apply, ← Finset.sum_mul]
  split_ifs with h
  · subst h; simp
  · have h1 : ∑ j : ZMod n, e (-(j * k)) = 0 := by
      have := AddChar.sum_mulShift (ψ := (stdAddChar : AddChar (ZMod n) ℂ)) (-k)
        (isPrimitive_stdAddChar n)
      rw [if_neg (by simpa using h)] at this
      rw [Nat.cast_zero] at this
      rw [← this]
      exact Finset.sum_congr rfl fun j _ => by rw [e]; congr 1; ring
    rw [h1, zero_mul]

/-- Hermitian symmetry of the transform of a real array. -/
theorem fftR_neg (x : ZMod n → ℝ) (k : ZMod n) : fftR x (-k) = starRingEnd ℂ (fftR x k) := by
  rw [fftR_apply, fftR_apply, map_sum]
  refine Finset.sum_congr rfl fun j _ => ?_
  rw [map_mul, conj_e, Complex.conj_ofReal]
  congr 2; ring

theorem sum_e_mul (t : ZMod n) : ∑ k : ZMod n, e (k * t) = if t = 0 then (n : ℂ) else 0 := by
  have := AddChar.sum_mulShift (ψ := (stdAddChar : AddChar (ZMod n) ℂ)) t (isPrimitive_stdAddChar n)
  simpa using this

/-- Parseval for real arrays. -/
theorem parseval (x : ZMod n → ℝ) : ∑ k, ‖fftR x k‖ ^ 2 = n * ∑ j, (x j) ^ 2 := by
  have h : ((∑ k, ‖fftR x k‖ ^ 2 : ℝ) : ℂ) = ((n * ∑ j, (x j) ^ 2 : ℝ) : ℂ) := by
    have h1 : ∀ k, ((‖fftR x k‖ ^ 2 : ℝ) : ℂ) =
        ∑ i, ∑ j, e (k * (j - i)) * ((x i : ℂ) * (x j : ℂ)) := by
      intro k
      rw [← Complex.normSq_eq_norm_sq, ← Complex.mul_conj, fftR_apply, map_sum,
        Finset.sum_mul_sum]
      refine Finset.sum_congr rfl fun i _ => Finset.sum_congr rfl fun j _ => ?_
      rw [map_mul, conj_e, Complex.conj_ofReal]
      have : e (k * (j - i)) = e (-(i * k)) * e (- -(j * k)) := by
        rw [← e_add]; congr 1; ring
      rw [this]; ring
    push_cast
    push_cast at h1
    simp_rw [h1]
    rw [Finset.sum_comm, Finset.mul_sum]
    refine Finset.sum_congr rfl fun i _ => ?_
    rw [Finset.sum_comm]
    have h2 : ∀ j, ∑ k, e (k * (j - i)) * ((x i : ℂ) * (x j : ℂ)) =
        if j = i then (n : ℂ) * ((x i : ℂ) * (x j : ℂ)) else 0 := by
      intro j
      rw [← Finset.sum_mul, sum_e_mul]
      simp only [sub_eq_zero]
      split_ifs <;> simp
    simp_rw [h2]
    rw [Finset.sum_ite_eq' Finset.univ i]
    rw [if_pos (Finset.mem_univ _)]; ring
  exact_mod_cast h

/-! ### Frequencies -/

theorem freqIdx_cast (k : ZMod n) : ((freqIdx k : ℤ) : ZMod n) = k := by
  unfold freqIdx
  split_ifs <;> simp

/-- A delay of a whole number `m` of bins: the phase of the code is the root of unity. -/
theorem exp_freq (fs : ℝ) (hfs : fs ≠ 0) (m : ℤ) (k : ZMod n) (t : ℝ) (ht : t = m / fs) :
    Complex.exp (2 * Real.pi * Complex.I * (t * fftfreq fs k : ℝ)) = e ((m : ZMod n) * k) := by
  have hn : (n : ℂ) ≠ 0 := Nat.cast_ne_zero.2 (NeZero.ne n)
  have hfs' : (fs : ℂ) ≠ 0 := Complex.ofReal_ne_zero.2 hfs
  have : ((m : ZMod n) * k) = ((m * freqIdx k : ℤ) : ZMod n) := by
    push_cast; rw [freqIdx_cast]
  rw [this, e, stdAddChar_coe]
  congr 1
  rw [ht, fftfreq]
  push_cast
  field_simp

theorem recip_nonneg {p : WithTop ℝ} (h : 0 < p) : 0 ≤ recip p := by
  cases p with
  | top => simp [recip]
  | coe x => simp only [recip]; have : 0 < x := by exact_mod_cast h
             positivity

end Verif.Dft
