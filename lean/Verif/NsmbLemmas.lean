import Verif.Nsmb
import Verif.NsmbSpec
import Verif.PinvLemmas
import Verif.DftLemmas
import Verif.ArgminLemmas

/-! Lemmas for the multi-template optimum filter. -/

namespace Verif.Nsmb

open Verif.Dft Verif.Nsmb.Spec Matrix

variable {n : ℕ} [NeZero n] {nb : ℕ}

/-- Noise-weighted real inner product of two spectra. -/
noncomputable def ip (J : ZMod n → ℝ) (x y : ZMod n → ℂ) : ℝ :=
  ∑ f, (starRingEnd ℂ (x f) * y f).re / J f

theorem ip_comm (J : ZMod n → ℝ) (x y : ZMod n → ℂ) : ip J x y = ip J y x := by
  refine Finset.sum_congr rfl fun f _ => ?_
  congr 1
  simp [Complex.mul_re]
  ring

theorem ip_add_right (J : ZMod n → ℝ) (x y z : ZMod n → ℂ) :
    ip J x (fun f => y f + z f) = ip J x y + ip J x z := by
  simp only [ip, mul_add, Complex.add_re, add_div, Finset.sum_add_distrib]

theorem ip_sub_right (J : ZMod n → ℝ) (x y z : ZMod n → ℂ) :
    ip J x (fun f => y f - z f) = ip J x y - ip J x z := by
  simp only [ip, mul_sub, Complex.sub_re, sub_div, Finset.sum_sub_distrib]

theorem ip_sum_right {ι : Type*} (s : Finset ι) (J : ZMod n → ℝ) (x : ZMod n → ℂ)
    (a : ι → ℝ) (y : ι → ZMod n → ℂ) :
    ip J x (fun f => ∑ i ∈ s, (a i : ℂ) * y i f) = ∑ i ∈ s, a i * ip J x (y i) := by
  simp only [ip, Finset.mul_sum]
  rw [Finset.sum_comm]
  refine Finset.sum_congr rfl fun f _ => ?_
  rw [Complex.re_sum, Finset.sum_div]
  refine Finset.sum_congr rfl fun i _ => ?_
  rw [← mul_div_assoc]
  congr 1
  rw [mul_left_comm, Complex.re_ofReal_mul]

theorem ip_self_nonneg {J : ZMod n → ℝ} (hJ : ∀ f, 0 < J f) (x : ZMod n → ℂ) : 0 ≤ ip J x x := by
  refine Finset.sum_nonneg fun f _ => div_nonneg ?_ (hJ f).le
  rw [mul_comm, Complex.mul_conj, Complex.ofReal_re]
  exact Complex.normSq_nonneg _

omit [NeZero n] in
/-- The quotient form used by the code. -/
theorem re_sum_div (J : ZMod n → ℝ) (x y : ZMod n → ℂ) (s : Finset (ZMod n)) :
    (∑ f ∈ s, starRingEnd ℂ (x f) / (J f : ℂ) * y f).re =
      ∑ f ∈ s, (starRingEnd ℂ (x f) * y f).re / J f := by
  rw [Complex.re_sum]
  refine Finset.sum_congr rfl fun f _ => ?_
  rw [div_mul_eq_mul_div, Complex.div_ofReal_re]

/-- Spectrum of the trace minus the templates. -/
theorem fftR_resTrace {ι : Type*} [Fintype ι] (p : ZMod n → ℝ) (S : ι → ZMod n → ℝ) (a : ι → ℝ)
    (f : ZMod n) :
    fftR (resTrace p S a) f / n = fftR p f / n - ∑ i, (a i : ℂ) * (fftR (S i) f / n) := by
  unfold resTrace
  rw [fftR_sub, sub_div]
  congr 1
  rw [fftR_apply]
  simp only [fftR_apply, Complex.ofReal_sum, Complex.ofReal_mul, Finset.mul_sum, Finset.sum_div]
  rw [Finset.sum_comm]
  refine Finset.sum_congr rfl fun i _ => ?_
  refine Finset.sum_congr rfl fun j _ => ?_
  ring

theorem power_eq_ip (J : ZMod n → ℝ) (r : ZMod n → ℝ) :
    power J r = ip J (fun f => fftR r f / n) (fun f => fftR r f / n) := by
  refine Finset.sum_congr rfl fun f _ => ?_
  rw [mul_comm, Complex.mul_conj, Complex.ofReal_re, Complex.normSq_eq_norm_sq]

theorem residChi2_eq (J : ZMod n → ℝ) (r : ZMod n → ℝ) : residChi2 J r = power J r := by
  rw [power_eq_ip, residChi2, re_sum_div]
  rfl

/-- Inner products of the transforms of real traces. -/
noncomputable def ipR (J : ZMod n → ℝ) (x y : ZMod n → ℝ) : ℝ :=
  ip J (fun f => fftR x f / n) (fun f => fftR y f / n)

/-- chi2 as a quadratic form. -/
theorem power_resTrace {ι : Type*} [Fintype ι] (J : ZMod n → ℝ) (p : ZMod n → ℝ)
    (S : ι → ZMod n → ℝ) (a : ι → ℝ) :
    power J (resTrace p S a) = ipR J p p - 2 * (a ⬝ᵥ fun i => ipR J (S i) p) +
      a ⬝ᵥ ((of fun i j => ipR J (S i) (S j) : Matrix ι ι ℝ) *ᵥ a) := by
  rw [power_eq_ip]
  simp only [fftR_resTrace]
  rw [ip_sub_right, ip_sum_right, ip_comm, ip_sub_right, ip_sum_right]
  have h1 : ∀ i, ip J (fun f => fftR p f / n - ∑ i, (a i : ℂ) * (fftR (S i) f / n))
      (fun f => fftR (S i) f / n) = ipR J (S i) p - ∑ j, a j * ipR J (S i) (S j) := by
    intro i
    rw [ip_comm, ip_sub_right, ip_sum_right]
    rfl
  have h2 : ∀ i, ip J (fun f => fftR p f / n) (fun f => fftR (S i) f / n) = ipR J (S i) p :=
    fun i => ip_comm _ _ _
  simp only [h1, h2, dotProduct, mulVec, of_apply]
  have h3 : ip J (fun f => fftR p f / n) (fun f => fftR p f / n) = ipR J p p := rfl
  rw [h3]
  have e : ∀ i, a i * (ipR J (S i) p - ∑ j, a j * ipR J (S i) (S j)) =
      a i * ipR J (S i) p - a i * ∑ j, ipR J (S i) (S j) * a j := by
    intro i
    rw [mul_sub]
    congr 2
    exact Finset.sum_congr rfl fun j _ => mul_comm _ _
  simp only [e, Finset.sum_sub_distrib]
  ring

theorem gram_symm {ι : Type*} (J : ZMod n → ℝ) (S : ι → ZMod n → ℝ) :
    (of fun i j => ipR J (S i) (S j) : Matrix ι ι ℝ)ᵀ = of fun i j => ipR J (S i) (S j) := by
  ext i j
  exact ip_comm _ _ _

theorem power_nonneg {J : ZMod n → ℝ} (hJ : ∀ f, 0 < J f) (r : ZMod n → ℝ) : 0 ≤ power J r :=
  Finset.sum_nonneg fun f _ => div_nonneg (by positivity) (hJ f).le

/-- The pseudo-inverse of the Gram matrix of any family of templates gives the least-squares
amplitudes. -/
theorem gram_lsq {ι : Type*} [Fintype ι] {J : ZMod n → ℝ} (hJ : ∀ f, 0 < J f) (p : ZMod n → ℝ)
    (S : ι → ZMod n → ℝ) :
    let G : Matrix ι ι ℝ := of fun i j => ipR J (S i) (S j)
    let q : ι → ℝ := fun i => ipR J (S i) p
    G *ᵥ (pinv G *ᵥ q) = q ∧
    ipR J p p - (pinv G *ᵥ q) ⬝ᵥ q = power J (resTrace p S (pinv G *ᵥ q)) ∧
    ∀ a, power J (resTrace p S (pinv G *ᵥ q)) ≤ power J (resTrace p S a) := by
  intro G q
  have h := pinv_lsq (gram_symm J S) q (ipR J p p) (fun a => by
    have := power_nonneg hJ (resTrace p S a)
    rwa [power_resTrace] at this)
  refine ⟨h.1, ?_, fun a => ?_⟩
  · rw [power_resTrace]; exact h.2.2
  · rw [power_resTrace, power_resTrace]
    rw [← h.2.2]; exact h.2.1 a

/-! ### The matrices of the code are Gram matrices -/

omit [NeZero n] in
theorem delayed_zero (T : Fin (nb + 1) → ZMod n → ℝ) (t : ZMod n) : delayed T t 0 = roll (T 0) t :=
  if_pos rfl

omit [NeZero n] in
theorem delayed_ne (T : Fin (nb + 1) → ZMod n → ℝ) (t : ZMod n) {i : Fin (nb + 1)} (h : i ≠ 0) :
    delayed T t i = T i := if_neg h

theorem Pfs_eq (T : Fin (nb + 1) → ZMod n → ℝ) (J : ZMod n → ℝ) (i j : Fin (nb + 1)) :
    Pfs (sbtemplatef T) J i j = ipR J (T i) (T j) := by
  unfold Pfs Pf
  rw [of_apply, re_sum_div]
  rfl

theorem ip_phase (J : ZMod n → ℝ) (t : ZMod n) (x y : ZMod n → ℂ) :
    ip J (fun f => e (-(t * f)) * x f) (fun f => e (-(t * f)) * y f) = ip J x y := by
  refine Finset.sum_congr rfl fun f _ => ?_
  congr 2
  rw [map_mul, conj_e]
  have : e (-(-(t * f))) * e (-(t * f)) = 1 := by rw [← e_add]; simp
  calc _ = (e (-(-(t * f))) * e (-(t * f))) * (starRingEnd ℂ (x f) * y f) := by ring
    _ = _ := by rw [this, one_mul]

theorem ipR_roll_roll (J : ZMod n → ℝ) (x y : ZMod n → ℝ) (t : ZMod n) :
    ipR J (roll x t) (roll y t) = ipR J x y := by
  unfold ipR
  simp only [fftR_roll, mul_div_assoc]
  exact ip_phase J t _ _

theorem ifft_re (x : ZMod n → ℂ) (t : ZMod n) :
    (ifft x t * n).re = (∑ f, e (f * t) * x f).re := by
  rw [← ifft_times_n, Complex.mul_re]
  simp

theorem P0_eq (T : Fin (nb + 1) → ZMod n → ℝ) (J : ZMod n → ℝ) (i j : Fin (nb + 1)) (t : ZMod n) :
    P0 (sbtemplatef T) J i j t = ipR J (roll (T i) t) (T j) := by
  unfold P0
  rw [ifft_re]
  have h : ∀ f, e (f * t) * Pf (sbtemplatef T) J i j f =
      starRingEnd ℂ (fftR (roll (T i) t) f / n) / (J f : ℂ) * (fftR (T j) f / n) := by
    intro f
    rw [fftR_roll, Pf, sbtemplatef, sbtemplatef]
    simp only [map_div₀, map_mul, conj_e, neg_neg]
    rw [mul_comm f t]
    ring
  simp only [h]
  rw [re_sum_div]
  rfl

omit [NeZero n] in
theorem roll_zero (x : ZMod n → ℝ) : roll x 0 = x := by funext i; simp [roll]

theorem slice_P_eq (T : Fin (nb + 1) → ZMod n → ℝ) (J : ZMod n → ℝ) (t : ZMod n) :
    slice (P (sbtemplatef T) J) t = of fun i j => ipR J (delayed T t i) (delayed T t j) := by
  have h1 : ∀ i j, i ≤ j → P1 (sbtemplatef T) J i j t = ipR J (delayed T t i) (delayed T t j) := by
    intro i j hij
    unfold P1
    by_cases hi : i = 0
    · by_cases hj : j = 0
      · rw [if_pos ⟨hi, hj⟩, P0_eq, roll_zero, hi, hj, delayed_zero, ipR_roll_roll]
      · rw [if_neg (fun h => hj h.2), if_neg (fun h => h.1 hi), P0_eq, hi, delayed_zero,
          delayed_ne T t hj]
    · have hj : j ≠ 0 := by
        rintro rfl
        exact hi (le_antisymm hij (Fin.zero_le i))
      rw [if_neg (fun h => hi h.1), if_pos ⟨hi, hj⟩, P0_eq, roll_zero, delayed_ne T t hi,
        delayed_ne T t hj]
  ext i j
  rw [slice, of_apply, of_apply, P]
  by_cases h : i > j
  · rw [if_pos h, h1 j i h.le]
    exact ip_comm _ _ _
  · rw [if_neg h, h1 i j (not_lt.1 h)]

theorem P_eq (T : Fin (nb + 1) → ZMod n → ℝ) (J : ZMod n → ℝ) (i j : Fin (nb + 1)) (t : ZMod n) :
    P (sbtemplatef T) J i j t = ipR J (delayed T t i) (delayed T t j) := by
  have := congrFun (congrFun (slice_P_eq T J t) i) j
  simpa [slice] using this

theorem ptEntry_eq (T : Fin (nb + 1) → ZMod n → ℝ) (J : ZMod n → ℝ) (t : ZMod n)
    (i j : Fin (nb + 1)) :
    ptEntry (Pfs (sbtemplatef T) J) (P (sbtemplatef T) J) t i j =
      ipR J (delayed T t i) (delayed T t j) := by
  unfold ptEntry
  by_cases hi : i = 0
  · by_cases hj : j = 0
    · rw [if_pos ⟨hi, hj⟩, Pfs_eq, hi, hj, delayed_zero, ipR_roll_roll]
    · rw [if_neg (fun h => hj h.2), if_neg (fun h => h.1 hi), if_pos hi, P_eq]
  · by_cases hj : j = 0
    · rw [if_neg (fun h => hi h.1), if_neg (fun h => h.2 hj), if_neg hi, P_eq]
      exact ip_comm _ _ _
    · rw [if_neg (fun h => hi h.1), if_pos ⟨hi, hj⟩, Pfs_eq, delayed_ne T t hi, delayed_ne T t hj]

theorem qt_eq (T : Fin (nb + 1) → ZMod n → ℝ) (J : ZMod n → ℝ) (p : ZMod n → ℝ) (t : ZMod n)
    (i : Fin (nb + 1)) :
    qt (phi (sbtemplatef T) J) p t i = ipR J (delayed T t i) p := by
  unfold qt
  by_cases hi : i = 0
  · rw [if_pos hi, ifft_times_n, hi, delayed_zero]
    have h : ∀ f, e (f * t) * qf (phi (sbtemplatef T) J) p 0 f =
        starRingEnd ℂ (fftR (roll (T 0) t) f / n) / (J f : ℂ) * (fftR p f / n) := by
      intro f
      rw [fftR_roll, qf, phi, sbtemplatef, pulsef]
      simp only [map_div₀, map_mul, conj_e, neg_neg]
      rw [mul_comm f t]
      ring
    simp only [h]
    rw [re_sum_div]
    rfl
  · rw [if_neg hi, delayed_ne T t hi]
    unfold qf phi sbtemplatef pulsef
    rw [re_sum_div]
    rfl

theorem chi2base_eq (J : ZMod n → ℝ) (p : ZMod n → ℝ) : chi2base J p = ipR J p p := by
  unfold chi2base pulsef
  rw [re_sum_div]
  rfl

omit [NeZero n] in
theorem psddnu_eq (psd : ZMod n → ℝ) (fs : ℝ) : psddnu psd fs = noise psd fs := by
  funext f
  unfold psddnu noise
  have : (1 : ℝ) / (n * (1 / fs)) = fs / n := by
    rw [mul_one_div, one_div_div]
  simp only [this]
  by_cases h : f = 0
  · simp only [if_pos h]
  · simp only [if_neg h]

theorem noise_pos {psd : ZMod n → ℝ} {fs : ℝ} (hn : n ≠ 1) (hpsd : ∀ f, f ≠ 0 → 0 < psd f)
    (hfs : 0 < fs) (f : ZMod n) : 0 < noise psd fs f := by
  have h0 : 0 < n := Nat.pos_of_ne_zero (NeZero.ne n)
  have h1 : (1 : ZMod n) ≠ 0 := by
    have : Fact (1 < n) := ⟨by omega⟩
    exact one_ne_zero
  unfold noise
  refine mul_pos ?_ (by positivity)
  split_ifs with h
  · exact hpsd 1 h1
  · exact hpsd f h

/-! ### The reported delay and residual -/

omit [NeZero n] in
/-- The delay is a whole number of bins, congruent to the chosen index. -/
theorem tdel_int (fs : ℝ) (ind : ℤ) :
    ∃ m : ℤ, tdel n fs ind = m / fs ∧ (m : ZMod n) = (ind : ZMod n) := by
  unfold tdel
  by_cases h : (ind : ℝ) > (n : ℝ) / 2
  · refine ⟨ind - n, ?_, by simp⟩
    simp only [if_pos h]; push_cast; ring
  · refine ⟨ind, ?_, rfl⟩
    simp only [if_neg h]; ring

theorem omega_int (fs : ℝ) (f : ZMod n) :
    ∃ m : ℤ, omega fs f = 2 * Real.pi * (m * (fs / n)) ∧ (m : ZMod n) = f := by
  have hd : (1 : ℝ) / (n * (1 / fs)) = fs / n := by rw [mul_one_div, one_div_div]
  unfold omega
  simp only [hd]
  by_cases h : (f.val : ℝ) * (fs / n) > n * (fs / n) / 2
  · refine ⟨(f.val : ℤ) - n, ?_, by simp⟩
    rw [if_pos h]; push_cast; ring
  · refine ⟨(f.val : ℤ), ?_, by simp⟩
    rw [if_neg h]; push_cast; ring

theorem phase_eq (fs : ℝ) (hfs : fs ≠ 0) (ind : ℤ) (f : ZMod n) :
    Complex.exp (-(Complex.I * (omega fs f : ℂ) * (tdel n fs ind : ℂ))) =
      e (-((ind : ZMod n) * f)) := by
  obtain ⟨m, hm, hm'⟩ := tdel_int (n := n) fs ind
  obtain ⟨k, hk, hk'⟩ := omega_int (n := n) fs f
  have hn : (n : ℂ) ≠ 0 := Nat.cast_ne_zero.2 (NeZero.ne n)
  have hfs' : (fs : ℂ) ≠ 0 := Complex.ofReal_ne_zero.2 hfs
  have : (-((ind : ZMod n) * f)) = ((-(m * k) : ℤ) : ZMod n) := by
    push_cast; rw [hm', hk']
  rw [this, e, ZMod.stdAddChar_coe, hm, hk]
  congr 1
  push_cast
  field_simp

theorem ifft_div_n (y : ZMod n → ℝ) (m : ZMod n) :
    ifft (fun f => fftR y f / n) m * n = (y m : ℂ) := by
  have hn : (n : ℂ) ≠ 0 := Nat.cast_ne_zero.2 (NeZero.ne n)
  have h : ifft (fun f => fftR y f / n) m * n = ifft (fft fun j => (y j : ℂ)) m := by
    rw [ifft_apply, ifft_apply, mul_assoc, Finset.sum_mul]
    congr 1
    refine Finset.sum_congr rfl fun f _ => ?_
    rw [show fft (fun j => (y j : ℂ)) f = fftR y f from rfl]
    field_simp
  rw [h, ifft_fft]

theorem resid_eq (T : Fin (nb + 1) → ZMod n → ℝ) (fs : ℝ) (hfs : fs ≠ 0) (p : ZMod n → ℝ)
    (a : Fin (nb + 1) → ℝ) (ind : ℤ) :
    resid (sbtemplatef T) fs p a (tdel n fs ind) = resTrace p (delayed T (ind : ZMod n)) a := by
  funext m
  unfold resid resTrace
  have h : ∀ f, (∑ i, (a i : ℂ) * sbtemplatef T i f * (if i = 0 then
      Complex.exp (-(Complex.I * (omega fs f : ℂ) * (tdel n fs ind : ℂ))) else 1)) =
      fftR (fun τ => ∑ i, a i * delayed T (ind : ZMod n) i τ) f / n := by
    intro f
    have h1 := fftR_resTrace (fun _ => 0) (delayed T (ind : ZMod n)) a f
    have h2 : resTrace (fun _ => 0) (delayed T (ind : ZMod n)) a =
        fun τ => (-1) * ∑ i, a i * delayed T (ind : ZMod n) i τ := by
      funext τ; simp [resTrace]
    rw [h2, fftR_smul, fftR_const] at h1
    have h3 : fftR (fun τ => ∑ i, a i * delayed T (ind : ZMod n) i τ) f / n =
        ∑ i, (a i : ℂ) * (fftR (delayed T (ind : ZMod n) i) f / n) := by
      have : (if f = 0 then (n : ℂ) * ((0 : ℝ) : ℂ) else 0) = 0 := by simp
      rw [this] at h1
      push_cast at h1
      linear_combination -h1
    rw [h3]
    refine Finset.sum_congr rfl fun i _ => ?_
    by_cases hi : i = 0
    · rw [if_pos hi, phase_eq fs hfs, hi, delayed_zero, fftR_roll, sbtemplatef]
      ring
    · rw [if_neg hi, delayed_ne _ _ hi, sbtemplatef]
      ring
  simp only [h]
  rw [ifft_div_n, Complex.ofReal_re]

/-! ### The window search -/

omit [NeZero n] in
theorem pickIdx_ok {chi : ZMod n → ℝ} {win : List ℤ} {ind : ℤ} (h : pickIdx chi win = .ok ind) :
    ind ∈ win ∧ (∀ j ∈ win, chi (ind : ZMod n) ≤ chi (j : ZMod n)) ∧
      (∀ i ∈ win, -(n : ℤ) ≤ i ∧ i < n) := by
  unfold pickIdx at h
  split_ifs at h with hr
  push Not at hr
  cases win with
  | nil => simp [OF.argminOn] at h
  | cons a l =>
    simp only [OF.argminOn] at h
    obtain ⟨h1, h2, h3⟩ := OF.argminGo_spec (OF.asIdx chi) l a
    cases h
    refine ⟨?_, ?_, hr⟩
    · rcases h1 with h1 | h1
      · rw [h1]; simp
      · simp [h1]
    · intro j hj
      rcases List.mem_cons.1 hj with rfl | hj
      · exact h2
      · exact h3 j hj

omit [NeZero n] in
theorem pickIdx_defined {chi : ZMod n → ℝ} {win : List ℤ} (h0 : win ≠ [])
    (h : ∀ i ∈ win, -(n : ℤ) ≤ i ∧ i < n) : ∃ ind, pickIdx chi win = .ok ind := by
  unfold pickIdx
  rw [if_neg (by push Not; exact h)]
  cases win with
  | nil => exact absurd rfl h0
  | cons a l => exact ⟨_, rfl⟩

omit [NeZero n] in
theorem wrapIdx_cast (i : ℤ) : ((wrapIdx n i : ℤ) : ZMod n) = (i : ZMod n) := by
  unfold wrapIdx
  have h1 : (((if i < 0 then (n : ℤ) + i else i) : ℤ) : ZMod n) = (i : ZMod n) := by
    split_ifs <;> simp
  simp only
  by_cases h : (if i < 0 then (n : ℤ) + i else i) ≥ n
  · rw [if_pos h, ← h1]
    rw [ZMod.intCast_eq_intCast_iff]
    exact Int.mod_modEq _ _
  · rw [if_neg h, h1]

theorem wrapIdx_range {i : ℤ} (h : -(n : ℤ) ≤ i) : 0 ≤ wrapIdx n i ∧ wrapIdx n i < n := by
  have h0 : (0 : ℤ) < n := by exact_mod_cast Nat.pos_of_ne_zero (NeZero.ne n)
  unfold wrapIdx
  simp only
  by_cases h1 : (if i < 0 then (n : ℤ) + i else i) ≥ n
  · rw [if_pos h1]
    exact ⟨Int.emod_nonneg _ h0.ne', Int.emod_lt_of_pos _ h0⟩
  · rw [if_neg h1]
    constructor
    · split_ifs <;> omega
    · omega

/-! ### Unfolding the setup -/

theorem setup_ok {T : Fin (nb + 1) → ZMod n → ℝ} {psd : ZMod n → ℝ} {fs : ℝ} {F : Filt n nb}
    (h : setup T psd fs = .ok F) :
    n ≠ 1 ∧ nb ≠ 1 ∧ F.psddnu = noise psd fs ∧ F.phi = phi (sbtemplatef T) (noise psd fs) ∧
    F.Pfs = Pfs (sbtemplatef T) (noise psd fs) ∧ F.P = P (sbtemplatef T) (noise psd fs) ∧
    F.sbf = sbtemplatef T ∧ F.sbt = T ∧
    F.B = (of fun i j => ipR (noise psd fs) (T i.succ) (T j.succ)) ∧ F.iB = pinv F.B := by
  unfold setup at h
  split_ifs at h with h1 h2
  cases h
  rw [psddnu_eq]
  refine ⟨h1, h2, rfl, rfl, rfl, rfl, rfl, rfl, ?_, rfl⟩
  ext i j
  simp only [of_apply, P0_eq, roll_zero]

/-- Amplitudes and chi2 of the unconstrained fit at one delay. -/
theorem delay_fit {T : Fin (nb + 1) → ZMod n → ℝ} {psd : ZMod n → ℝ} {fs : ℝ} {F : Filt n nb}
    (h : setup T psd fs = .ok F) (hpsd : ∀ f, f ≠ 0 → 0 < psd f) (hfs : 0 < fs)
    (p : ZMod n → ℝ) (t : ZMod n) :
    chi2T F.psddnu F.phi (getiP F.P) p t =
      chi2 (noise psd fs) p T t (aT F.phi (getiP F.P) p t) ∧
    ∀ a, chi2 (noise psd fs) p T t (aT F.phi (getiP F.P) p t) ≤ chi2 (noise psd fs) p T t a := by
  obtain ⟨h1, -, hJ, hphi, -, hP, -⟩ := setup_ok h
  have hpos := noise_pos h1 hpsd hfs
  have hq : qt F.phi p t = fun i => ipR (noise psd fs) (delayed T t i) p := by
    funext i; rw [hphi, qt_eq]
  have key := gram_lsq hpos p (delayed T t)
  have ha : aT F.phi (getiP F.P) p t =
      pinv (of fun i j => ipR (noise psd fs) (delayed T t i) (delayed T t j)) *ᵥ
        (fun i => ipR (noise psd fs) (delayed T t i) p) := by
    rw [aT, getiP, hP, slice_P_eq, hq]
  refine ⟨?_, ?_⟩
  · rw [chi2T, hJ, chi2base_eq, ha, hq, chi2]
    exact key.2.1
  · rw [ha]; exact key.2.2

/-! ### Masked fits -/

theorem sum_expand {ι : Type*} [Fintype ι] (m : ι → Bool) (a : {i // m i = true} → ℝ) (g : ι → ℝ) :
    ∑ i : {i // m i = true}, a i * g i.1 = ∑ i, expand m a i * g i := by
  classical
  have h : ∀ i, expand m a i * g i = if h : m i = true then a ⟨i, h⟩ * g i else 0 := by
    intro i; unfold expand; split_ifs <;> simp
  simp only [h]
  rw [Finset.sum_dite]
  simp only [Finset.sum_const_zero, add_zero]
  refine Fintype.sum_equiv
    ⟨fun i => ⟨i.1, Finset.mem_filter.2 ⟨Finset.mem_univ _, i.2⟩⟩, fun i => ⟨i.1, (Finset.mem_filter.1 i.2).2⟩,
      fun i => rfl, fun i => rfl⟩ _ _ fun i => rfl

omit [NeZero n] in
theorem resTrace_expand {ι : Type*} [Fintype ι] (p : ZMod n → ℝ) (S : ι → ZMod n → ℝ)
    (m : ι → Bool) (a : {i // m i = true} → ℝ) :
    resTrace p (fun i : {i // m i = true} => S i.1) a = resTrace p S (expand m a) := by
  funext τ
  unfold resTrace
  rw [sum_expand m a fun i => S i τ]

theorem expand_off {ι : Type*} {m : ι → Bool} {a : {i // m i = true} → ℝ} {i : ι}
    (h : m i = false) : expand m a i = 0 := dif_neg (by simp [h])

theorem expand_restrict {ι : Type*} {m : ι → Bool} {b : ι → ℝ} (h : ∀ i, m i = false → b i = 0) :
    expand m (fun i => b i.1) = b := by
  funext i
  unfold expand
  split_ifs with hi
  · rfl
  · exact (h i (by simpa using hi)).symm

/-- The masked least-squares problem. -/
theorem mask_lsq {ι : Type*} [Fintype ι] {J : ZMod n → ℝ} (hJ : ∀ f, 0 < J f) (p : ZMod n → ℝ)
    (S : ι → ZMod n → ℝ) (m : ι → Bool) :
    let G : Matrix {i // m i = true} {i // m i = true} ℝ :=
      of fun i j => ipR J (S i.1) (S j.1)
    let a := expand m (pinv G *ᵥ fun i => ipR J (S i.1) p)
    ipR J p p - ∑ i, a i * ipR J (S i) p = power J (resTrace p S a) ∧
    (∀ b, (∀ i, m i = false → b i = 0) → power J (resTrace p S a) ≤ power J (resTrace p S b)) := by
  intro G a
  have key := gram_lsq hJ p (fun i : {i // m i = true} => S i.1)
  refine ⟨?_, fun b hb => ?_⟩
  · rw [← resTrace_expand, ← key.2.1, ← sum_expand m _ fun i => ipR J (S i) p]
    rfl
  · have h2 := key.2.2 (fun i => b i.1)
    rw [resTrace_expand, resTrace_expand, expand_restrict hb] at h2
    exact h2

theorem maskFit_cases {F : Filt n nb} {p : ZMod n → ℝ} {t : ZMod n} {m : Fin (nb + 1) → Bool}
    {a : Fin (nb + 1) → ℝ} (h : maskFit F p t m = .ok a) :
    ones m ≠ 1 ∧ a = expand m (pinv (of fun i j => ptEntry F.Pfs F.P t i.1 j.1) *ᵥ
      fun i => qt F.phi p t i.1) := by
  unfold maskFit getPt at h
  by_cases h1 : ones m = 1
  · rw [if_pos h1] at h; cases h
  · rw [if_neg h1] at h; cases h
    exact ⟨h1, rfl⟩

theorem maskFit_spec {T : Fin (nb + 1) → ZMod n → ℝ} {psd : ZMod n → ℝ} {fs : ℝ} {F : Filt n nb}
    (hF : setup T psd fs = .ok F) (hpsd : ∀ f, f ≠ 0 → 0 < psd f) (hfs : 0 < fs)
    {p : ZMod n → ℝ} {t : ZMod n} {m : Fin (nb + 1) → Bool} {a : Fin (nb + 1) → ℝ}
    (h : maskFit F p t m = .ok a) :
    (∀ i, m i = false → a i = 0) ∧ conChi2 F p t a = chi2 (noise psd fs) p T t a ∧
    ∀ b, (∀ i, m i = false → b i = 0) →
      chi2 (noise psd fs) p T t a ≤ chi2 (noise psd fs) p T t b := by
  obtain ⟨-, rfl⟩ := maskFit_cases h
  obtain ⟨h1, -, hJ, hphi, hPfs, hP, -⟩ := setup_ok hF
  have hpos := noise_pos h1 hpsd hfs
  have key := mask_lsq hpos p (delayed T t) m
  simp only [conChi2, hJ, hphi, hPfs, hP, qt_eq, ptEntry_eq, chi2base_eq, chi2]
  exact ⟨fun i hi => expand_off hi, key.1, key.2⟩

/-! ### Explicit solutions for independent templates -/

/-- No non-trivial combination of the templates vanishes. -/
def Indep {ι : Type*} [Fintype ι] (S : ι → ZMod n → ℝ) : Prop :=
  ∀ x : ι → ℝ, (∀ τ, ∑ i, x i * S i τ = 0) → x = 0

theorem fftR_eq_zero {x : ZMod n → ℝ} (h : ∀ f, fftR x f = 0) : ∀ τ, x τ = 0 := by
  intro τ
  have h1 : ifft (fft fun j => (x j : ℂ)) τ = (x τ : ℂ) := by rw [ifft_fft]
  have h2 : (fft fun j => (x j : ℂ)) = fun _ => 0 := by
    funext f; exact h f
  rw [h2, ifft_apply] at h1
  simp at h1
  exact Complex.ofReal_eq_zero.1 h1.symm

theorem power_eq_zero {J : ZMod n → ℝ} (hJ : ∀ f, 0 < J f) {r : ZMod n → ℝ} (h : power J r = 0) :
    ∀ τ, r τ = 0 := by
  refine fftR_eq_zero fun f => ?_
  have h1 := (Finset.sum_eq_zero_iff_of_nonneg (fun f _ => div_nonneg
    (by positivity : 0 ≤ ‖fftR r f / n‖ ^ 2) (hJ f).le)).1 h f (Finset.mem_univ f)
  have h2 : ‖fftR r f / n‖ ^ 2 = 0 := (div_eq_zero_iff.1 h1).resolve_right (hJ f).ne'
  have h3 : fftR r f / (n : ℂ) = 0 := by simpa using h2
  exact (div_eq_zero_iff.1 h3).resolve_right (Nat.cast_ne_zero.2 (NeZero.ne n))

theorem ipR_resTrace {ι : Type*} [Fintype ι] (J : ZMod n → ℝ) (x p : ZMod n → ℝ)
    (S : ι → ZMod n → ℝ) (a : ι → ℝ) :
    ipR J x (resTrace p S a) = ipR J x p - ∑ i, a i * ipR J x (S i) := by
  unfold ipR
  simp only [fftR_resTrace]
  rw [ip_sub_right, ip_sum_right]

theorem lsq_explicit {ι : Type*} [Fintype ι] {J : ZMod n → ℝ} (hJ : ∀ f, 0 < J f)
    {p : ZMod n → ℝ} {S : ι → ZMod n → ℝ} (hS : Indep S) {a : ι → ℝ}
    (h : ∀ i, ipR J (S i) (resTrace p S a) = 0) :
    pinv (of fun i j => ipR J (S i) (S j) : Matrix ι ι ℝ) *ᵥ (fun i => ipR J (S i) p) = a := by
  set G : Matrix ι ι ℝ := of fun i j => ipR J (S i) (S j) with hG
  have hq : (fun i => ipR J (S i) p) = G *ᵥ a := by
    funext i
    have := h i
    rw [ipR_resTrace, sub_eq_zero] at this
    rw [this, mulVec, dotProduct]
    exact Finset.sum_congr rfl fun j _ => mul_comm _ _
  rw [hq]
  refine pinv_mulVec_of_ker (gram_symm J S) a fun x hx => hS x ?_
  have h1 : power J (resTrace (fun _ => 0) S x) = 0 := by
    rw [power_resTrace, ← hG, hx]
    have : ∀ y, ipR J y (fun _ => 0) = 0 := by
      intro y
      refine Finset.sum_eq_zero fun f _ => ?_
      simp [fftR_const]
    simp only [this]
    simp [dotProduct]
  intro τ
  have := power_eq_zero hJ h1 τ
  simpa [resTrace] using this

omit [NeZero n] in
theorem Indep.mask {ι : Type*} [Fintype ι] {S : ι → ZMod n → ℝ} (hS : Indep S) (m : ι → Bool) :
    Indep (fun i : {i // m i = true} => S i.1) := by
  intro x hx
  have h := hS (expand m x) fun τ => by rw [← sum_expand m x fun i => S i τ]; exact hx τ
  funext i
  have := congrFun h i.1
  rw [expand, dif_pos i.2] at this
  exact this

theorem mask_explicit {ι : Type*} [Fintype ι] {J : ZMod n → ℝ} (hJ : ∀ f, 0 < J f)
    {p : ZMod n → ℝ} {S : ι → ZMod n → ℝ} (hS : Indep S) {m : ι → Bool} {a : ι → ℝ}
    (hoff : ∀ i, m i = false → a i = 0)
    (h : ∀ i, m i = true → ipR J (S i) (resTrace p S a) = 0) :
    expand m (pinv (of fun i j => ipR J (S i.1) (S j.1) :
      Matrix {i // m i = true} {i // m i = true} ℝ) *ᵥ (fun i => ipR J (S i.1) p)) = a := by
  have := lsq_explicit hJ (p := p) (hS.mask m) (a := fun i => a i.1) (fun i => by
    rw [resTrace_expand, expand_restrict hoff]
    exact h i.1 i.2)
  rw [this, expand_restrict hoff]

/-- Explicit masked fit. -/
theorem maskFit_explicit {T : Fin (nb + 1) → ZMod n → ℝ} {psd : ZMod n → ℝ} {fs : ℝ}
    {F : Filt n nb} (hF : setup T psd fs = .ok F) (hpsd : ∀ f, f ≠ 0 → 0 < psd f) (hfs : 0 < fs)
    {p : ZMod n → ℝ} {t : ZMod n} {m : Fin (nb + 1) → Bool} {a : Fin (nb + 1) → ℝ}
    (hS : Indep (delayed T t)) (hm : ones m ≠ 1) (hoff : ∀ i, m i = false → a i = 0)
    (h : ∀ i, m i = true → ipR (noise psd fs) (delayed T t i) (resTrace p (delayed T t) a) = 0) :
    maskFit F p t m = .ok a := by
  obtain ⟨h1, -, hJ, hphi, hPfs, hP, -⟩ := setup_ok hF
  have hpos := noise_pos h1 hpsd hfs
  unfold maskFit getPt
  rw [if_neg hm]
  simp only [hphi, hPfs, hP, qt_eq, ptEntry_eq]
  rw [mask_explicit hpos hS hoff h]

theorem fullPt_eq {T : Fin (nb + 1) → ZMod n → ℝ} {psd : ZMod n → ℝ} {fs : ℝ} {F : Filt n nb}
    (hF : setup T psd fs = .ok F) (t : ZMod n) :
    fullPt F t = of fun i j => ipR (noise psd fs) (delayed T t i) (delayed T t j) := by
  obtain ⟨-, -, -, -, hPfs, hP, -⟩ := setup_ok hF
  unfold fullPt
  simp only [hPfs, hP, ptEntry_eq]

theorem qt_setup {T : Fin (nb + 1) → ZMod n → ℝ} {psd : ZMod n → ℝ} {fs : ℝ} {F : Filt n nb}
    (hF : setup T psd fs = .ok F) (p : ZMod n → ℝ) (t : ZMod n) :
    qt F.phi p t = fun i => ipR (noise psd fs) (delayed T t i) p := by
  obtain ⟨-, -, -, hphi, -⟩ := setup_ok hF
  funext i; rw [hphi, qt_eq]

/-- The negative gradient at `b`, relative to the unconstrained minimum, is the correlation of
the templates with the residual of `b`. -/
theorem neg_grad {T : Fin (nb + 1) → ZMod n → ℝ} {psd : ZMod n → ℝ} {fs : ℝ} {F : Filt n nb}
    (hF : setup T psd fs = .ok F) (hpsd : ∀ f, f ≠ 0 → 0 < psd f) (hfs : 0 < fs)
    (p : ZMod n → ℝ) (t : ZMod n) (b : Fin (nb + 1) → ℝ) (i : Fin (nb + 1)) :
    -(fullPt F t *ᵥ (b - pinv (fullPt F t) *ᵥ qt F.phi p t)) i =
      ipR (noise psd fs) (delayed T t i) (resTrace p (delayed T t) b) := by
  have hpos := noise_pos (setup_ok hF).1 hpsd hfs
  have key := (gram_lsq hpos p (delayed T t)).1
  rw [← fullPt_eq hF t, ← qt_setup hF p t] at key
  rw [mulVec_sub, key, ipR_resTrace, qt_setup hF p t, fullPt_eq hF t]
  simp only [Pi.sub_apply, mulVec, dotProduct, of_apply]
  rw [neg_sub]
  congr 1
  exact Finset.sum_congr rfl fun j _ => mul_comm _ _

/-- Gram matrix for white noise. -/
theorem ipR_flat (c : ℝ) (hc : c ≠ 0) (x y : ZMod n → ℝ) :
    ipR (fun _ => c) x y = (∑ τ, x τ * y τ) / (n * c) := by
  have hn : (n : ℝ) ≠ 0 := Nat.cast_ne_zero.2 (NeZero.ne n)
  have hself : ∀ z : ZMod n → ℝ, ipR (fun _ => c) z z = (∑ τ, z τ ^ 2) / (n * c) := by
    intro z
    have h := power_eq_ip (fun _ => c) z
    rw [show ipR (fun _ => c) z z = power (fun _ => c) z from h.symm, power, ← Finset.sum_div]
    have h2 : ∀ f, ‖fftR z f / (n : ℂ)‖ ^ 2 = ‖fftR z f‖ ^ 2 / (n : ℝ) ^ 2 := by
      intro f; rw [norm_div, div_pow, Complex.norm_natCast]
    simp only [h2]
    rw [← Finset.sum_div, parseval]
    field_simp
  have hadd : ipR (fun _ => c) (fun τ => x τ + y τ) (fun τ => x τ + y τ) =
      ipR (fun _ => c) x x + 2 * ipR (fun _ => c) x y + ipR (fun _ => c) y y := by
    unfold ipR
    simp only [fftR_add, add_div]
    rw [ip_add_right, ip_comm, ip_add_right, ip_comm (n := n) _ (fun f => fftR x f / n + fftR y f / n),
      ip_add_right, ip_comm (n := n) _ (fun f => fftR y f / n) (fun f => fftR x f / n)]
    ring
  rw [hself, hself, hself] at hadd
  have hs : ∑ τ, (x τ + y τ) ^ 2 = ∑ τ, x τ ^ 2 + 2 * ∑ τ, x τ * y τ + ∑ τ, y τ ^ 2 := by
    rw [Finset.mul_sum, ← Finset.sum_add_distrib, ← Finset.sum_add_distrib]
    exact Finset.sum_congr rfl fun τ _ => by ring
  rw [hs] at hadd
  rw [add_div, add_div] at hadd
  have : (2 * ∑ τ, x τ * y τ) / (n * c) = 2 * ((∑ τ, x τ * y τ) / (n * c)) := mul_div_assoc _ _ _
  rw [this] at hadd
  linarith

omit [NeZero n] in
theorem winFit_ok {chi2 asig : ZMod n → ℝ} {fs : ℝ} {win : List ℤ} {w : WinFit}
    (h : winFit chi2 asig fs win = .ok w) : ∃ i ∈ win, w.tdel = i / fs ∧
      w.asig = asig ((i : ZMod n) - (n / 2 : ℕ)) ∧ w.chi2 = chi2 ((i : ZMod n) - (n / 2 : ℕ)) ∧
      ∀ j ∈ win, w.chi2 ≤ chi2 ((j : ZMod n) - (n / 2 : ℕ)) := by
  unfold winFit at h
  simp only at h
  cases hp : pickIdx (roll chi2 ((n / 2 : ℕ) : ZMod n)) win with
  | error e => rw [hp] at h; cases h
  | ok i =>
    rw [hp] at h
    simp only at h
    split_ifs at h
    all_goals
      cases h
      obtain ⟨h1, h2, -⟩ := pickIdx_ok hp
      exact ⟨i, h1, by simp [div_eq_mul_inv], rfl, rfl, h2⟩

omit [NeZero n] in
theorem winFits_ok {chi2 asig : ZMod n → ℝ} {fs : ℝ} {wins : List (List ℤ)} {ws : List WinFit}
    (h : winFits chi2 asig fs wins = .ok ws) :
    List.Forall₂ (fun (win : List ℤ) (w : WinFit) => ∃ i ∈ win, w.tdel = i / fs ∧
      w.asig = asig ((i : ZMod n) - (n / 2 : ℕ)) ∧ w.chi2 = chi2 ((i : ZMod n) - (n / 2 : ℕ)) ∧
      ∀ j ∈ win, w.chi2 ≤ chi2 ((j : ZMod n) - (n / 2 : ℕ))) wins ws := by
  induction wins generalizing ws with
  | nil => cases h; exact .nil
  | cons a l ih =>
    unfold winFits at h
    cases ha : winFit chi2 asig fs a with
    | error e => rw [ha] at h; cases h
    | ok w =>
      rw [ha] at h
      simp only at h
      cases hl : winFits chi2 asig fs l with
      | error e => rw [hl] at h; cases h
      | ok rs =>
        rw [hl] at h
        cases h
        exact .cons (winFit_ok ha) (ih hl)

theorem ofNsmb_window {p : ZMod n → ℝ} {F : Filt n nb} {iP} {fs : ℝ} {window : List ℤ} {lf : ℕ}
    {r : Fit n nb} (h : ofNsmb p F iP fs window lf = .ok r) : r.window = window.map (wrapIdx n) := by
  unfold ofNsmb at h
  simp only at h
  by_cases hnb : nb = 0
  · rw [if_pos hnb] at h
    split_ifs at h
  rw [if_neg hnb] at h
  cases hp : pickIdx (chi2T F.psddnu F.phi iP p) (window.map (wrapIdx n)) with
  | error e => rw [hp] at h; cases h
  | ok ind => rw [hp] at h; cases h; rfl

omit [NeZero n] in
theorem wrapIdx_id {i : ℤ} (h0 : 0 ≤ i) (h1 : i < n) : wrapIdx n i = i := by
  unfold wrapIdx
  simp only
  rw [if_neg (not_lt.2 h0), if_neg (not_le.2 h1)]

/-- Background-only sums of the code. -/
theorem bsum_eq {T : Fin (nb + 1) → ZMod n → ℝ} {psd : ZMod n → ℝ} {fs : ℝ} {F : Filt n nb}
    (hF : setup T psd fs = .ok F) (p : ZMod n → ℝ) :
    (fun i : Fin nb => (∑ f, qf F.phi p i.succ f).re) =
      fun i => ipR (noise psd fs) (T i.succ) p := by
  funext i
  have h := congrFun (qt_setup hF p 0) i.succ
  rw [qt, if_neg (Fin.succ_ne_zero i), delayed_ne _ _ (Fin.succ_ne_zero i)] at h
  exact h

/-- What `of_mb` returns. -/
theorem ofMb_ok {p : ZMod n → ℝ} {F : Filt n nb} {c : Fin nb → ℤ} {lf : ℕ}
    {a : Fin nb → ℝ} {x y : ℝ} (h : ofMb p F c lf = .ok (a, x, y)) :
    ∃ m : Fin nb → Bool, ones m ≠ 1 ∧
      (m = fun i => !disallowed (F.iB *ᵥ fun i => (∑ f, qf F.phi p i.succ f).re) c i) ∧
      a = expand m (pinv (F.B.submatrix (·.1) (·.1)) *ᵥ
        fun i => (∑ f, qf F.phi p i.1.succ f).re) ∧
      x = residChi2 F.psddnu (fun τ => p τ - ∑ i, F.sbt i.succ τ * a i) := by
  unfold ofMb at h
  simp only at h
  by_cases h1 : ones (fun i => !disallowed (F.iB *ᵥ fun i => (∑ f, qf F.phi p i.succ f).re) c i) = 1
  · rw [if_pos h1] at h; cases h
  · rw [if_neg h1] at h
    cases h
    exact ⟨_, h1, rfl, rfl, rfl⟩

/-- Every result of the polarity loop is one of its masked fits. -/
theorem conStep_mask {F : Filt n nb} {p : ZMod n → ℝ} {c : Fin (nb + 1) → ℤ} {t : ZMod n}
    {a : Fin (nb + 1) → ℝ} (h : conStep F p c t = .ok a) : ∃ m, maskFit F p t m = .ok a := by
  unfold conStep at h
  by_cases hnb : nb = 0
  · rw [if_pos hnb] at h; cases h
  rw [if_neg hnb] at h
  simp only at h
  cases h1 : maskFit F p t (keep (fullPt F t) c (pinv (fullPt F t) *ᵥ qt F.phi p t)
      (pinv (fullPt F t) *ᵥ qt F.phi p t)) with
  | error e => rw [h1] at h; cases h
  | ok a1 =>
    rw [h1] at h
    simp only at h
    cases h2 : (if keep (fullPt F t) c (pinv (fullPt F t) *ᵥ qt F.phi p t)
        (pinv (fullPt F t) *ᵥ qt F.phi p t) = keep (fullPt F t) c
          (pinv (fullPt F t) *ᵥ qt F.phi p t) a1 then .ok a1 else
          maskFit F p t (keep (fullPt F t) c (pinv (fullPt F t) *ᵥ qt F.phi p t) a1) :
          Except Err (Fin (nb + 1) → ℝ)) with
    | error e => rw [h2] at h; cases h
    | ok a2 =>
      rw [h2] at h
      simp only at h
      have ha2 : ∃ m, maskFit F p t m = .ok a2 := by
        split_ifs at h2
        · cases h2; exact ⟨_, h1⟩
        · exact ⟨_, h2⟩
      split_ifs at h
      · cases h; exact ha2
      · exact ⟨_, h⟩

/-- What `of_nsmb_con` returns. -/
theorem ofNsmbCon_ok {F : Filt n nb} {p : ZMod n → ℝ} {fs : ℝ} {c : Fin (nb + 1) → ℤ}
    {window : List ℤ} {wins : List (List ℤ)} {lf : ℕ} {r : ConFit n nb}
    (h : ofNsmbCon p F fs c window wins lf = .ok r) :
    firstErr F p c = none ∧
    ∃ ind, pickIdx (fun t => conChi2 F p t (conAmps F p c t)) window = .ok ind ∧
      winFits (fun t => conChi2 F p t (conAmps F p c t)) (fun t => conAmps F p c t 0) fs wins =
        .ok r.wins ∧
      r.amps = conAmps F p c (ind : ZMod n) ∧ r.tdelmin = tdel n fs ind ∧
      r.residT = resid F.sbf fs p r.amps r.tdelmin ∧ r.chi2min = residChi2 F.psddnu r.residT ∧
      r.chi2minlf = residChi2Lf F.psddnu r.residT lf := by
  unfold ofNsmbCon at h
  cases hf : firstErr F p c with
  | some e => rw [hf] at h; cases h
  | none =>
    rw [hf] at h
    simp only at h
    cases hp : pickIdx (fun t => conChi2 F p t (conAmps F p c t)) window with
    | error e => rw [hp] at h; cases h
    | ok ind =>
      rw [hp] at h
      simp only at h
      cases hw : winFits (fun t => conChi2 F p t (conAmps F p c t)) (fun t => conAmps F p c t 0) fs
          wins with
      | error e =>
        rw [hw] at h
        simp only at h
        split at h <;> cases h
      | ok ws =>
        rw [hw] at h
        simp only at h
        split at h
        · cases h
        · cases h
          exact ⟨rfl, ind, rfl, rfl, rfl, rfl, rfl, rfl, rfl⟩

theorem firstErr_none {F : Filt n nb} {p : ZMod n → ℝ} {c : Fin (nb + 1) → ℤ}
    (h : firstErr F p c = none) (t : ZMod n) : conStep F p c t = .ok (conAmps F p c t) := by
  unfold firstErr at h
  rw [List.findSome?_eq_none_iff] at h
  have := h t.val (List.mem_range.2 (ZMod.val_lt t))
  simp only [ZMod.natCast_val, ZMod.cast_id', id] at this
  unfold conAmps
  cases hs : conStep F p c t with
  | error e => rw [hs] at this; cases this
  | ok a => rfl

end Verif.Nsmb
