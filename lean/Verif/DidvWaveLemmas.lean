import Verif.DidvWaveSpec
import Verif.DidvLemmas
import Verif.DftLemmas

/-! Lemmas for the square-wave response. -/

namespace Verif.Didv
open Verif Dft

variable {n : ℕ} [NeZero n]

theorem freqIdx_neg (k : ZMod n) (h : 2 * k.val ≠ n) : freqIdx (-k) = -freqIdx k := by
  by_cases h0 : k = 0
  · subst h0
    simp [freqIdx]
  · have hv : k.val ≠ 0 := fun e => h0 ((ZMod.val_eq_zero k).1 e)
    have hlt := ZMod.val_lt k
    have hn : (-k).val = n - k.val := by
      have : NeZero k := ⟨h0⟩
      exact ZMod.val_neg_of_ne_zero k
    unfold freqIdx
    rw [hn]
    by_cases h1 : k.val ≤ (n - 1) / 2
    · rw [if_pos h1, if_neg (by omega)]
      omega
    · rw [if_neg h1, if_pos (by omega)]
      omega

theorem nearOne_ratio {P : ℕ} (hP : 0 < P) (hP' : P ≤ 10 ^ 8) (a : ℕ) :
    nearOne ((a : ℝ) / P) ↔ ∃ r : ℕ, a = P * (2 * r + 1) := by
  have hPr : (0 : ℝ) < P := by exact_mod_cast hP
  unfold nearOne
  constructor
  · intro h
    set q : ℤ := ⌊(a : ℝ) / P / 2⌋
    have hq : 0 ≤ q := Int.floor_nonneg.2 (by positivity)
    have h1 : |((a : ℤ) - P * (2 * q + 1) : ℤ)| < (1 : ℤ) := by
      have e : (((a : ℤ) - P * (2 * q + 1) : ℤ) : ℝ) = P * ((a : ℝ) / P - 2 * q - 1) := by
        push_cast
        field_simp
        ring
      have : |(((a : ℤ) - P * (2 * q + 1) : ℤ) : ℝ)| < 1 := by
        rw [e, abs_mul, abs_of_pos hPr]
        calc (P : ℝ) * |(a : ℝ) / P - 2 * q - 1| < P * (1 / 10 ^ 8) :=
              mul_lt_mul_of_pos_left h hPr
          _ ≤ 10 ^ 8 * (1 / 10 ^ 8) := by
              gcongr
              exact_mod_cast hP'
          _ = 1 := by norm_num
      exact_mod_cast this
    have h2 := abs_lt.1 h1
    refine ⟨q.toNat, ?_⟩
    have : (a : ℤ) = P * (2 * q + 1) := by omega
    have hq' : (q.toNat : ℤ) = q := Int.toNat_of_nonneg hq
    have : (a : ℤ) = ((P * (2 * q.toNat + 1) : ℕ) : ℤ) := by
      push_cast
      rw [hq']
      exact this
    exact_mod_cast this
  · rintro ⟨r, rfl⟩
    have e : ((P * (2 * r + 1) : ℕ) : ℝ) / P = 2 * r + 1 := by
      push_cast
      field_simp
    have hf : ⌊(2 * (r : ℝ) + 1) / 2⌋ = (r : ℤ) := by
      rw [Int.floor_eq_iff]
      push_cast
      constructor <;> linarith
    rw [e, hf]
    push_cast
    have : 2 * (r : ℝ) + 1 - 2 * r - 1 = 0 := by ring
    rw [this, abs_zero]
    norm_num

/-- The ratio of a bin frequency to the generator frequency. -/
theorem freq_ratio {dx sgfreq : ℝ} {P : ℕ} (h : HoldsPeriods n dx sgfreq P) (k : ZMod n) :
    fftfreq (1 / dx) k / sgfreq = (freqIdx k : ℝ) / P := by
  obtain ⟨hd, hs, hp, _, e⟩ := h
  have hn : (n : ℝ) ≠ 0 := Nat.cast_ne_zero.2 (NeZero.ne n)
  rw [← e]
  unfold fftfreq
  field_simp

theorem odd_mask {dx sgfreq : ℝ} {P : ℕ} (h : HoldsPeriods n dx sgfreq P) (k : ZMod n) :
    nearOne |fftfreq (1 / dx) k / sgfreq| ↔ ∃ m : ℤ, Odd m ∧ freqIdx k = P * m := by
  have e : |fftfreq (1 / dx) k / sgfreq| = ((freqIdx k).natAbs : ℝ) / P := by
    rw [freq_ratio h, abs_div, Nat.abs_cast, Nat.cast_natAbs, Int.cast_abs]
  rw [e, nearOne_ratio h.2.2.1 h.2.2.2.1]
  constructor
  · rintro ⟨r, hr⟩
    rcases Int.natAbs_eq (freqIdx k) with hk | hk
    · exact ⟨2 * r + 1, ⟨r, rfl⟩, by rw [hk, hr]; push_cast; ring⟩
    · exact ⟨-(2 * r + 1), ⟨-r - 1, by ring⟩, by rw [hk, hr]; push_cast; ring⟩
  · rintro ⟨m, ⟨r, rfl⟩, hm⟩
    rw [hm, Int.natAbs_mul, Int.natAbs_natCast]
    by_cases hr : 0 ≤ r
    · exact ⟨r.toNat, by congr 1; omega⟩
    · exact ⟨(-r - 1).toNat, by congr 1; omega⟩

theorem even_mask {dx sgfreq : ℝ} {P : ℕ} (h : HoldsPeriods n dx sgfreq P) (k : ZMod n) :
    nearOne (|fftfreq (1 / dx) k / sgfreq| + 1) ↔ ∃ m : ℤ, Even m ∧ freqIdx k = P * m := by
  have hp : (P : ℝ) ≠ 0 := Nat.cast_ne_zero.2 h.2.2.1.ne'
  have e : |fftfreq (1 / dx) k / sgfreq| + 1 = (((freqIdx k).natAbs + P : ℕ) : ℝ) / P := by
    rw [freq_ratio h, abs_div, Nat.abs_cast, Nat.cast_add, Nat.cast_natAbs, Int.cast_abs, add_div,
      div_self hp]
  rw [e, nearOne_ratio h.2.2.1 h.2.2.2.1]
  constructor
  · rintro ⟨r, hr⟩
    have hr : (freqIdx k).natAbs = P * (2 * r) := by
      have : P * (2 * r + 1) = P * (2 * r) + P := by ring
      omega
    rcases Int.natAbs_eq (freqIdx k) with hk | hk
    · exact ⟨2 * r, ⟨r, by ring⟩, by rw [hk, hr]; push_cast; ring⟩
    · exact ⟨-(2 * r), ⟨-r, by ring⟩, by rw [hk, hr]; push_cast; ring⟩
  · rintro ⟨m, ⟨r, rfl⟩, hm⟩
    refine ⟨r.natAbs, ?_⟩
    rw [hm, Int.natAbs_mul, Int.natAbs_natCast, ← two_mul, Int.natAbs_mul]
    simp
    ring

theorem squareCoeff_eq (amp duty : ℝ) {h : ℤ} (hh : h ≠ 0) :
    squareCoeff amp duty h = -Complex.I / (2 * Real.pi * h) * amp *
      (Complex.exp (-2 * Complex.I * Real.pi * h * duty) - 1) := by
  have hc : (-2 * Complex.I * Real.pi * h : ℂ) ≠ 0 := by
    have : (h : ℂ) ≠ 0 := Int.cast_ne_zero.2 hh
    simp [Real.pi_ne_zero, this]
  have hhc : (h : ℂ) ≠ 0 := Int.cast_ne_zero.2 hh
  have hpi : (Real.pi : ℂ) ≠ 0 := Complex.ofReal_ne_zero.2 Real.pi_ne_zero
  unfold squareCoeff
  rw [intervalIntegral.integral_const_mul, integral_exp_mul_complex hc]
  have e1 : Complex.exp (-2 * Complex.I * Real.pi * h * (1 : ℝ)) = 1 := by
    have := Complex.exp_int_mul_two_pi_mul_I (-h)
    rw [← this]
    congr 1
    push_cast
    ring
  rw [e1]
  have hI : Complex.I ≠ 0 := Complex.I_ne_zero
  field_simp
  rw [Complex.I_sq]
  ring

theorem squareCoeff_even_half (amp : ℝ) {h : ℤ} (hh : h ≠ 0) (he : Even h) :
    squareCoeff amp (1 / 2) h = 0 := by
  rw [squareCoeff_eq _ _ hh]
  obtain ⟨r, rfl⟩ := he
  have : Complex.exp (-2 * Complex.I * Real.pi * ((r + r : ℤ) : ℂ) * ((1 / 2 : ℝ) : ℂ)) = 1 := by
    rw [← Complex.exp_int_mul_two_pi_mul_I (-r)]
    congr 1
    push_cast
    ring
  rw [this, sub_self, mul_zero]

theorem squareCoeff_odd_half (amp : ℝ) {h : ℤ} (ho : Odd h) :
    squareCoeff amp (1 / 2) h = Complex.I / (Real.pi * h) * amp := by
  have hh : h ≠ 0 := by
    rintro rfl
    exact absurd ho (by decide)
  rw [squareCoeff_eq _ _ hh]
  obtain ⟨r, rfl⟩ := ho
  have : Complex.exp (-2 * Complex.I * Real.pi * ((2 * r + 1 : ℤ) : ℂ) * ((1 / 2 : ℝ) : ℂ)) = -1 := by
    have e : (-2 * Complex.I * Real.pi * ((2 * r + 1 : ℤ) : ℂ) * ((1 / 2 : ℝ) : ℂ)) =
        ((-r - 1 : ℤ) : ℂ) * (2 * Real.pi * Complex.I) + Real.pi * Complex.I := by
      push_cast
      ring
    rw [e, Complex.exp_add, Complex.exp_int_mul_two_pi_mul_I, Complex.exp_pi_mul_I, one_mul]
  rw [this]
  have hhc : ((2 * r + 1 : ℤ) : ℂ) ≠ 0 := Int.cast_ne_zero.2 hh
  have hpi : (Real.pi : ℂ) ≠ 0 := Complex.ofReal_ne_zero.2 Real.pi_ne_zero
  field_simp
  ring

/-- The two halves of the spectrum of the square wave are conjugate. -/
theorem sqWave_neg (dx sgamp rsh sgfreq duty : ℝ) (k : ZMod n) (hk : 2 * k.val ≠ n) :
    sqWave dx sgamp rsh sgfreq duty (-k) = starRingEnd ℂ (sqWave dx sgamp rsh sgfreq duty k) := by
  have e : fftfreq (1 / dx) (-k) / sgfreq = -(fftfreq (1 / dx) k / sgfreq) := by
    unfold fftfreq
    rw [freqIdx_neg k hk]
    push_cast
    ring
  have e0 : (-k ≠ 0) ↔ (k ≠ 0) := by rw [ne_eq, neg_eq_zero]
  have m1 : nearOne |fftfreq (1 / dx) (-k) / sgfreq| ↔ nearOne |fftfreq (1 / dx) k / sgfreq| := by
    rw [e, abs_neg]
  have m2 : (nearOne |fftfreq (1 / dx) (-k) / sgfreq| ∨
      (nearOne (|fftfreq (1 / dx) (-k) / sgfreq| + 1) ∧ -k ≠ 0)) ↔
      (nearOne |fftfreq (1 / dx) k / sgfreq| ∨
      (nearOne (|fftfreq (1 / dx) k / sgfreq| + 1) ∧ k ≠ 0)) := by
    rw [e, abs_neg, e0]
  unfold sqWave
  by_cases hd : duty = 1 / 2
  · simp only [if_pos hd]
    by_cases hm : nearOne |fftfreq (1 / dx) k / sgfreq|
    · rw [if_pos hm, if_pos (m1.2 hm), e]
      generalize fftfreq (1 / dx) k / sgfreq = h
      simp only [map_mul, map_div₀, Complex.conj_I, Complex.conj_ofReal, map_natCast]
      push_cast
      rw [mul_neg, div_neg, neg_div]
    · rw [if_neg hm, if_neg (fun c => hm (m1.1 c)), map_zero]
  · simp only [if_neg hd]
    by_cases hm : nearOne |fftfreq (1 / dx) k / sgfreq| ∨
      (nearOne (|fftfreq (1 / dx) k / sgfreq| + 1) ∧ k ≠ 0)
    · rw [if_pos hm, if_pos (m2.2 hm), e]
      generalize fftfreq (1 / dx) k / sgfreq = h
      simp only [map_mul, map_div₀, map_neg, Complex.conj_I, Complex.conj_ofReal, map_natCast, map_sub,
        map_one, ← Complex.exp_conj, Complex.conj_ofNat]
      push_cast
      have e1 : -2 * Complex.I * (Real.pi : ℂ) * -(h : ℂ) * duty =
          -2 * -Complex.I * Real.pi * h * duty := by ring
      rw [e1, mul_neg, div_neg, neg_div, neg_neg, neg_neg]
    · rw [if_neg hm, if_neg (fun c => hm (m2.1 c)), map_zero]

/-- DFT of the real part of an inverse DFT. -/
theorem fftR_re_ifft (x : ZMod n → ℂ) (k : ZMod n) :
    fftR (fun j => (ifft x j).re) k = (x k + starRingEnd ℂ (x (-k))) / 2 := by
  have h : ∀ j, (((ifft x j).re : ℝ) : ℂ) = (ifft x j + ifft (fun k => starRingEnd ℂ (x (-k))) j) / 2 := by
    intro j
    rw [Complex.re_eq_add_conj]
    congr 2
    rw [ifft_apply, ifft_apply, map_mul, map_sum, map_inv₀, map_natCast]
    congr 1
    refine Fintype.sum_equiv (Equiv.neg _) _ _ fun k => ?_
    rw [map_mul, conj_e]
    simp
  have h2 : fftR (fun j => (ifft x j).re) k =
      (fft (ifft x) k + fft (ifft (fun k => starRingEnd ℂ (x (-k)))) k) / 2 := by
    rw [fftR_apply, fft_apply, fft_apply, ← Finset.sum_add_distrib, Finset.sum_div]
    refine Finset.sum_congr rfl fun j _ => ?_
    rw [h j]
    ring
  rw [h2, fft_ifft, fft_ifft]

theorem threePoleY_neg {f A B C t1 t2 t3 : ℝ} {y : ℂ} (h : threePoleY f A B C t1 t2 t3 = .ok y) :
    threePoleY (-f) A B C t1 t2 t3 = .ok (starRingEnd ℂ y) := by
  unfold threePoleY threePoleZ at h ⊢
  have e : 1 + jw (-f) * t1 - C / (1 + jw (-f) * t3) =
      starRingEnd ℂ (1 + jw f * t1 - C / (1 + jw f * t3)) := by
    simp only [← conj_jw, map_mul, map_add, map_sub, map_one, map_div₀, Complex.conj_ofReal]
  rw [e]
  by_cases h0 : 1 + jw f * t1 - C / (1 + jw f * t3) = 0
  · rw [if_pos h0] at h; cases h
  · rw [if_neg h0] at h
    rw [if_neg (by rwa [map_eq_zero])]
    simp only [recipZ] at h ⊢
    have e2 : (A : ℂ) * (1 + jw (-f) * t2) + B / starRingEnd ℂ (1 + jw f * t1 - C / (1 + jw f * t3)) =
        starRingEnd ℂ (A * (1 + jw f * t2) + B / (1 + jw f * t1 - C / (1 + jw f * t3))) := by
      simp only [← conj_jw, map_mul, map_add, map_sub, map_one, map_div₀, Complex.conj_ofReal]
    rw [e2]
    by_cases hz : (A : ℂ) * (1 + jw f * t2) + B / (1 + jw f * t1 - C / (1 + jw f * t3)) = 0
    · rw [if_pos hz] at h; cases h
    · rw [if_neg hz] at h
      rw [if_neg (by rwa [map_eq_zero])]
      cases h
      rw [map_div₀, map_one]

/-- The spectrum of the response, off the Nyquist bin. -/
theorem convolve_fft {dx A B C t1 t2 t3 sgamp rsh sgfreq duty : ℝ} {tr : ZMod n → ℝ}
    (h : convolve dx A B C t1 t2 t3 sgamp rsh sgfreq duty = .ok tr) (k : ZMod n)
    (hk : 2 * k.val ≠ n) :
    ∃ y, threePoleY (fftfreq (1 / dx) k) A B C t1 t2 t3 = .ok y ∧
      fftR tr k = sqWave dx sgamp rsh sgfreq duty k * y := by
  unfold convolve at h
  by_cases hn : ∃ k : ZMod n, ∀ y, threePoleY (fftfreq (1 / dx) k) A B C t1 t2 t3 ≠ .ok y
  · rw [if_pos hn] at h; cases h
  · rw [if_neg hn] at h
    push Not at hn
    obtain ⟨y, hy⟩ := hn k
    refine ⟨y, hy, ?_⟩
    cases h
    rw [fftR_re_ifft]
    have hf : fftfreq (1 / dx) (-k) = -fftfreq (1 / dx) k := by
      unfold fftfreq
      rw [freqIdx_neg k hk]
      push_cast
      ring
    simp only [hf, hy, threePoleY_neg hy, sqWave_neg _ _ _ _ _ _ hk, map_mul, Complex.conj_conj]
    ring

theorem threePoleY_one (f A t2 : ℝ) : threePoleY f A 0 0 0 t2 0 = recipZ (onePoleZ f A t2) := by
  simp [threePoleY, threePoleZ, onePoleZ]

theorem threePoleY_two (f A B t1 t2 : ℝ) :
    threePoleY f A B 0 t1 t2 0 = recipZ (twoPoleZ f A B t1 t2) := by
  have h := one_add_jw_ne f t1
  simp [threePoleY, threePoleZ, twoPoleZ, h]

/-- The response uses the admittance of `complexadmittance`. -/
theorem squarewave_convolve {dx sgamp sgfreq duty : ℝ} {a : Args} {tr : ZMod n → ℝ}
    (h : squarewaveresponse dx sgamp sgfreq duty a = .ok tr) :
    ∃ A B C t1 t2 t3, convolve dx A B C t1 t2 t3 sgamp (a.rsh.getD 0) sgfreq duty = .ok tr ∧
      ∀ f, threePoleY f A B C t1 t2 t3 = complexadmittance f a := by
  unfold squarewaveresponse at h
  unfold complexadmittance compleximpedance
  revert h
  cases hp : poleExtractor a with
  | error e => simp
  | ok p =>
    match p with
    | 0 | k + 3 =>
      simp only
      split
      · simp
      · intro h
        rename_i A B C t1 t2 t3 _ hc
        exact ⟨A, B, C, t1, t2, t3, h, fun f => by simp only [hc]; rfl⟩
      · simp
    | 1 =>
      simp only
      split
      · simp
      · intro h
        rename_i hc
        exact ⟨_, _, _, _, _, _, h, fun f => by simp only [hc]; exact threePoleY_one _ _ _⟩
      · simp
    | 2 =>
      simp only
      split
      · simp
      · intro h
        rename_i hc
        exact ⟨_, _, _, _, _, _, h, fun f => by simp only [hc]; exact threePoleY_two _ _ _ _ _⟩
      · simp

/-- The spectrum of the response of a TES. -/
theorem squarewave_fft {dx sgamp sgfreq duty : ℝ} {a : Args} {tr : ZMod n → ℝ}
    (h : squarewaveresponse dx sgamp sgfreq duty a = .ok tr) (k : ZMod n) (hk : 2 * k.val ≠ n) :
    ∃ y, complexadmittance (fftfreq (1 / dx) k) a = .ok y ∧
      fftR tr k = sqWave dx sgamp (a.rsh.getD 0) sgfreq duty k * y := by
  obtain ⟨A, B, C, t1, t2, t3, hc, e⟩ := squarewave_convolve h
  obtain ⟨y, hy, hf⟩ := convolve_fft hc k hk
  exact ⟨y, by rw [← e]; exact hy, hf⟩

theorem admittance_ne_zero {f : ℝ} {a : Args} {y : ℂ} (h : complexadmittance f a = .ok y) : y ≠ 0 := by
  unfold complexadmittance at h
  cases hz : compleximpedance f a with
  | error e => rw [hz] at h; cases h
  | ok z =>
    rw [hz] at h
    simp only [recipZ] at h
    by_cases h0 : z = 0
    · rw [if_pos h0] at h; cases h
    · rw [if_neg h0] at h
      cases h
      exact one_div_ne_zero h0

/-- A one-pole circuit of 2 Ω sampled three times per period. -/
def oddArgs : Args := { rsh := some 1, rp := some 1, L := some 0 }

theorem oddArgs_response (d : ℝ) (N : ℕ) [NeZero N] : ∃ tr : ZMod N → ℝ,
    squarewaveresponse 1 1 (1 / 3) d oddArgs = .ok tr := by
  have hp : poleExtractor oddArgs = .ok 1 := by simp [poleExtractor, oddArgs]
  have hc : convertFrom [1, 1, 0, 0] = .ok [1 + 1, 0 / (1 + 1), 0] := by
    simp only [convertFrom]
    rw [if_neg (by norm_num)]
  have hc' : convertFrom [oddArgs.rsh.getD 0, oddArgs.rp.getD 0, oddArgs.L.getD 0, 0] =
      .ok [1 + 1, 0 / (1 + 1), 0] := hc
  unfold squarewaveresponse
  simp only [hp, hc']
  unfold convolve
  rw [if_neg]
  · exact ⟨_, rfl⟩
  · push Not
    intro k
    rw [threePoleY_one]
    unfold recipZ
    rw [if_neg (by norm_num [onePoleZ])]
    exact ⟨_, rfl⟩

end Verif.Didv
