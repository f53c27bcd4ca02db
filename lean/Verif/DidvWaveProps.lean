import Verif.DidvWaveLemmas

/-! Property C46 (square-wave response and deconvolution). -/

namespace Verif.Didv
open Verif Dft

variable {n : ℕ} [NeZero n]

/-- The drive is the Fourier series of a square wave of height `sgamp * rsh` which is low for the phases
`0 .. duty` and high after: bin `P h` of the spectrum carries `n` times the coefficient of harmonic `h`, the
other bins and the zero frequency nothing. -/
theorem drive_spectrum {dx sgfreq : ℝ} {P : ℕ} (hP : HoldsPeriods n dx sgfreq P) (sgamp rsh duty : ℝ)
    (k : ZMod n) :
    (∀ h : ℤ, h ≠ 0 → freqIdx k = P * h →
      sqWave dx sgamp rsh sgfreq duty k = n * squareCoeff (sgamp * rsh) duty h) ∧
    (k = 0 → sqWave dx sgamp rsh sgfreq duty k = 0) ∧
    ((¬ ∃ h : ℤ, freqIdx k = P * h) → sqWave dx sgamp rsh sgfreq duty k = 0) := by
  have hPz : (P : ℤ) ≠ 0 := by exact_mod_cast hP.2.2.1.ne'
  have hPc : (P : ℝ) ≠ 0 := by exact_mod_cast hP.2.2.1.ne'
  refine ⟨fun h h0 hk => ?_, fun hk => ?_, fun hk => ?_⟩
  · have hr : fftfreq (1 / dx) k / sgfreq = (h : ℝ) := by
      rw [freq_ratio hP, hk]
      push_cast
      field_simp
    unfold sqWave
    by_cases hd : duty = 1 / 2
    · simp only [if_pos hd]
      by_cases ho : Odd h
      · rw [if_pos ((odd_mask hP k).2 ⟨h, ho, hk⟩), hr, hd, squareCoeff_odd_half _ ho]
        push_cast
        ring
      · rw [if_neg, hd, squareCoeff_even_half _ h0 (Int.not_odd_iff_even.1 ho), mul_zero]
        rw [odd_mask hP k]
        rintro ⟨m, hm, e⟩
        rw [hk] at e
        exact ho (by rw [mul_left_cancel₀ hPz e]; exact hm)
    · simp only [if_neg hd]
      rw [if_pos, hr, squareCoeff_eq _ _ h0]
      · push_cast
        ring
      · rcases Int.even_or_odd h with he | ho
        · refine Or.inr ⟨(even_mask hP k).2 ⟨h, he, hk⟩, ?_⟩
          rintro rfl
          have : freqIdx (0 : ZMod n) = 0 := by simp [freqIdx]
          rw [this] at hk
          exact h0 ((mul_eq_zero.1 hk.symm).resolve_left hPz)
        · exact Or.inl ((odd_mask hP k).2 ⟨h, ho, hk⟩)
  · subst hk
    have hf : freqIdx (0 : ZMod n) = 0 := by simp [freqIdx]
    have hno : ¬ nearOne |fftfreq (1 / dx) (0 : ZMod n) / sgfreq| := by
      rw [odd_mask hP]
      rintro ⟨m, hm, e⟩
      rw [hf] at e
      have := (mul_eq_zero.1 e.symm).resolve_left hPz
      subst this
      exact absurd hm (by decide)
    unfold sqWave
    simp only [if_neg hno]
    rw [if_neg (not_or.2 ⟨hno, fun h => h.2 rfl⟩), ite_self]
  · have hno : ¬ nearOne |fftfreq (1 / dx) k / sgfreq| := by
      rw [odd_mask hP]
      rintro ⟨m, _, e⟩
      exact hk ⟨m, e⟩
    have hne : ¬ nearOne (|fftfreq (1 / dx) k / sgfreq| + 1) := by
      rw [even_mask hP]
      rintro ⟨m, _, e⟩
      exact hk ⟨m, e⟩
    unfold sqWave
    simp only [if_neg hno]
    rw [if_neg (not_or.2 ⟨hno, fun h => hne h.1⟩), ite_self]

/-- The spectrum of `squarewaveresponse` is drive times admittance at every frequency of the DFT except
Nyquist. -/
theorem response_spectrum {dx sgamp sgfreq duty : ℝ} {P : ℕ} {a : Args} {tr : ZMod n → ℝ}
    (hP : HoldsPeriods n dx sgfreq P)
    (h : squarewaveresponse dx sgamp sgfreq duty a = .ok tr) (k : ZMod n) (hk : 2 * k.val ≠ n) :
    (∀ m : ℤ, m ≠ 0 → freqIdx k = P * m → ∃ y, complexadmittance (fftfreq (1 / dx) k) a = .ok y ∧
      fftR tr k = n * squareCoeff (sgamp * a.rsh.getD 0) duty m * y) ∧
    (k = 0 ∨ (¬ ∃ m : ℤ, freqIdx k = P * m) → fftR tr k = 0) := by
  obtain ⟨y, hy, hf⟩ := squarewave_fft h k hk
  obtain ⟨h1, h2, h3⟩ := drive_spectrum hP sgamp (a.rsh.getD 0) duty k
  refine ⟨fun m hm e => ⟨y, hy, by rw [hf, h1 m hm e]⟩, ?_⟩
  rintro (h0 | h0)
  · rw [hf, h2 h0, zero_mul]
  · rw [hf, h3 h0, zero_mul]

/-- Partial form of C46: deconvolution recovers the admittance at every excited harmonic except the
element `n // 2` (the Nyquist bin of an even trace), and a bin without drive is flagged if the transform of
the trace is not exactly zero there.  Missing: the element `n // 2` of odd traces, and bins without drive
where the transform is zero. -/
theorem deconvolve_partial {dx sgamp sgfreq duty : ℝ} {P : ℕ} (hP : HoldsPeriods n dx sgfreq P)
    (a : Args) (k : ZMod n) :
    (∀ (tr : ZMod n → ℝ) (m : ℤ), squarewaveresponse dx sgamp sgfreq duty a = .ok tr →
      k.val ≠ n / 2 → m ≠ 0 → freqIdx k = P * m → squareCoeff (sgamp * a.rsh.getD 0) duty m ≠ 0 →
      ∃ y, complexadmittance (fftfreq (1 / dx) k) a = .ok y ∧ (1 / 10 ^ 16 ≤ ‖1 / y‖ →
        deconvolve dx tr (a.rsh.getD 0) sgamp sgfreq duty k = (.ok y, false))) ∧
    (∀ (tr : ZMod n → ℝ) (rsh : ℝ), fftR tr k ≠ 0 →
      (k.val = n / 2 ∨ k = 0 ∨ (¬ ∃ m : ℤ, freqIdx k = P * m) ∨
        (∃ m : ℤ, m ≠ 0 ∧ freqIdx k = P * m ∧ squareCoeff (sgamp * rsh) duty m = 0)) →
      (deconvolve dx tr rsh sgamp sgfreq duty k).2 = true) := by
  have hn : (n : ℂ) ≠ 0 := Nat.cast_ne_zero.2 (NeZero.ne n)
  constructor
  · intro tr m h hk hm e hs
    obtain ⟨y, hy, hf⟩ := squarewave_fft h k (by omega)
    refine ⟨y, hy, fun hb => ?_⟩
    have h1 := (drive_spectrum hP sgamp (a.rsh.getD 0) duty k).1 m hm e
    have hsf : sqWave dx sgamp (a.rsh.getD 0) sgfreq duty k ≠ 0 := by
      rw [h1]
      exact mul_ne_zero hn hs
    have hy0 := admittance_ne_zero hy
    have er : sqWave dx sgamp (a.rsh.getD 0) sgfreq duty k / fftR tr k = 1 / y := by
      rw [hf]
      field_simp
    unfold deconvolve
    simp only [if_neg hk]
    rw [if_neg (by rw [hf]; exact mul_ne_zero hsf hy0), er, if_neg (not_lt.2 hb), one_div_one_div]
  · intro tr rsh hst hc
    obtain ⟨h1, h2, h3⟩ := drive_spectrum hP sgamp rsh duty k
    have hz : (if k.val = n / 2 then 0 else sqWave dx sgamp rsh sgfreq duty k) = 0 := by
      by_cases hk : k.val = n / 2
      · rw [if_pos hk]
      · rw [if_neg hk]
        rcases hc with h | h | h | ⟨m, hm, e, h⟩
        · exact absurd h hk
        · exact h2 h
        · exact h3 h
        · rw [h1 m hm e, h, mul_zero]
    unfold deconvolve
    simp only
    rw [if_neg hst, hz, zero_div, norm_zero, if_pos (by norm_num)]

/-- Contrary to C46 the bins without drive of an exact response are not flagged: there the quotient is
`0/0`, and the admittance reported is not a number. -/
theorem unexcited_unflagged_violated {dx sgamp sgfreq duty : ℝ} {P : ℕ}
    (hP : HoldsPeriods n dx sgfreq P) {a : Args} {tr : ZMod n → ℝ}
    (h : squarewaveresponse dx sgamp sgfreq duty a = .ok tr) (k : ZMod n) (hk : 2 * k.val ≠ n)
    (h0 : k = 0 ∨ ¬ ∃ m : ℤ, freqIdx k = P * m) :
    deconvolve dx tr (a.rsh.getD 0) sgamp sgfreq duty k = (.error .nan, false) := by
  unfold deconvolve
  simp only
  rw [if_pos ((response_spectrum hP h k hk).2 h0)]

/-- Contrary to C46 an odd trace has no Nyquist bin, yet its element `n // 2`, which may be an excited
harmonic, is flagged and not the admittance. -/
theorem odd_length_violated :
    ∃ (n : ℕ) (_ : NeZero n) (k : ZMod n) (tr : ZMod n → ℝ) (y : ℂ),
      Odd n ∧ HoldsPeriods n 1 (1 / 3) 1 ∧ squarewaveresponse 1 1 (1 / 3) (1 / 2) oddArgs = .ok tr ∧
      freqIdx k = 1 ∧ squareCoeff 1 (1 / 2) 1 ≠ 0 ∧
      complexadmittance (fftfreq (1 / 1) k) oddArgs = .ok y ∧ 1 / 10 ^ 16 ≤ ‖1 / y‖ ∧
      (deconvolve 1 tr 1 1 (1 / 3) (1 / 2) k).2 = true ∧
      (deconvolve 1 tr 1 1 (1 / 3) (1 / 2) k).1 ≠ .ok y := by
  obtain ⟨tr, htr⟩ := oddArgs_response (1 / 2) 3
  have hP : HoldsPeriods 3 1 (1 / 3) 1 := ⟨by norm_num, by norm_num, by norm_num, by norm_num, by norm_num⟩
  have hk : freqIdx (1 : ZMod 3) = 1 := by decide
  have hs : squareCoeff 1 (1 / 2) 1 ≠ 0 := by
    rw [squareCoeff_odd_half _ (by decide)]
    have hpi : (Real.pi : ℂ) ≠ 0 := Complex.ofReal_ne_zero.2 Real.pi_ne_zero
    simp [hpi]
  obtain ⟨y, hy, hf⟩ := (response_spectrum hP htr (1 : ZMod 3) (by decide)).1 1 one_ne_zero (by rw [hk]; rfl)
  have hy2 : y = 1 / 2 := by
    have hp : poleExtractor oddArgs = .ok 1 := by simp [poleExtractor, oddArgs]
    have hc : convertFrom [1, 1, 0, 0] = .ok [1 + 1, 0 / (1 + 1), 0] := by
      simp only [convertFrom]
      rw [if_neg (by norm_num)]
    have hc' : convertFrom [oddArgs.rsh.getD 0, oddArgs.rp.getD 0, oddArgs.L.getD 0, 0] =
        .ok [1 + 1, 0 / (1 + 1), 0] := hc
    unfold complexadmittance compleximpedance at hy
    simp only [hp, hc', recipZ, onePoleZ] at hy
    rw [if_neg (by norm_num)] at hy
    cases hy
    norm_num
  have hst : fftR tr (1 : ZMod 3) ≠ 0 := by
    rw [hf]
    have e : (1 : ℝ) * oddArgs.rsh.getD 0 = 1 := by
      change (1 : ℝ) * 1 = 1
      norm_num
    rw [e]
    refine mul_ne_zero (mul_ne_zero ?_ hs) ?_
    · norm_num
    · rw [hy2]; norm_num
  have hd : deconvolve 1 tr 1 1 (1 / 3) (1 / 2) (1 : ZMod 3) = (.ok (1 / (1 + Complex.I)), true) := by
    unfold deconvolve
    have : (1 : ZMod 3).val = 3 / 2 := by decide
    simp only [if_pos this]
    rw [if_neg hst, zero_div, norm_zero, if_pos (by norm_num)]
  refine ⟨3, inferInstance, 1, tr, y, by decide, hP, htr, hk, hs, hy, ?_, by rw [hd], ?_⟩
  · rw [hy2]
    norm_num
  · rw [hd, hy2]
    intro h
    have h := Except.ok.inj h
    rw [div_eq_div_iff (by intro h; simpa using congrArg Complex.im h) (by norm_num)] at h
    simpa using congrArg Complex.im h

/-- The hypotheses of `deconvolve_partial` are met: four samples, one period, harmonic one. -/
example : HoldsPeriods 6 1 (1 / 3) 2 ∧ (∃ tr : ZMod 6 → ℝ,
    squarewaveresponse 1 1 (1 / 3) (1 / 2) oddArgs = .ok tr) ∧ (2 : ZMod 6).val ≠ 6 / 2 ∧
    freqIdx (2 : ZMod 6) = 2 * 1 ∧ (¬ ∃ m : ℤ, freqIdx (1 : ZMod 6) = 2 * m) := by
  refine ⟨⟨by norm_num, by norm_num, by norm_num, by norm_num, by norm_num⟩, oddArgs_response _ _,
    by decide, by decide, ?_⟩
  rw [show freqIdx (1 : ZMod 6) = 1 by decide]
  rintro ⟨m, hm⟩
  omega

end Verif.Didv
