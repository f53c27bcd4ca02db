import Verif.OFProps
import Verif.OFEquivLemmas

/-! Properties C35 (low-frequency chi-square), C39 and C61 (interpolation), C40 (resolutions). -/

namespace Verif.OF
open Verif Verif.Dft

variable {n : ℕ} [NeZero n]

/-! ### C35 -/

/-- `chi2_lowfreq` is non-negative and non-decreasing in the cutoff, for every amplitude and delay. -/
theorem lowfreq_nonneg_mono (x T : ZMod n → ℝ) (psd : ZMod n → WithTop ℝ) (fs : ℝ) (ac b : Bool)
    (hfs : 0 < fs) (hpsd : ∀ k, 0 < psd k) (a t0 f1 f2 : ℝ) (hf : f1 ≤ f2) :
    0 ≤ (chi2Lowfreq (init x T psd fs ac b) a t0 f1).1 ∧
    (chi2Lowfreq (init x T psd fs ac b) a t0 f1).1 ≤
      (chi2Lowfreq (init x T psd fs ac b) a t0 f2).1 := by
  have hw : ∀ k, 0 ≤ (init x T psd fs ac b).w k := by
    intro k; rw [init_w]; exact weight_nonneg psd ac hpsd k
  have hdf : 0 ≤ (init x T psd fs ac b).df := by rw [init_df]; positivity
  simp only [chi2Lowfreq]
  constructor
  · refine Finset.sum_nonneg fun k _ => ?_
    split_ifs
    · have := hw k; positivity
    · exact le_rfl
  · refine Finset.sum_le_sum fun k _ => ?_
    have h1 := hw k
    split_ifs with h2 h3
    · exact le_rfl
    · exact absurd (h2.trans hf) h3
    · positivity
    · exact le_rfl

/-- A negative cutoff keeps no bin. -/
theorem lowfreq_negative (x T : ZMod n → ℝ) (psd : ZMod n → WithTop ℝ) (fs : ℝ) (ac b : Bool)
    (a t0 f : ℝ) (hf : f < 0) : (chi2Lowfreq (init x T psd fs ac b) a t0 f).1 = 0 := by
  simp only [chi2Lowfreq]
  refine Finset.sum_eq_zero fun k _ => ?_
  rw [if_neg]
  have := abs_nonneg (readFreqs (init x T psd fs ac b) k)
  linarith

/-- At a cutoff of at least the Nyquist frequency, and a delay on a sample, `chi2_lowfreq` is the
chi-square of the residual trace; below it is bounded by that. -/
theorem lowfreq_full (x T : ZMod n → ℝ) (psd : ZMod n → WithTop ℝ) (fs : ℝ) (ac : Bool)
    (hfs : 0 < fs) (a : ℝ) (m : ℤ) (f : ℝ) (hf : fs / 2 ≤ f) :
    (chi2Lowfreq (init x T psd fs ac false) a (m / fs) f).1 =
      traceChi2 fs (weight psd ac) (resid x T a (m : ZMod n)) := by
  simp only [chi2Lowfreq]
  unfold traceChi2
  refine Finset.sum_congr rfl fun k _ => ?_
  have hk : |readFreqs (init x T psd fs ac false) k| ≤ f := (abs_fftfreq_le fs hfs k).trans hf
  rw [if_pos hk, init_w, init_v, init_s, init_df, init_freqs]
  have hexp : Complex.exp (-2 * Complex.I * Real.pi * ((m / fs : ℝ) : ℂ) * (fftfreq fs k : ℝ)) =
      e (-((m : ZMod n) * k)) := by
    have := exp_freq fs hfs.ne' (-m) k (-(m / fs : ℝ)) (by push_cast; ring)
    push_cast at this
    rw [← neg_mul, ← this]
    congr 1; push_cast; ring
  have hr : fftR (resid x T a (m : ZMod n)) k / (fs : ℂ) =
      fftR x k / (fs : ℂ) - (a : ℂ) * e (-((m : ZMod n) * k)) * (fftR T k / (fs : ℂ)) := by
    unfold resid
    rw [fftR_sub x (fun j => a * roll T (m : ZMod n) j), fftR_smul, fftR_roll]
    ring
  rw [hr, hexp]
  ring

/-- Bounded by the chi-square of the residual trace. -/
theorem lowfreq_le_full (x T : ZMod n → ℝ) (psd : ZMod n → WithTop ℝ) (fs : ℝ) (ac : Bool)
    (hfs : 0 < fs) (hpsd : ∀ k, 0 < psd k) (a : ℝ) (m : ℤ) (f : ℝ) :
    (chi2Lowfreq (init x T psd fs ac false) a (m / fs) f).1 ≤
      traceChi2 fs (weight psd ac) (resid x T a (m : ZMod n)) := by
  rw [← lowfreq_full x T psd fs ac hfs a m (max f (fs / 2)) (le_max_right _ _)]
  exact (lowfreq_nonneg_mono x T psd fs ac false hfs hpsd a _ f _ (le_max_left _ _)).2

/-- For a delay between samples the bound is the value at the Nyquist frequency, which no larger
cutoff exceeds. -/
theorem lowfreq_nyquist (x T : ZMod n → ℝ) (psd : ZMod n → WithTop ℝ) (fs : ℝ) (ac b : Bool)
    (hfs : 0 < fs) (hpsd : ∀ k, 0 < psd k) (a t0 f : ℝ) :
    (chi2Lowfreq (init x T psd fs ac b) a t0 f).1 ≤
      (chi2Lowfreq (init x T psd fs ac b) a t0 (fs / 2)).1 := by
  refine le_trans (lowfreq_nonneg_mono x T psd fs ac b hfs hpsd a t0 f (max f (fs / 2))
    (le_max_left _ _)).2 (le_of_eq ?_)
  simp only [chi2Lowfreq]
  refine Finset.sum_congr rfl fun k _ => ?_
  have hk : |readFreqs (init x T psd fs ac b) k| ≤ fs / 2 := abs_fftfreq_le fs hfs k
  rw [if_pos hk, if_pos (hk.trans (le_max_right _ _))]

/-! ### C39 -/

omit [NeZero n] in
/-- C39.  For a strict discrete minimum with a right neighbour, the interpolation returns the vertex
of the parabola through the three samples; it lies strictly within half a bin and its value does not
exceed the sampled minimum. -/
theorem parabola_vertex (vals : ZMod n → ℝ) (i : ℤ) (dt : ℝ) (hdt : 0 < dt) (hi : i + 1 < n)
    (hl : vals (i : ZMod n) < vals ((i - 1 : ℤ) : ZMod n))
    (hr : vals (i : ZMod n) < vals ((i + 1 : ℤ) : ZMod n)) :
    ∃ t y A B C : ℝ, interpolateParabola vals i dt none = .ok (t, y) ∧
      A * (-dt) ^ 2 + B * (-dt) + C = vals ((i - 1 : ℤ) : ZMod n) ∧
      C = vals (i : ZMod n) ∧
      A * dt ^ 2 + B * dt + C = vals ((i + 1 : ℤ) : ZMod n) ∧
      y = A * t ^ 2 + B * t + C ∧ (∀ s, y ≤ A * s ^ 2 + B * s + C) ∧
      |t| < dt / 2 ∧ y ≤ vals (i : ZMod n) := by
  unfold interpolateParabola
  rw [if_neg (by omega)]
  simp only
  generalize vals ((i - 1 : ℤ) : ZMod n) = l at *
  generalize vals ((i + 1 : ℤ) : ZMod n) = r at *
  generalize vals (i : ZMod n) = c at *
  have hA : 0 < 1 / (2 * dt ^ 2) * (r - 2 * c + l) := by
    have : 0 < r - 2 * c + l := by linarith
    positivity
  rw [if_neg hA.ne']
  have hd2 : dt ^ 2 ≠ 0 := by positivity
  have hC : 1 / (2 * dt ^ 2) * 2 * dt ^ 2 * c = c := by field_simp
  set A := 1 / (2 * dt ^ 2) * (r - 2 * c + l) with hAdef
  set B := 1 / (2 * dt ^ 2) * dt * (r - l) with hBdef
  rw [hC]
  have hmin : ∀ s, A * (-B / (2 * A)) ^ 2 + B * (-B / (2 * A)) + c ≤ A * s ^ 2 + B * s + c := by
    intro s
    have : A * s ^ 2 + B * s + c - (A * (-B / (2 * A)) ^ 2 + B * (-B / (2 * A)) + c) =
        A * (s + B / (2 * A)) ^ 2 := by field_simp; ring
    have h2 : 0 ≤ A * (s + B / (2 * A)) ^ 2 := by positivity
    linarith
  refine ⟨-B / (2 * A), _, A, B, c, rfl, ?_, rfl, ?_, rfl, hmin, ?_, ?_⟩
  · rw [hAdef, hBdef]; field_simp; ring
  · rw [hAdef, hBdef]; field_simp; ring
  · have ht : -B / (2 * A) = dt / 2 * (-(r - l) / (r - 2 * c + l)) := by
      have : r - 2 * c + l ≠ 0 := by linarith
      rw [hAdef, hBdef]; field_simp
    rw [ht, abs_mul, abs_of_pos (by positivity : 0 < dt / 2)]
    have : |-(r - l) / (r - 2 * c + l)| < 1 := by
      rw [abs_div, div_lt_one (by rw [abs_pos]; linarith), abs_of_pos (by linarith : 0 < r - 2 * c + l),
        abs_lt]
      constructor <;> linarith
    calc dt / 2 * |-(r - l) / (r - 2 * c + l)| < dt / 2 * 1 := by gcongr
      _ = dt / 2 := mul_one _
  · have := hmin 0
    simpa using this

example : interpolateParabola (n := 3) ![3, 1, 2] 1 1 none = .ok (1/6, 23/24) := by
  have h0 : (![3, 1, 2] : Fin 3 → ℝ) ((1 - 1 : ℤ) : ZMod 3) = 3 := rfl
  have h1 : (![3, 1, 2] : Fin 3 → ℝ) ((1 : ℤ) : ZMod 3) = 1 := rfl
  have h2 : (![3, 1, 2] : Fin 3 → ℝ) ((1 + 1 : ℤ) : ZMod 3) = 2 := rfl
  unfold interpolateParabola
  simp only [h0, h1, h2]
  norm_num

/-! ### C61: interpolation at the edge of the trace -/

omit [NeZero n] in
/-- When the best bin is not the last one and its curvature does not vanish, the interpolated fit
returns a result. -/
theorem interpolate_total_partial (amps chi : ZMod n → ℝ) (i : ℤ) (d : ℝ) (hd : d ≠ 0) (hi : i + 1 < n)
    (hc : chi ((i + 1 : ℤ) : ZMod n) - 2 * chi (i : ZMod n) + chi ((i - 1 : ℤ) : ZMod n) ≠ 0) :
    ∃ r, interpolateOf amps chi i d = .ok r := by
  have h1 : ¬ (i + 1 ≥ n) := by omega
  have h2 : ¬ (1 / (2 * d ^ 2) * (chi ((i + 1 : ℤ) : ZMod n) - 2 * chi (i : ZMod n)
      + chi ((i - 1 : ℤ) : ZMod n)) = 0) := mul_ne_zero (by positivity) hc
  simp only [interpolateOf, interpolateParabola, if_neg h1, if_neg h2]
  exact ⟨_, rfl⟩

/-- The full claim of C61 fails: with the best delay in the last bin an interpolated fit raises
IndexError although the fit without interpolation returns (white noise, one-bin template, trace
`(0, 1, 0)`). -/
theorem interpolate_lastbin_violated :
    (∃ r, (withdelay (init (n := 3) ![0, 1, 0] delta white 1 false false) none false 0 0 false).1
      = .ok r) ∧
    (withdelay (init (n := 3) ![0, 1, 0] delta white 1 false false) none false 0 0 true).1
      = .error .indexError := by
  set y : ZMod 3 → ℝ := ![0, 1, 0] with hy
  set st := init y delta white 1 false false with hst
  have hamp : ∀ i, readAmps st i = y (i - 1) := by
    intro i; rw [hst, init_amps, delta_sfTd _ one_ne_zero]; rfl
  have hchi : ∀ i, readChi st i = 1 - y (i - 1) ^ 2 := by
    intro i
    rw [hst, init_chi, delta_sfTd _ one_ne_zero, delta_chi0, init_norm, delta_norm]
    have : ∑ j : ZMod 3, y j ^ 2 = 1 := by
      refine (Fin.sum_univ_three (fun j : Fin 3 => (![0, 1, 0] : Fin 3 → ℝ) j ^ 2)).trans ?_
      norm_num [Matrix.cons_val_two]
    rw [this]; simp
  have c0 : readChi st ((0 : ℤ) : ZMod 3) = 1 := by
    rw [hchi, show y (((0 : ℤ) : ZMod 3) - 1) = 0 from rfl]; norm_num
  have c1 : readChi st ((1 : ℤ) : ZMod 3) = 1 := by
    rw [hchi, show y (((1 : ℤ) : ZMod 3) - 1) = 0 from rfl]; norm_num
  have c2 : readChi st ((2 : ℤ) : ZMod 3) = 0 := by
    rw [hchi, show y (((2 : ℤ) : ZMod 3) - 1) = 1 from rfl]; norm_num
  have hs : search (readAmps st) (readChi st) none false 0 0 = .ok (some 2) := by
    obtain ⟨r, hr⟩ := argmin_total 3 (asIdx (readChi st)) none false none 0 (by decide) (by simp)
    have hr' : search (readAmps st) (readChi st) none false 0 0 = .ok r := by
      rw [← hr]; simp [search, directionMask]
    obtain ⟨-, h2⟩ := search_spec _ _ _ _ _ _ _ hr'
    cases r with
    | none => exact absurd ⟨⟨by norm_num, by norm_num, by simp, by simp⟩, by norm_num, by norm_num⟩ (h2 1)
    | some i =>
      obtain ⟨h3, h4, -, -⟩ := h2.1.1
      have h5 := h2.2 2 ⟨⟨by norm_num, by norm_num, by simp, by simp⟩, by norm_num, by norm_num⟩
      push_cast at h4
      have : i = 0 ∨ i = 1 ∨ i = 2 := by omega
      rcases this with rfl | rfl | rfl
      · rw [c0, c2] at h5; norm_num at h5
      · rw [c1, c2] at h5; norm_num at h5
      · exact hr'
  refine ⟨⟨_, by simp only [withdelay, pick, hs]; rfl⟩, ?_⟩
  simp only [withdelay, pick, hs, interpolateOf, interpolateParabola]
  norm_num

/-! ### C39 again: the interpolated fit -/

omit [NeZero n] in
/-- C39.  The interpolated amplitude is the value at the interpolated time of the parabola through
the three amplitudes around the best bin. -/
theorem interpolated_amp (amps chi : ZMod n → ℝ) (i : ℤ) (dt : ℝ) (hdt : 0 < dt) (a t c : ℝ)
    (h : interpolateOf amps chi i dt = .ok (a, t, c)) :
    ∃ A B C : ℝ, A * (-dt) ^ 2 + B * (-dt) + C = amps ((i - 1 : ℤ) : ZMod n) ∧
      C = amps (i : ZMod n) ∧ A * dt ^ 2 + B * dt + C = amps ((i + 1 : ℤ) : ZMod n) ∧
      a = A * t ^ 2 + B * t + C := by
  unfold interpolateOf interpolateParabola at h
  by_cases h1 : i + 1 ≥ (n : ℤ)
  · simp [h1] at h
  simp only [if_neg h1] at h
  split at h
  · simp at h
  · simp only [Except.ok.injEq, Prod.mk.injEq] at h
    obtain ⟨ha, ht, -⟩ := h
    subst ht
    refine ⟨_, _, _, ?_, ?_, ?_, ha.symm⟩ <;> field_simp <;> ring

/-- C39.  Without a window and a direction constraint, switching the interpolation on moves the
returned time by at most half a bin and never increases the returned chi-square. -/
theorem withdelay_refined (st : State n) (hfs : 0 < st.fs) (o : Bool) (wc : ℤ) (a t c a' t' c' : ℝ)
    (h : (withdelay st none o 0 wc false).1 = .ok (a, t, c))
    (h' : (withdelay st none o 0 wc true).1 = .ok (a', t', c')) :
    |t' - t| ≤ 1 / st.fs / 2 ∧ c' ≤ c := by
  unfold withdelay at h h'
  dsimp only at h h'
  cases hs : search (readAmps st) (readChi st) none o 0 wc with
  | error e => rw [hs] at h; simp [pick] at h
  | ok r =>
    obtain ⟨-, h2⟩ := search_spec _ _ _ _ _ _ _ hs
    rw [hs] at h h'
    cases r with
    | none =>
      simp only [pick, Except.ok.injEq, Prod.mk.injEq] at h h'
      obtain ⟨-, rfl, rfl⟩ := h
      obtain ⟨-, rfl, rfl⟩ := h'
      simp; positivity
    | some i =>
      have hmin : ∀ j : ZMod n, readChi st (i : ZMod n) ≤ readChi st j := by
        intro j
        have := h2.2 (j.val : ℤ) ⟨⟨by positivity, by exact_mod_cast ZMod.val_lt j, by simp, by simp⟩,
          by simp, by simp⟩
        simpa using this
      simp only [pick, Bool.false_eq_true, if_false, if_true, Except.ok.injEq, Prod.mk.injEq] at h h'
      obtain ⟨-, rfl, rfl⟩ := h
      have hl := hmin ((i - 1 : ℤ) : ZMod n)
      have hr := hmin ((i + 1 : ℤ) : ZMod n)
      have hd : 0 < 1 / st.fs := by positivity
      unfold interpolateOf interpolateParabola at h'
      generalize 1 / st.fs = d at h' hd ⊢
      generalize readChi st ((i - 1 : ℤ) : ZMod n) = l at *
      generalize readChi st ((i + 1 : ℤ) : ZMod n) = r at *
      generalize readChi st (i : ZMod n) = m at *
      by_cases h1 : i + 1 ≥ (n : ℤ)
      · simp [h1] at h'
      simp only [if_neg h1] at h'
      by_cases h3 : 1 / (2 * d ^ 2) * (r - 2 * m + l) = 0
      · rw [if_pos h3] at h'; simp at h'
      simp only [if_neg h3, Except.ok.injEq, Prod.mk.injEq] at h'
      obtain ⟨-, rfl, rfl⟩ := h'
      have h4 : r - 2 * m + l ≠ 0 := right_ne_zero_of_mul h3
      have h5 : 0 < r - 2 * m + l := lt_of_le_of_ne (by linarith) h4.symm
      have ht : -(1 / (2 * d ^ 2) * d * (r - l)) / (2 * (1 / (2 * d ^ 2) * (r - 2 * m + l))) =
          d / 2 * (-(r - l) / (r - 2 * m + l)) := by field_simp
      constructor
      · rw [add_sub_cancel_left, ht, abs_mul, abs_of_pos (by positivity : 0 < d / 2)]
        have : |-(r - l) / (r - 2 * m + l)| ≤ 1 := by
          rw [abs_div, abs_of_pos h5, div_le_one h5, abs_le]
          constructor <;> linarith
        calc d / 2 * |-(r - l) / (r - 2 * m + l)| ≤ d / 2 * 1 := by gcongr
          _ = d / 2 := mul_one _
      · rw [ht]
        have : 1 / (2 * d ^ 2) * (r - 2 * m + l) * (d / 2 * (-(r - l) / (r - 2 * m + l))) ^ 2 +
            1 / (2 * d ^ 2) * d * (r - l) * (d / 2 * (-(r - l) / (r - 2 * m + l))) +
            1 / (2 * d ^ 2) * 2 * d ^ 2 * m = m - (r - l) ^ 2 / (8 * (r - 2 * m + l)) := by
          field_simp; ring
        rw [this]
        have : 0 ≤ (r - l) ^ 2 / (8 * (r - 2 * m + l)) := by positivity
        linarith
/-- A pulse in the first sample: both fits return (white noise, one-bin template). -/
example : (∃ r, (withdelay (init (n := 3) ![1, 0, 0] delta white 1 false false) none false 0 0 false).1
      = .ok r) ∧
    ∃ r, (withdelay (init (n := 3) ![1, 0, 0] delta white 1 false false) none false 0 0 true).1
      = .ok r := by
  set y : ZMod 3 → ℝ := ![1, 0, 0] with hy
  set st := init y delta white 1 false false with hst
  have hchi : ∀ i, readChi st i = 1 - y (i - 1) ^ 2 := by
    intro i
    rw [hst, init_chi, delta_sfTd _ one_ne_zero, delta_chi0, init_norm, delta_norm]
    have : ∑ j : ZMod 3, y j ^ 2 = 1 := by
      refine (Fin.sum_univ_three (fun j : Fin 3 => (![1, 0, 0] : Fin 3 → ℝ) j ^ 2)).trans ?_
      norm_num [Matrix.cons_val_two]
    rw [this]; simp
  have c0 : readChi st ((0 : ℤ) : ZMod 3) = 1 := by
    rw [hchi, show y (((0 : ℤ) : ZMod 3) - 1) = 0 from rfl]; norm_num
  have c1 : readChi st ((1 : ℤ) : ZMod 3) = 0 := by
    rw [hchi, show y (((1 : ℤ) : ZMod 3) - 1) = 1 from rfl]; norm_num
  have c2 : readChi st ((2 : ℤ) : ZMod 3) = 1 := by
    rw [hchi, show y (((2 : ℤ) : ZMod 3) - 1) = 0 from rfl]; norm_num
  have hs : search (readAmps st) (readChi st) none false 0 0 = .ok (some 1) := by
    obtain ⟨r, hr⟩ := argmin_total 3 (asIdx (readChi st)) none false none 0 (by decide) (by simp)
    have hr' : search (readAmps st) (readChi st) none false 0 0 = .ok r := by
      rw [← hr]; simp [search, directionMask]
    obtain ⟨-, h2⟩ := search_spec _ _ _ _ _ _ _ hr'
    cases r with
    | none => exact absurd ⟨⟨by norm_num, by norm_num, by simp, by simp⟩, by norm_num, by norm_num⟩ (h2 1)
    | some i =>
      obtain ⟨h3, h4, -, -⟩ := h2.1.1
      have h5 := h2.2 1 ⟨⟨by norm_num, by norm_num, by simp, by simp⟩, by norm_num, by norm_num⟩
      push_cast at h4
      have : i = 0 ∨ i = 1 ∨ i = 2 := by omega
      rcases this with rfl | rfl | rfl
      · rw [c0, c1] at h5; norm_num at h5
      · exact hr'
      · rw [c2, c1] at h5; norm_num at h5
  refine ⟨⟨_, by simp only [withdelay, pick, hs]; rfl⟩, ?_⟩
  obtain ⟨⟨a, t, c⟩, h⟩ := interpolate_total_partial (readAmps st) (readChi st) 1 (1 / st.fs)
    (by simp [hst, init]) (by norm_num) (by
      rw [show ((1 + 1 : ℤ)) = 2 from rfl, show ((1 - 1 : ℤ)) = 0 from rfl, c0, c1, c2]; norm_num)
  exact ⟨_, by simp only [withdelay, pick, hs, h]; rfl⟩

/-! ### C40 -/

/-- Multiply every PSD bin by `c`. -/
noncomputable def scalePsd (c : ℝ) (psd : ZMod n → WithTop ℝ) : ZMod n → WithTop ℝ :=
  fun k => (psd k).map fun p => c * p

omit [NeZero n] in
theorem weight_scale (c : ℝ) (psd : ZMod n → WithTop ℝ) (ac : Bool) (k : ZMod n) :
    weight (scalePsd c psd) ac k = weight psd ac k / c := by
  unfold weight scalePsd
  split_ifs
  · simp
  · cases psd k with
    | top => simp [recip]
    | coe p => simp [recip]; ring

theorem traceChi2_scale (fs c : ℝ) (psd : ZMod n → WithTop ℝ) (ac : Bool) (r : ZMod n → ℝ) :
    traceChi2 fs (weight (scalePsd c psd) ac) r = traceChi2 fs (weight psd ac) r / c := by
  unfold traceChi2
  rw [Finset.sum_div]
  refine Finset.sum_congr rfl fun k _ => ?_
  rw [weight_scale]; ring

/-- The energy resolution is positive; `1/resolution²` is the template's noise-weighted norm; noise
power scaled by `c` scales it by `√c`; a template scaled by `g` scales it by `1/|g|`. -/
theorem energyResolution_scaling (x T : ZMod n → ℝ) (psd : ZMod n → WithTop ℝ) (fs : ℝ) (ac : Bool)
    (hN : 0 < traceChi2 fs (weight psd ac) T) (c g : ℝ) (hc : 0 < c) :
    0 < energyResolution (init x T psd fs ac false) ∧
    1 / energyResolution (init x T psd fs ac false) ^ 2 = traceChi2 fs (weight psd ac) T ∧
    energyResolution (init x T (scalePsd c psd) fs ac false) =
      Real.sqrt c * energyResolution (init x T psd fs ac false) ∧
    energyResolution (init x (fun j => g * T j) psd fs ac false) =
      energyResolution (init x T psd fs ac false) / |g| := by
  have hT : traceChi2 fs (weight psd ac) (fun j => g * T j) = g ^ 2 * traceChi2 fs (weight psd ac) T := by
    rw [← ip_self, ip_smul_right, ip_comm, ip_smul_right, ip_self]; ring
  unfold energyResolution
  rw [init_norm, init_norm, init_norm, traceChi2_scale, hT]
  refine ⟨by positivity, ?_, ?_, ?_⟩
  · rw [div_pow, Real.sq_sqrt hN.le]; simp
  · rw [Real.sqrt_div hN.le]
    have := Real.sqrt_pos.2 hN
    have := Real.sqrt_pos.2 hc
    field_simp
  · rw [Real.sqrt_mul (sq_nonneg g), Real.sqrt_sq_eq_abs, div_div, mul_comm]

/-- The time resolution scales inversely with the amplitude. -/
theorem timeResolution_scaling (st : State n) (a g : ℝ) :
    (timeResolution st (g * a)).1 = (timeResolution st a).1 / |g| := by
  simp only [timeResolution]
  rw [mul_pow, mul_assoc (g ^ 2), mul_assoc (g ^ 2), Real.sqrt_mul (sq_nonneg g), Real.sqrt_sq_eq_abs,
    div_div, mul_comm |g|]

/-- The time resolution is positive for a non-zero amplitude whenever the template has power at some
non-zero frequency that carries weight. -/
theorem timeResolution_pos (x T : ZMod n → ℝ) (psd : ZMod n → WithTop ℝ) (fs : ℝ) (ac b : Bool)
    (hfs : 0 < fs) (hpsd : ∀ k, 0 < psd k) (a : ℝ) (ha : a ≠ 0) (k : ZMod n) (hk : k ≠ 0)
    (hs : (init x T psd fs ac b).s k ≠ 0) (hw : psd k ≠ ⊤) :
    0 < (timeResolution (init x T psd fs ac b) a).1 := by
  have hn : (0 : ℝ) < n := Nat.cast_pos.2 (Nat.pos_of_ne_zero (NeZero.ne n))
  have hfk : fftfreq fs k ≠ 0 := by
    unfold fftfreq
    have : freqIdx k ≠ 0 := by
      intro h0
      have := freqIdx_cast k
      rw [h0] at this
      exact hk (by rw [← this]; simp)
    have : (freqIdx k : ℝ) ≠ 0 := by exact_mod_cast this
    positivity
  have hwk : 0 < (init x T psd fs ac b).w k := by
    rw [init_w]
    simp only [weight, hk, and_false, if_false]
    obtain ⟨p, hp⟩ := WithTop.ne_top_iff_exists.1 hw
    have h1 := hpsd k
    rw [← hp] at h1 ⊢
    have : 0 < p := by exact_mod_cast h1
    simp only [recip]; positivity
  have hw' : ∀ k, 0 ≤ (init x T psd fs ac b).w k := by
    intro k; rw [init_w]; exact weight_nonneg psd ac hpsd k
  have hsum : 0 < ∑ k, (2 * Real.pi * fftfreq fs k) ^ 2 * ‖(init x T psd fs ac b).s k‖ ^ 2
      * (init x T psd fs ac b).w k := by
    refine Finset.sum_pos' (fun j _ => ?_) ⟨k, Finset.mem_univ _, ?_⟩
    · have := hw' j; positivity
    · have := norm_pos_iff.2 hs
      have := Real.pi_pos
      have : 0 < (2 * Real.pi * fftfreq fs k) ^ 2 := by positivity
      positivity
  simp only [timeResolution, init_freqs, init_df]
  have : 0 < a ^ 2 := by positivity
  positivity

end Verif.OF
