import Verif.OFPairLemmas
import Verif.OFProps

/-! Properties C36 (pile-up), C37 (stationary pile-up) and C38 (baseline fit). -/

namespace Verif.OF
open Verif Verif.Dft

variable {n : ℕ} [NeZero n]

/-! ### C36 -/

/-- For a first pulse sitting on a sample (`t1 = m1 / fs`) the pile-up fit without interpolation
returns the optimum second pulse: chi-square is that of the trace minus both pulses, minimal over
all admissible delays and amplitudes of the allowed sign, and never above the chi-square of the
first pulse alone.  `t1` not on a sample is excluded, see `pileup_fractional_violated`. -/
theorem pileup_optimal_partial (x T : ZMod n → ℝ) (psd : ZMod n → WithTop ℝ) (fs : ℝ) (ac : Bool)
    (hfs : 0 < fs) (hN : 0 < traceChi2 fs (weight psd ac) T) (a1 t1 : ℝ) (m1 : ℤ) (ht : t1 = m1 / fs)
    (nc : Option ℤ) (o : Bool) (dir wc : ℤ) (a2 t2 c : ℝ)
    (h : (pileupIterative (init x T psd fs ac false) a1 t1 nc o dir wc false).1 = .ok (a2, t2, c)) :
    (∃ d : ℤ, t2 = d / fs ∧
      c = traceChi2 fs (weight psd ac) (resid2 x T a1 (m1 : ZMod n) a2 (d : ZMod n)) ∧
      (Admissible n nc o none wc (d + (n : ℤ) / 2) ∨ (a2 = 0 ∧ d = 0))) ∧
    (dir = 1 → 0 ≤ a2) ∧ (dir = -1 → a2 ≤ 0) ∧
    c ≤ traceChi2 fs (weight psd ac) (resid x T a1 (m1 : ZMod n)) ∧
    ∀ (d : ℤ) (b : ℝ), Admissible n nc o none wc (d + (n : ℤ) / 2) →
      (dir = 1 → 0 ≤ b) → (dir = -1 → b ≤ 0) →
      c ≤ traceChi2 fs (weight psd ac) (resid2 x T a1 (m1 : ZMod n) b (d : ZMod n)) := by
  have hNn : 0 < (init x T psd fs ac false).norm := by rw [init_norm]; exact hN
  have hsq := pile_square x T psd fs ac hfs hN.ne' a1 m1 t1 ht
  have hbase : readChi0 (init x T psd fs ac false) + pileupChit (init x T psd fs ac false) a1 t1 =
      traceChi2 fs (weight psd ac) (resid x T a1 (m1 : ZMod n)) := by
    rw [← resid2_zero x T a1 (m1 : ZMod n) 0, hsq]; ring
  have hc := pile_chi (init x T psd fs ac false) hNn.ne' a1 t1
  simp only [pileupIterative] at h
  by_cases hi : (-(n : ℤ) ≤ t1Index (init x T psd fs ac false) t1 ∧
      t1Index (init x T psd fs ac false) t1 < n)
  swap
  · rw [if_pos hi] at h; simp at h
  rw [if_neg (not_not.2 hi)] at h
  simp only [Bool.false_eq_true, if_false] at h
  set amps := roll (pileupA2 (init x T psd fs ac false) a1 t1) ((n / 2 : ℕ) : ZMod n) with hamps
  set chi := roll (pileupChi (init x T psd fs ac false) a1 t1) ((n / 2 : ℕ) : ZMod n) with hchi
  have fin : ∀ r, search amps chi nc o dir wc = .ok r →
      (r = none ∧ a2 = 0 ∧ c = readChi0 (init x T psd fs ac false) +
          pileupChit (init x T psd fs ac false) a1 t1 ∨
        ∃ i : ℤ, r = some i ∧ a2 = amps (i : ZMod n) ∧ c = chi (i : ZMod n)) →
      (dir = 1 → 0 ≤ a2) ∧ (dir = -1 → a2 ≤ 0) ∧
      c ≤ traceChi2 fs (weight psd ac) (resid x T a1 (m1 : ZMod n)) ∧
      ∀ (d : ℤ) (b : ℝ), Admissible n nc o none wc (d + (n : ℤ) / 2) →
      (dir = 1 → 0 ≤ b) → (dir = -1 → b ≤ 0) →
      c ≤ traceChi2 fs (weight psd ac) (resid2 x T a1 (m1 : ZMod n) b (d : ZMod n)) := by
    intro r hs hr
    obtain ⟨g1, g2, h1, h2⟩ := search_optimum amps chi _ _ hNn
      (fun i => hc (i - ((n / 2 : ℕ) : ZMod n))) nc o dir wc r hs a2 c hr
    refine ⟨g1, g2, hbase ▸ h1, fun d b hd hb1 hb2 => ?_⟩
    have := h2 _ b hd hb1 hb2
    simp only [hamps, roll, add_half_cast] at this
    rw [hsq]
    exact this
  split at h
  · simp at h
  · rename_i hs
    simp only [Except.ok.injEq, Prod.mk.injEq] at h
    obtain ⟨e1, e2, e3⟩ := h
    refine ⟨⟨0, by simp [← e2], ?_, Or.inr ⟨e1.symm, rfl⟩⟩, fin _ hs (Or.inl ⟨rfl, e1.symm, e3.symm⟩)⟩
    rw [← e1, resid2_zero, ← hbase, e3]
  · rename_i i hs
    simp only [Except.ok.injEq, Prod.mk.injEq] at h
    obtain ⟨e1, e2, e3⟩ := h
    have hadm := (search_spec _ _ _ _ _ _ _ hs).2.1.1
    refine ⟨⟨i - (n : ℤ) / 2, ?_, ?_, Or.inl ?_⟩, fin _ hs (Or.inr ⟨i, rfl, e1.symm, e3.symm⟩)⟩
    · rw [← e2]
      obtain ⟨i0, i1, -, -⟩ := hadm
      lift i to ℕ using i0
      have : (((i : ℤ) : ZMod n)).val = i := by
        rw [Int.cast_natCast, ZMod.val_natCast, Nat.mod_eq_of_lt (by exact_mod_cast i1)]
      show (((((i : ℤ) : ZMod n)).val : ℝ) - ((n / 2 : ℕ) : ℝ)) / fs = _
      rw [this, show (n : ℤ) / 2 = ((n / 2 : ℕ) : ℤ) by simp]
      push_cast; rfl
    · rw [hsq, ← e3, ← e1, sub_half_cast]
      simp only [hchi, hamps, roll]
      rw [hc]; ring
    · rw [sub_add_cancel]; exact hadm

/-- Fitting a second pulse on top of the result of the single-pulse fit never increases the
chi-square. -/
theorem pileup_improves (x T : ZMod n → ℝ) (psd : ZMod n → WithTop ℝ) (fs : ℝ) (ac : Bool)
    (hfs : 0 < fs) (hN : 0 < traceChi2 fs (weight psd ac) T)
    (nc : Option ℤ) (o : Bool) (dir wc : ℤ) (a1 t1 c1 : ℝ)
    (h1 : (withdelay (init x T psd fs ac false) nc o dir wc false).1 = .ok (a1, t1, c1))
    (nc' : Option ℤ) (o' : Bool) (dir' wc' : ℤ) (a2 t2 c2 : ℝ)
    (h2 : (pileupIterative (init x T psd fs ac false) a1 t1 nc' o' dir' wc' false).1
      = .ok (a2, t2, c2)) : c2 ≤ c1 := by
  obtain ⟨⟨d, ht, hc, -⟩, -, -⟩ := withdelay_optimal x T psd fs ac hN nc o dir wc a1 t1 c1 h1
  have := (pileup_optimal_partial x T psd fs ac hfs hN a1 t1 d ht nc' o' dir' wc' a2 t2 c2 h2).2.2.2.1
  rw [hc]; exact this

/-- The pile-up fit returns whenever its arguments are legal and the first pulse is in the trace. -/
theorem pileup_total (x T : ZMod n → ℝ) (psd : ZMod n → WithTop ℝ) (fs : ℝ) (ac : Bool)
    (hfs : 0 < fs) (a1 t1 : ℝ) (m1 : ℤ) (ht : t1 = m1 / fs) (hm : -(n : ℤ) ≤ m1 ∧ m1 < n)
    (nc : Option ℤ) (o : Bool) (dir wc : ℤ) (hdir : dir = -1 ∨ dir = 0 ∨ dir = 1)
    (hwc : 0 ≤ (n : ℤ) / 2 + wc ∧ (n : ℤ) / 2 + wc < n) (hk : ∀ k, nc = some k → 0 < k) :
    ∃ r, (pileupIterative (init x T psd fs ac false) a1 t1 nc o dir wc false).1 = .ok r := by
  have hi := (t1Index_int x T psd fs ac false hfs m1 t1 ht).2.2 (by omega)
  simp only [pileupIterative]
  rw [if_neg (not_not.2 hi)]
  generalize hs : search (roll (pileupA2 (init x T psd fs ac false) a1 t1) ((n / 2 : ℕ) : ZMod n))
    (roll (pileupChi (init x T psd fs ac false) a1 t1) ((n / 2 : ℕ) : ZMod n)) nc o dir wc = r
  cases r with
  | error e =>
    exfalso
    unfold search at hs
    cases hm' : directionMask (asIdx (roll (pileupA2 (init x T psd fs ac false) a1 t1)
        ((n / 2 : ℕ) : ZMod n))) dir with
    | error e' =>
      unfold directionMask at hm'
      rw [if_neg (not_not.2 hdir)] at hm'
      split_ifs at hm'
    | ok mask =>
      rw [hm'] at hs
      obtain ⟨r, hr⟩ := argmin_total n (asIdx (roll (pileupChi (init x T psd fs ac false) a1 t1)
        ((n / 2 : ℕ) : ZMod n))) nc o mask wc hwc hk
      simp only [hr] at hs
      simp at hs
  | ok r =>
    cases r with
    | none => exact ⟨_, rfl⟩
    | some i => exact ⟨_, rfl⟩

/-- The full claim of C36 fails when the first pulse is between samples, as it is after an
interpolated fit: white noise, one-bin template, trace `(1, 0)`, first pulse of height `2/3` half a
bin late.  The reported chi-square is negative, so it is not the chi-square of any residual. -/
theorem pileup_fractional_violated :
    ∃ a2 t2 c : ℝ, (pileupIterative (init (n := 2) delta delta white 1 false false) (2/3) (1/2)
      (some 1) false 0 0 false).1 = .ok (a2, t2, c) ∧ c < 0 := by
  set st := init (n := 2) delta delta white 1 false false with hst
  have hsf : ∀ m, readSfTd st m = delta m := fun m => delta_sfTd 1 one_ne_zero delta m
  have hN : st.norm = 1 := by
    rw [hst, init_norm, delta_norm]; norm_num
  have h0 : readChi0 st = 1 := by
    rw [hst, delta_chi0, div_one]
    simp [delta]
  have hidx : t1Index st (1/2) = 0 := by
    unfold t1Index trunc
    have : st.fs = 1 := rfl
    rw [this]; norm_num
  have hT : tfTdAt st (1/2) 0 = 1/2 := by
    have e0 : tfTdAt st (1/2) 0 = (ifft (fun k : ZMod 2 =>
      (Complex.exp (-2 * Complex.I * Real.pi * (fftfreq 1 k : ℝ) * ((1/2 : ℝ) : ℂ)) *
      st.phi k * st.s k) * ((2 : ℕ) : ℂ)) 0).re * (1 / (2 : ℕ)) := rfl
    rw [e0, ifft_mul_n]
    have hphi : ∀ k, st.phi k = 1 := by
      intro k
      rw [hst, init_phi, fftR_delta, white_weight]; simp
    have hs : ∀ k, st.s k = 1 := by
      intro k
      rw [hst, init_s, fftR_delta]; simp
    simp only [hphi, hs, mul_one, mul_zero, e_zero, one_mul]
    have hsum : ∀ f : ZMod 2 → ℂ, ∑ k, f k = f 0 + f 1 := fun f => Fin.sum_univ_two f
    rw [hsum]
    have f0 : fftfreq (n := 2) 1 0 = 0 := by simp [fftfreq, freqIdx]
    have f1 : fftfreq (n := 2) 1 1 = -1/2 := by
      have : (1 : ZMod 2).val = 1 := rfl
      simp [fftfreq, freqIdx, this]
    rw [f0, f1]
    have : (-2 * Complex.I * Real.pi * ((-1/2 : ℝ) : ℂ) * ((1/2 : ℝ) : ℂ)) =
        ((Real.pi / 2 : ℝ) : ℂ) * Complex.I := by push_cast; ring
    rw [this]
    simp
  have hs : ∀ amps chi : ZMod 2 → ℝ, search amps chi (some 1) false 0 0 = .ok (some 1) := by
    intro amps chi
    simp only [search, directionMask, argminChi2]
    simp [winInds, arange, argminOn, argminGo, List.range_succ]
  have hA : pileupA2 st (2/3) (1/2) 0 = 2/3 := by
    unfold pileupA2; rw [hsf, hT, hN]; simp [delta]; norm_num
  have hC : pileupChi st (2/3) (1/2) 0 = -1/3 := by
    rw [pile_chi st (by rw [hN]; norm_num), hA, h0, hN]
    unfold pileupChit
    rw [hidx, hsf, hN]
    simp [delta]; norm_num
  refine ⟨2/3, readTimes st 1, -1/3, ?_, by norm_num⟩
  have hr0 : ((1 : ℤ) : ZMod 2) - ((2 / 2 : ℕ) : ZMod 2) = 0 := by decide
  simp only [pileupIterative, hs, hidx]
  norm_num [roll, hr0, hA, hC]

/-! ### C37 -/

/-- What `ofamp_pileup_stationary` returns is a residual chi-square, and it is minimal over both
amplitudes and over every admissible non-zero second delay.  Missing from the full claim: the case
of a second delay of zero, where the code is wrong (`stationary_zero_violated`). -/
theorem stationary_optimal_partial (x T : ZMod n → ℝ) (psd : ZMod n → WithTop ℝ) (fs : ℝ) (ac : Bool)
    (hfs : 0 < fs) (hpsd : ∀ k, 0 < psd k) (hN : 0 < traceChi2 fs (weight psd ac) T)
    (nc : Option ℤ) (o : Bool) (wc : ℤ) (a1 a2 t2 c : ℝ)
    (h : (pileupStationary (init x T psd fs ac false) nc o wc).1 = .ok (a1, a2, t2, c)) :
    ∃ d : ℤ, t2 = d / fs ∧ Admissible n nc o none wc (d + (n : ℤ) / 2) ∧
      c = traceChi2 fs (weight psd ac) (resid2 x T a1 0 a2 (d : ZMod n)) ∧
      ∀ (d' : ℤ), Admissible n nc o none wc (d' + (n : ℤ) / 2) → (d' : ZMod n) ≠ 0 →
        ∀ b1 b2, c ≤ traceChi2 fs (weight psd ac) (resid2 x T b1 0 b2 (d' : ZMod n)) := by
  have hroll0 : roll T 0 = T := by funext j; simp [roll]
  simp only [pileupStationary] at h
  split at h
  · simp at h
  · simp at h
  · rename_i i hs
    obtain ⟨hadm, hmin, -⟩ := argmin_ok_admissible _ _ _ _ _ _ _ hs
    split_ifs at h with hd
    · push Not at hd
      simp only [Except.ok.injEq, Prod.mk.injEq] at h
      obtain ⟨e1, e2, e3, e4⟩ := h
      refine ⟨i - (n : ℤ) / 2, ?_, by rw [sub_add_cancel]; exact hadm, ?_, ?_⟩
      · rw [← e3]
        obtain ⟨i0, i1, -, -⟩ := hadm
        lift i to ℕ using i0
        have : (((i : ℤ) : ZMod n)).val = i := by
          rw [Int.cast_natCast, ZMod.val_natCast, Nat.mod_eq_of_lt (by exact_mod_cast i1)]
        show (((((i : ℤ) : ZMod n)).val : ℝ) - ((n / 2 : ℕ) : ℝ)) / fs = _
        rw [this, show (n : ℤ) / 2 = ((n / 2 : ℕ) : ℤ) by simp]
        push_cast; rfl
      · rw [← e4, ← e1, ← e2, sub_half_cast]
        exact stat_chi x T psd fs ac hN.ne' _
      · intro d' hadm' hd0 b1 b2
        have h1 := hmin _ hadm'
        rw [← e4]
        refine (show _ ≤ _ from h1).trans ?_
        simp only [asIdx, roll, add_half_cast]
        rw [stat_chi x T psd fs ac hN.ne']
        have hmem := (mem_searched n _ nc o wc _ hs _).2 hadm'
        have hreg := hd _ hmem
        rw [add_half_cast] at hreg
        obtain ⟨n1, n2⟩ := stat_normal x T psd fs ac hN.ne' (d' : ZMod n) hd0 (hreg hd0)
        unfold resid2
        rw [hroll0]
        exact normal_eq_min fs _ x T (roll T (d' : ZMod n)) hfs.le (weight_nonneg psd ac hpsd) _ _
          n1 n2 b1 b2

/-- The fit gives `nan` exactly when some admissible non-zero delay reproduces the template up to sign
(a periodic template, for instance), so that the two pulses cannot be told apart there. -/
theorem stationary_nan_iff (x T : ZMod n → ℝ) (psd : ZMod n → WithTop ℝ) (fs : ℝ) (ac : Bool)
    (nc : Option ℤ) (o : Bool) (wc : ℤ) :
    (pileupStationary (init x T psd fs ac false) nc o wc).1 = .error .nan ↔
      (-((n : ℤ) / 2) ≤ wc ∧ wc ≤ (n : ℤ) / 2 - ((n : ℤ) + 1) % 2) ∧ (∀ k, nc = some k → 0 < k) ∧
      ∃ d : ℤ, Admissible n nc o none wc (d + (n : ℤ) / 2) ∧ (d : ZMod n) ≠ 0 ∧
        (traceChi2 fs (weight psd ac) (fun j => T j - 1 * roll T (d : ZMod n) j) = 0 ∨
          traceChi2 fs (weight psd ac) (fun j => T j - (-1) * roll T (d : ZMod n) j) = 0) := by
  have key : ∀ d : ℤ, (init x T psd fs ac false).norm ^ 2 - tfTd (init x T psd fs ac false) (d : ZMod n) ^ 2 = 0 ↔
      (traceChi2 fs (weight psd ac) (fun j => T j - 1 * roll T (d : ZMod n) j) = 0 ∨
        traceChi2 fs (weight psd ac) (fun j => T j - (-1) * roll T (d : ZMod n) j) = 0) := by
    intro d
    rw [init_norm, init_tfTd, traceChi2_expand1, traceChi2_expand1, traceChi2_roll]
    generalize traceChi2 fs (weight psd ac) T = N
    generalize ip fs (weight psd ac) (roll T (d : ZMod n)) T = C
    rw [show N ^ 2 - C ^ 2 = (N - C) * (N + C) by ring, mul_eq_zero]
    constructor
    · rintro (h | h)
      · left; linarith
      · right; linarith
    · rintro (h | h)
      · left; linarith
      · right; linarith
  simp only [pileupStationary]
  split
  · rename_i e he
    have := argmin_only_valueError _ _ _ _ _ _ _ he
    subst this
    rw [argmin_error_iff] at he
    constructor
    · intro h; cases h
    · rintro ⟨h1, h2, -⟩
      rcases he with he | ⟨k, hk, hk0⟩
      · have := NeZero.pos n
        omega
      · have := h2 k hk
        omega
  · rename_i hs
    have h0 := (argmin_none_iff _ _ _ _ _ _ _ hs).1 rfl
    constructor
    · intro h; cases h
    · rintro ⟨-, -, d, hd, -⟩
      exact absurd hd (h0 _)
  · rename_i i hs
    have hok : (-((n : ℤ) / 2) ≤ wc ∧ wc ≤ (n : ℤ) / 2 - ((n : ℤ) + 1) % 2) ∧ (∀ k, nc = some k → 0 < k) := by
      have hne : ¬ (¬ (0 ≤ (n : ℤ) / 2 + wc ∧ (n : ℤ) / 2 + wc < n) ∨ ∃ k, nc = some k ∧ k ≤ 0) := by
        rw [← argmin_error_iff, hs]
        simp
      push Not at hne
      exact ⟨by omega, hne.2⟩
    split_ifs with hd
    · simp only [true_iff]
      refine ⟨hok.1, hok.2, ?_⟩
      obtain ⟨j, hj, hj0, hjd⟩ := hd
      refine ⟨j - (n : ℤ) / 2, ?_, ?_, ?_⟩
      · rw [sub_add_cancel]
        exact (mem_searched n _ nc o wc _ hs _).1 hj
      · rwa [sub_half_cast]
      · rw [← key, sub_half_cast]
        exact hjd
    · constructor
      · intro h; cases h
      · rintro ⟨-, -, d, hadm, hd0, hd1⟩
        refine absurd ⟨d + (n : ℤ) / 2, (mem_searched n _ nc o wc _ hs _).2 hadm, ?_, ?_⟩ hd
        · rwa [add_half_cast]
        · rw [add_half_cast]
          exact (key d).2 hd1

-- a flat template of two samples repeats itself one sample later
example : (pileupStationary (init (n := 2) (fun _ => 1) (fun _ => 1) white 2 false false) none false 0).1
    = .error .nan := by
  rw [stationary_nan_iff]
  refine ⟨by decide, by simp, -1, ?_, by decide, Or.inl ?_⟩
  · simp [Admissible]
  · rw [traceChi2_white]
    simp [roll]

/-- At delay zero the two amplitudes are not optimal: white noise, one-bin template, trace `(1, 0)`
sampled at 2 Hz, second pulse forced to delay zero.  The fit reports amplitudes `(1, 1)` and
chi-square `1/2`, while `(1, 0)` (or `(1/2, 1/2)`) has chi-square zero. -/
theorem stationary_zero_violated :
    (pileupStationary (init (n := 2) delta delta white 2 false false) (some 1) false 0).1
      = .ok (1, 1, 0, 1/2) ∧
    traceChi2 2 (weight white false) (resid2 (n := 2) delta delta 1 0 0 0) = 0 := by
  set st := init (n := 2) delta delta white 2 false false with hst
  have hsf : ∀ m, readSfTd st m = delta m := fun m => delta_sfTd 2 two_ne_zero delta m
  have hN : st.norm = 1/2 := by
    rw [hst, init_norm, delta_norm]
  have h0 : readChi0 st = 1/2 := by
    rw [hst, delta_chi0]
    simp [delta]
  have hT : ∀ m, tfTd st m = if m = 0 then 1/2 else 0 := by
    intro m
    rw [hst, init_tfTd, ip_white]
    simp only [roll, delta]
    split_ifs with hm
    · subst hm; simp
    · have : ∀ j : ZMod 2, (if j - m = 0 then (1 : ℝ) else 0) * (if j = 0 then 1 else 0) = 0 := by
        intro j
        by_cases hj : j = 0
        · subst hj; simp [hm]
        · simp [hj]
      simp [this]
  have hs : ∀ chi : ZMod 2 → ℝ, argminChi2 2 (asIdx chi) (some 1) false none 0 = .ok (some 1) := by
    intro chi
    simp only [argminChi2]
    simp [winInds, arange, argminOn, argminGo, List.range_succ]
  have hr0 : ((1 : ℤ) : ZMod 2) - ((2 / 2 : ℕ) : ZMod 2) = 0 := by decide
  have hA1 : statA1 st 0 = 1 := by simp [statA1, hsf, hN, delta]
  have hA2 : statA2 st 0 = 1 := by simp [statA2, hsf, hN, delta]
  have hC : statChi st 0 = 1/2 := by
    simp only [statChi, hA1, hA2, hsf, hN, hT, h0, delta]; norm_num
  have htime : readTimes st ((1 : ℤ) : ZMod 2) = 0 := by
    show ((((1 : ℤ) : ZMod 2).val : ℝ) - ((2 / 2 : ℕ) : ℝ)) / 2 = 0
    have : (((1 : ℤ) : ZMod 2)).val = 1 := rfl
    rw [this]; norm_num
  refine ⟨?_, ?_⟩
  · simp only [pileupStationary, hs]
    rw [if_neg]
    · simp only [roll, hr0, hA1, hA2, hC, htime]
    · rintro ⟨j, -, hm, h1⟩
      rw [hN, hT, if_neg hm] at h1
      norm_num at h1
  · rw [traceChi2_white]
    simp [resid2, roll]

-- the 2x2 system is regular at the non-zero delay of that example
example : (init (n := 2) delta delta white 2 false false).norm ^ 2
    - tfTd (init (n := 2) delta delta white 2 false false) 1 ^ 2 ≠ 0 := by
  rw [init_norm, delta_norm, init_tfTd, ip_white]
  have hsum : ∀ f : ZMod 2 → ℝ, ∑ k, f k = f 0 + f 1 := fun f => Fin.sum_univ_two f
  rw [hsum]
  have h1 : (0 : ZMod 2) - 1 ≠ 0 := by decide
  have h2 : (1 : ZMod 2) ≠ 0 := by decide
  simp [roll, delta]

/-! ### C38 -/

/-- First pass of `ofamp_baseline`: at every delay the pair (amplitude, baseline) minimises the
chi-square (with the zero-frequency bin restored) over both parameters. -/
theorem baseline_joint (x T : ZMod n → ℝ) (psd : ZMod n → WithTop ℝ) (fs : ℝ) (ac : Bool)
    (hfs : 0 < fs) (hpsd : ∀ k, 0 < psd k) (p0 : ℝ) (hp : psd 0 = (p0 : WithTop ℝ))
    (hD : (baseQ (init x T psd fs ac false) p0).norm * (baseQ (init x T psd fs ac false) p0).c2
      - (baseQ (init x T psd fs ac false) p0).b2 ^ 2 ≠ 0)
    (hc2 : (baseQ (init x T psd fs ac false) p0).c2 ≠ 0) (m : ZMod n) (a b : ℝ) :
    baseChi1 (baseQ (init x T psd fs ac false) p0) m ≤
      traceChi2 fs (weight psd false) (residB x T a m b) := by
  have hr : ∀ a b, residB x T a m b = fun j => x j - a * roll T m j - b * one j := by
    intro a b; funext j; simp [residB, one]
  have hb2 : ip fs (weight psd false) (roll T m) one = ip fs (weight psd false) T one := by
    rw [← ip_roll T one fs _ m, roll_one]
  rw [base_chi1_resid x T psd fs ac p0 hp, hr, hr]
  apply normal_eq_min fs _ x (roll T m) one hfs.le (weight_nonneg psd false hpsd)
  · rw [traceChi2_roll, hb2, ← base_norm x T psd fs ac p0 hp, ← base_b2 x T psd fs ac p0 hp,
      ← base_b1 x T psd fs ac p0 hp]
    have hA : baseAmps (baseQ (init x T psd fs ac false) p0) m *
        ((baseQ (init x T psd fs ac false) p0).norm * (baseQ (init x T psd fs ac false) p0).c2
          - (baseQ (init x T psd fs ac false) p0).b2 ^ 2) = _ := div_mul_cancel₀ _ hD
    unfold baselines
    field_simp
    linear_combination hA
  · rw [hb2, ← base_b2 x T psd fs ac p0 hp, ← base_c2 x T psd fs ac p0 hp,
      ← base_c1 x T psd fs ac p0 hp]
    unfold baselines
    field_simp
    ring

/-- `ofamp_baseline` without interpolation.  There is a baseline `b` belonging to a joint global
optimum over amplitude, delay and baseline, such that the result is the optimum over all admissible
delays and amplitudes of the allowed sign with the baseline fixed to `b`; the reported chi-square is
the residual chi-square.  When no window or direction is imposed the result is itself a joint global
optimum. -/
theorem baseline_optimal (x T : ZMod n → ℝ) (psd : ZMod n → WithTop ℝ) (fs : ℝ) (ac : Bool)
    (hfs : 0 < fs) (hpsd : ∀ k, 0 < psd k)
    (nc : Option ℤ) (o : Bool) (dir wc : ℤ) (a t c : ℝ)
    (h : baseline (init x T psd fs ac false) nc o dir wc false = .ok (a, t, c)) :
    ∃ b : ℝ,
      (∃ a' m', ∀ a'' m'' b'', traceChi2 fs (weight psd false) (residB x T a' m' b) ≤
        traceChi2 fs (weight psd false) (residB x T a'' m'' b'')) ∧
      (∃ d : ℤ, t = d / fs ∧ c = traceChi2 fs (weight psd false) (residB x T a (d : ZMod n) b) ∧
        (Admissible n nc o none wc (d + (n : ℤ) / 2) ∨ (a = 0 ∧ d = 0))) ∧
      (dir = 1 → 0 ≤ a) ∧ (dir = -1 → a ≤ 0) ∧
      (∀ (d : ℤ) (a' : ℝ), Admissible n nc o none wc (d + (n : ℤ) / 2) →
        (dir = 1 → 0 ≤ a') → (dir = -1 → a' ≤ 0) →
        c ≤ traceChi2 fs (weight psd false) (residB x T a' (d : ZMod n) b)) ∧
      (nc = none → dir = 0 → ∀ a' m' b',
        c ≤ traceChi2 fs (weight psd false) (residB x T a' m' b')) := by
  have hpsd0 : (init x T psd fs ac false).psd0 = psd 0 := rfl
  unfold baseline at h
  rw [hpsd0] at h
  split at h
  · simp at h
  · rename_i p0 hp
    simp only at h
    split_ifs at h with hbad
    push Not at hbad
    obtain ⟨hD, hc2, hNorm⟩ := hbad
    split at h
    · simp at h
    · rename_i i0 hi0
      set q := baseQ (init x T psd fs ac false) p0 with hq
      set bs := baselines q (i0 : ZMod n) with hbs
      have hqn : q.norm = traceChi2 fs (weight psd false) T := base_norm x T psd fs ac p0 hp
      have hNp : 0 < q.norm := by
        refine lt_of_le_of_ne ?_ (Ne.symm hNorm)
        rw [hqn]; exact ip_nonneg _ _ _ hfs.le (weight_nonneg psd false hpsd)
      have hNT : traceChi2 fs (weight psd false) T ≠ 0 := by rw [← hqn]; exact hNorm
      have hr : ∀ a m b, residB x T a m b = fun j => x j - a * roll T m j - b * one j := by
        intro a m b; funext j; simp [residB, one]
      have hb2 : ∀ m, ip fs (weight psd false) (roll T m) one = ip fs (weight psd false) T one := by
        intro m; rw [← ip_roll T one fs _ m, roll_one]
      -- global minimality of the first pass
      have hglob : ∀ a'' m'' b'', baseChi1 q (i0 : ZMod n) ≤
          traceChi2 fs (weight psd false) (residB x T a'' m'' b'') := by
        intro a'' m'' b''
        refine le_trans ?_ (baseline_joint x T psd fs ac hfs hpsd p0 hp hD hc2 m'' a'' b'')
        obtain ⟨-, h2, -⟩ := argminOn_spec _ _ (arange_sorted 0 n) i0 hi0
        have := h2 (m''.val : ℤ) ((mem_arange _ _ _).2 ⟨by omega, by exact_mod_cast ZMod.val_lt m''⟩)
        simp only [asIdx, Int.cast_natCast, ZMod.natCast_zmod_val] at this
        exact this
      -- second pass
      have hsq : ∀ (a' : ℝ) (m : ZMod n), traceChi2 fs (weight psd false) (residB x T a' m bs) =
          baseChi0 q bs - baseAmps2 q bs m ^ 2 * q.norm + (a' - baseAmps2 q bs m) ^ 2 * q.norm := by
        intro a' m
        rw [hr, fixed_b_expand _ _ _ _ _ (by rw [traceChi2_roll]; exact hNT), traceChi2_roll, hb2]
        unfold baseChi0 baseAmps2
        rw [hq, base_norm x T psd fs ac p0 hp, base_b1 x T psd fs ac p0 hp,
          base_b2 x T psd fs ac p0 hp, base_c1 x T psd fs ac p0 hp, base_c2 x T psd fs ac p0 hp,
          base_chi0 x T psd fs ac p0 hp]
      have hchi2 : ∀ m, baseChi2 q bs m = baseChi0 q bs - baseAmps2 q bs m ^ 2 * q.norm := by
        intro m
        have : q.b1 m = baseAmps2 q bs m * q.norm + bs * q.b2 := by
          unfold baseAmps2; field_simp; ring
        unfold baseChi2
        simp only
        rw [this]; ring
      have hfirst : baseChi1 q (i0 : ZMod n) =
          traceChi2 fs (weight psd false) (residB x T (baseAmps q (i0 : ZMod n)) (i0 : ZMod n) bs) :=
        base_chi1_resid x T psd fs ac p0 hp _
      set amps := roll (baseAmps2 q bs) ((n / 2 : ℕ) : ZMod n) with hamps
      set chi := roll (baseChi2 q bs) ((n / 2 : ℕ) : ZMod n) with hchi
      have fin : ∀ r, search amps chi nc o dir wc = .ok r →
          (r = none ∧ a = 0 ∧ c = baseChi0 q bs ∨
            ∃ i : ℤ, r = some i ∧ a = amps (i : ZMod n) ∧ c = chi (i : ZMod n)) →
          (dir = 1 → 0 ≤ a) ∧ (dir = -1 → a ≤ 0) ∧
          (∀ (d : ℤ) (a' : ℝ), Admissible n nc o none wc (d + (n : ℤ) / 2) →
            (dir = 1 → 0 ≤ a') → (dir = -1 → a' ≤ 0) →
            c ≤ traceChi2 fs (weight psd false) (residB x T a' (d : ZMod n) bs)) ∧
          (nc = none → dir = 0 → ∀ a' m' b',
            c ≤ traceChi2 fs (weight psd false) (residB x T a' m' b')) := by
        intro r hs hr'
        obtain ⟨g1, g2, -, h2⟩ := search_optimum amps chi _ _ hNp
          (fun i => hchi2 (i - ((n / 2 : ℕ) : ZMod n))) nc o dir wc r hs a c hr'
        have h3 : ∀ (d : ℤ) (a' : ℝ), Admissible n nc o none wc (d + (n : ℤ) / 2) →
            (dir = 1 → 0 ≤ a') → (dir = -1 → a' ≤ 0) →
            c ≤ traceChi2 fs (weight psd false) (residB x T a' (d : ZMod n) bs) := by
          intro d a' hd hb1 hb2'
          have := h2 _ a' hd hb1 hb2'
          simp only [hamps, roll, add_half_cast] at this
          rw [hsq]; exact this
        refine ⟨g1, g2, h3, fun hnc hdir a' m' b' => ?_⟩
        refine le_trans ?_ (hglob a' m' b')
        rw [hfirst]
        obtain ⟨d', hd', k1, k2⟩ := exists_index ((i0 : ZMod n))
        rw [← hd']
        refine h3 d' _ ⟨k1, k2, ?_, by simp⟩ (by omega) (by omega)
        subst hnc; simp
      refine ⟨bs, ⟨baseAmps q (i0 : ZMod n), (i0 : ZMod n), fun a'' m'' b'' => hfirst ▸ hglob a'' m'' b''⟩, ?_⟩
      simp only [pick] at h
      split at h
      · simp at h
      · rename_i hs
        simp only [Except.ok.injEq, Prod.mk.injEq] at h
        obtain ⟨e1, e2, e3⟩ := h
        refine ⟨⟨0, by simp [← e2], ?_, Or.inr ⟨e1.symm, rfl⟩⟩, fin _ hs (Or.inl ⟨rfl, e1.symm, e3.symm⟩)⟩
        rw [hsq, ← e1, ← e3]; ring
      · rename_i i hs
        simp only [Bool.false_eq_true, if_false, Except.ok.injEq, Prod.mk.injEq] at h
        obtain ⟨e1, e2, e3⟩ := h
        have hadm := (search_spec _ _ _ _ _ _ _ hs).2.1.1
        refine ⟨⟨i - (n : ℤ) / 2, ?_, ?_, Or.inl ?_⟩, fin _ hs (Or.inr ⟨i, rfl, e1.symm, e3.symm⟩)⟩
        · rw [← e2, show (n : ℤ) / 2 = ((n / 2 : ℕ) : ℤ) by simp]
          push_cast; rfl
        · rw [hsq, ← e3, ← e1, sub_half_cast]
          simp only [hchi, hamps, roll]
          rw [hchi2]; ring
        · rw [sub_add_cancel]; exact hadm

/-- `ofamp_baseline` returns whenever the noise is finite and positive in every bin and the template is not
constant, if the window is not empty and starts inside the trace. -/
theorem baseline_defined (x T : ZMod n → ℝ) (psd : ZMod n → WithTop ℝ) (fs : ℝ) (ac : Bool) (hfs : 0 < fs)
    (hpsd : ∀ k, 0 < psd k) (hfin : ∀ k, psd k ≠ ⊤) (hT : ∀ b : ℝ, ∃ j, T j ≠ b)
    (nc : Option ℤ) (o : Bool) (dir wc : ℤ) (hdir : dir = 0 ∨ dir = 1 ∨ dir = -1)
    (hwc : 0 ≤ (n : ℤ) / 2 + wc ∧ (n : ℤ) / 2 + wc < n) (hk : ∀ k, nc = some k → 0 < k) :
    ∃ a t c, baseline (init x T psd fs ac false) nc o dir wc false = .ok (a, t, c) := by
  obtain ⟨p0, hp⟩ := WithTop.ne_top_iff_exists.1 (hfin 0)
  have hone : 0 < traceChi2 fs (weight psd false) (one : ZMod n → ℝ) := by
    refine traceChi2_pos fs hfs psd hpsd hfin _ fun h => ?_
    simpa [one] using congrFun h 0
  have hsub : ∀ b : ℝ, 0 < traceChi2 fs (weight psd false) fun j => T j - b * one j := by
    intro b
    refine traceChi2_pos fs hfs psd hpsd hfin _ fun h => ?_
    obtain ⟨j, hj⟩ := hT b
    have := congrFun h j
    simp only [one, mul_one, Pi.zero_apply] at this
    exact hj (by linarith)
  exact baseline_ok x T psd fs ac p0 hp.symm hone hsub nc o dir wc hdir hwc hk

-- regular normal equations: one-bin template, white noise, two bins
example : (baseQ (init (n := 2) delta delta white 1 true false) 1).norm
    * (baseQ (init (n := 2) delta delta white 1 true false) 1).c2
    - (baseQ (init (n := 2) delta delta white 1 true false) 1).b2 ^ 2 ≠ 0 := by
  rw [base_norm _ _ _ _ _ 1 rfl, base_c2 _ _ _ _ _ 1 rfl, base_b2 _ _ _ _ _ 1 rfl, delta_norm,
    traceChi2_white, ip_white]
  have hsum : ∀ f : ZMod 2 → ℝ, ∑ k, f k = f 0 + f 1 := fun f => Fin.sum_univ_two f
  have h2 : (1 : ZMod 2) ≠ 0 := by decide
  rw [hsum, hsum]
  simp [one, delta]

/-- Adding a constant to the signal does not change what `ofamp_baseline` returns, with either
coupling. -/
theorem baseline_offset_invariant (x T : ZMod n → ℝ) (psd : ZMod n → WithTop ℝ) (fs : ℝ) (ac : Bool)
    (u : ℝ) (nc : Option ℤ) (o : Bool) (dir wc : ℤ) (interp : Bool) :
    baseline (init (fun j => x j + u) T psd fs ac false) nc o dir wc interp =
      baseline (init x T psd fs ac false) nc o dir wc interp := by
  have hpsd0 : ∀ y, (init y T psd fs ac false).psd0 = psd 0 := fun _ => rfl
  unfold baseline
  rw [hpsd0, hpsd0]
  cases hp : psd 0 with
  | top => rfl
  | coe p0 =>
    simp only
    have hx : (fun j => x j + u) = fun j => x j + u * (one : ZMod n → ℝ) j := by
      funext j; simp [one]
    set q := baseQ (init x T psd fs ac false) p0 with hq
    set q' := baseQ (init (fun j => x j + u) T psd fs ac false) p0 with hq'
    have e1 : q'.norm = q.norm := by
      rw [hq', hq, base_norm _ T psd fs ac p0 hp, base_norm _ T psd fs ac p0 hp]
    have e2 : q'.b2 = q.b2 := by
      rw [hq', hq, base_b2 _ T psd fs ac p0 hp, base_b2 _ T psd fs ac p0 hp]
    have e3 : q'.c2 = q.c2 := by
      rw [hq', hq, base_c2 _ T psd fs ac p0 hp, base_c2 _ T psd fs ac p0 hp]
    have e4 : ∀ m, q'.b1 m = q.b1 m + u * q.b2 := by
      intro m
      rw [hq', hq, base_b1 _ T psd fs ac p0 hp, base_b1 _ T psd fs ac p0 hp,
        base_b2 _ T psd fs ac p0 hp, hx, ip_add_right, ip_smul_right, ← ip_roll T one fs _ m, roll_one]
    have e5 : q'.c1 = q.c1 + u * q.c2 := by
      rw [hq', hq, base_c1 _ T psd fs ac p0 hp, base_c1 _ T psd fs ac p0 hp,
        base_c2 _ T psd fs ac p0 hp, hx, ip_add_right, ip_smul_right, ip_self]
    have e6 : q'.chi0 = q.chi0 + 2 * u * q.c1 + u ^ 2 * q.c2 := by
      rw [hq', hq, base_chi0 _ T psd fs ac p0 hp, base_chi0 _ T psd fs ac p0 hp,
        base_c1 _ T psd fs ac p0 hp, base_c2 _ T psd fs ac p0 hp]
      have := traceChi2_expand1 fs (weight psd false) x one (-u)
      simp only [neg_mul, sub_neg_eq_add] at this
      rw [hx, this]; ring
    have hfs : (init (fun j => x j + u) T psd fs ac false).fs = (init x T psd fs ac false).fs := rfl
    rw [e1, e2, e3, hfs]
    clear_value q q'
    by_cases hbad : q.norm * q.c2 - q.b2 ^ 2 = 0 ∨ q.c2 = 0 ∨ q.norm = 0
    · rw [if_pos hbad, if_pos hbad]
    rw [if_neg hbad, if_neg hbad]
    push Not at hbad
    obtain ⟨hD, hc2, hN⟩ := hbad
    have f1 : baseAmps q' = baseAmps q := by
      funext m
      unfold baseAmps
      rw [e1, e2, e3, e4, e5]
      congr 1; ring
    have f2 : ∀ m, baselines q' m = baselines q m + u := by
      intro m
      unfold baselines
      rw [f1, e2, e3, e5]
      field_simp; ring
    have f3 : baseChi1 q' = baseChi1 q := by
      funext m
      have hA : baselines q m * q.c2 = q.c1 - baseAmps q m * q.b2 := div_mul_cancel₀ _ hc2
      unfold baseChi1
      simp only
      rw [f1, f2, e1, e2, e3, e4, e5, e6]
      ring
    rw [f3]
    cases argminOn (asIdx (baseChi1 q)) (arange 0 n) with
    | none => rfl
    | some i0 =>
      simp only
      have g1 : baseAmps2 q' (baselines q' (i0 : ZMod n)) = baseAmps2 q (baselines q (i0 : ZMod n)) := by
        funext m
        unfold baseAmps2
        rw [e1, e2, e4, f2]
        congr 1; ring
      have g2 : baseChi0 q' (baselines q' (i0 : ZMod n)) = baseChi0 q (baselines q (i0 : ZMod n)) := by
        unfold baseChi0
        rw [e6, e5, e3, f2]; ring
      have g3 : baseChi2 q' (baselines q' (i0 : ZMod n)) = baseChi2 q (baselines q (i0 : ZMod n)) := by
        funext m
        unfold baseChi2
        simp only
        rw [g1, g2, e1, e2, e4, f2]; ring
      rw [g1, g2, g3]

end Verif.OF
