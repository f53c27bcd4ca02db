import Verif.DidvRecoverProps

/-! Concrete cases for property C133 at the level of `dofit`. -/

namespace Verif.Didv
open Verif

theorem twoPole_ne {f A B t1 t2 : ℝ} (hA : 0 < A) (hB : 0 ≤ B) : twoPoleZ f A B t1 t2 ≠ 0 := by
  intro h
  have h1 := one_jw_ne f t1
  unfold twoPoleZ at h
  rw [jw_ang] at h h1
  generalize 2 * Real.pi * f = w at h h1
  have e : (A * (1 + (w : ℂ) * Complex.I * t2)) * (1 + (w : ℂ) * Complex.I * t1) + B = 0 := by
    have := congrArg (· * (1 + (w : ℂ) * Complex.I * t1)) h
    simp only [zero_mul, add_mul, div_mul_cancel₀ _ h1] at this
    linear_combination this
  have hr := congrArg Complex.re (congrArg (· * (1 - (w : ℂ) * Complex.I * t1)) e)
  simp at hr
  have : A * (1 + (w * t1) ^ 2) + B = 0 := by nlinarith [hr]
  have p : 0 < A * (1 + (w * t1) ^ 2) := by positivity
  linarith

/-- A complex number with positive real part has an inverse with positive real part. -/
theorem inv_re_pos {z : ℂ} (h : 0 < z.re) : 0 < (1 / z).re := by
  have hz : z ≠ 0 := fun e => by rw [e] at h; exact lt_irrefl _ h
  rw [one_div, Complex.inv_re]
  exact div_pos h (Complex.normSq_pos.2 hz)

theorem one_jw_re (f t : ℝ) : (1 + jw f * t).re = 1 := by
  rw [jw_ang]
  simp

/-- The shapes of the parameters used below: positive numbers. -/
theorem fitY_one_def {f A t2 d : ℝ} (hA : 0 < A) : ∃ y, fitY f [A, t2, d] = .ok y := by
  unfold fitY onePoleY recipZ onePoleZ
  simp only
  rw [if_neg (mul_ne_zero (Complex.ofReal_ne_zero.2 hA.ne') (one_jw_ne f t2))]
  exact ⟨_, rfl⟩

theorem fitY_two_def {f A B t1 t2 d : ℝ} (hA : 0 < A) (hB : 0 ≤ B) : ∃ y, fitY f [A, B, t1, t2, d] = .ok y := by
  unfold fitY twoPoleY recipZ
  simp only
  rw [if_neg (twoPole_ne hA hB)]
  exact ⟨_, rfl⟩

theorem fitY_three_def {f A B C t1 t2 t3 d : ℝ} (hA : 0 < A) (hB : 0 ≤ B) (hC : 0 ≤ C) (hC1 : C < 1) :
    ∃ y, fitY f [A, B, C, t1, t2, t3, d] = .ok y := by
  have hn3 := one_jw_ne f t3
  have hle : (1 / (1 + jw f * t3)).re ≤ 1 := by
    rw [one_div, Complex.inv_re, one_jw_re, div_le_one (Complex.normSq_pos.2 hn3), Complex.normSq_apply, one_jw_re]
    nlinarith [mul_self_nonneg (1 + jw f * (t3 : ℂ)).im]
  have hden : 0 < (1 + jw f * t1 - C / (1 + jw f * t3)).re := by
    rw [Complex.sub_re, one_jw_re, div_eq_mul_one_div, Complex.re_ofReal_mul]
    nlinarith
  have hd0 : 1 + jw f * t1 - C / (1 + jw f * t3) ≠ 0 := fun e => by rw [e] at hden; exact lt_irrefl _ hden
  have hz : A * (1 + jw f * t2) + B / (1 + jw f * t1 - C / (1 + jw f * t3)) ≠ 0 := by
    intro e
    have := congrArg Complex.re e
    rw [Complex.add_re, Complex.re_ofReal_mul, one_jw_re, div_eq_mul_one_div, Complex.re_ofReal_mul,
      Complex.zero_re] at this
    have := mul_nonneg hB (inv_re_pos hden).le
    linarith
  unfold fitY threePoleY threePoleZ recipZ
  simp only
  rw [if_neg (by tauto)]
  simp only
  rw [if_neg hz]
  exact ⟨_, rfl⟩

/-- Sixty-four samples of one period. -/
noncomputable def demoTr (i : ℕ) : ℝ := if i < 16 then 1 else 0

/-- The object made from averages on the model with the parameters `v`, with error bars of one. -/
noncomputable def demoInit (v : List ℝ) (r0 : ℝ := 1) (rp : ℝ := 0) : Except Err Obj :=
  initFromData 64 demoTr (fun k => ((fitY (freqAt 64 64 k) v).toOption.getD 0)) (fun _ => 1 + Complex.I) 0 0 64 1 1 1 r0 rp
    false (1 / 128)

/-- What is needed of it. -/
structure Demo (v : List ℝ) (o : Obj) (p : Proc) (r0 : ℝ := 1) (rp : ℝ := 0) : Prop where
  init : demoInit v r0 rp = .ok o
  proc : o.proc = some p
  fs : o.fs = 64
  sgamp : o.sgamp = 1
  rsh : o.rsh = 1
  r0 : o.r0 = r0
  rp : o.rp = rp
  sgfreq : o.sgfreq = 1
  add180 : o.add180 = false
  dt0 : o.dt0 = 1 / 128
  res2 : o.res2 = none
  nbins : p.nbins = 64
  tmean : p.tmean = demoTr
  flat : p.flatinds = [16, 17, 18, 19, 20, 21, 22, 23, 24, 25, 26, 27, 28, 29]
  mean : p.didvmean = fun k => ((fitY (freqAt 64 64 k) v).toOption.getD 0)
  std : p.didvstd = fun _ => 1 + Complex.I
  offset : p.offset = 0
  offsetErr : p.offsetErr = 0

theorem demo_flat : flatInds 1 64 64 1 (1 / 128) = [16, 17, 18, 19, 20, 21, 22, 23, 24, 25, 26, 27, 28, 29] := by
  have e1 : OF.trunc (((0 : ℕ) + 1 / 4 : ℝ) * (64 / 1)) = 16 := by
    unfold OF.trunc; rw [if_neg (by norm_num), Int.floor_eq_iff]; norm_num
  have e2 : OF.trunc (((0 : ℕ) + 48 / 100 : ℝ) * (64 / 1)) = 30 := by
    unfold OF.trunc; rw [if_neg (by norm_num), Int.floor_eq_iff]; norm_num
  have e3 : OF.trunc (1 / 128 * 64) = 0 := by
    unfold OF.trunc; rw [if_neg (by norm_num), Int.floor_eq_iff]; norm_num
  have hr : List.range 1 = [0] := rfl
  unfold flatInds
  rw [hr]
  simp only [List.flatMap_cons, List.flatMap_nil, List.append_nil]
  rw [e1, e2, e3]
  decide

theorem demo_init (v : List ℝ) (r0 : ℝ := 1) (rp : ℝ := 0) : ∃ o p, Demo v o p r0 rp := by
  have hb : ¬ ((1 : ℝ) = 0 ∨ (64 : ℝ) - 1 * ⌊(64 : ℝ) / 1⌋ ≠ 0) := by
    have : ⌊(64 : ℝ) / 1⌋ = 64 := by rw [Int.floor_eq_iff]; norm_num
    rw [this]; norm_num
  have hn : ⌊((64 : ℕ) : ℝ) * 1 / 64⌋.toNat = 1 := by
    have : ⌊((64 : ℕ) : ℝ) * 1 / 64⌋ = 1 := by rw [Int.floor_eq_iff]; norm_num
    rw [this]; rfl
  have h : ∃ o, demoInit v r0 rp = .ok o := by
    unfold demoInit initFromData create
    simp only
    rw [if_neg (fun h => hb h.1), if_neg hb]
    exact ⟨_, rfl⟩
  obtain ⟨o, ho⟩ := h
  have ho' := ho
  unfold demoInit initFromData create at ho'
  simp only at ho'
  rw [if_neg (fun h => hb h.1), if_neg hb] at ho'
  cases ho'
  refine ⟨_, _, ho, rfl, rfl, rfl, rfl, rfl, rfl, rfl, rfl, by simp, rfl, rfl, rfl, ?_, rfl, rfl, rfl, rfl⟩
  simp only [hn]
  exact demo_flat

theorem demo_guess {v : List ℝ} {o : Obj} {p : Proc} {r0 rp : ℝ} (h : Demo v o p r0 rp) : guessSub1 p.trace p.flat = true ∧
    startGuess o p 1 = .ok ((1, -6 / 10, -6 / 10, -1 / (2 * Real.pi * 500), 1 / 10 ^ 6, 0, 1 / 128), false) ∧
    startGuess o p 2 = .ok ((1, -1, -6 / 10, -100 / 10 ^ 6, 1 / 10 ^ 7, 0, 1 / 128), true) ∧
    startGuess o p 3 = .ok ((1, -1, -5 / 100, -100 / 10 ^ 6, 1 / 10 ^ 7, 1 / 10 ^ 3, 1 / 128), true) := by
  have e1 : p.trace = List.replicate 16 1 ++ List.replicate 48 0 := by
    unfold Proc.trace
    rw [h.nbins, h.tmean]
    simp [List.range, List.range.loop, demoTr, List.replicate]
  have e2 : p.flat = List.replicate 14 0 := by
    unfold Proc.flat
    rw [h.flat, h.tmean]
    simp [demoTr, List.replicate]
  have m1 : lmean p.trace = 1 / 4 := by
    rw [e1]; simp [lmean]; norm_num
  have m2 : lmean p.flat = 0 := by rw [e2]; simp [lmean]
  have m3 : lmax p.trace = 1 := by rw [e1]; simp [lmax, List.replicate]
  have m4 : lmin p.trace = 0 := by rw [e1]; simp [lmin, List.replicate]
  have hne : p.flat ≠ [] := by rw [e2]; simp [List.replicate]
  have hs1 : guessSub1 p.trace p.flat = true := by
    unfold guessSub1
    rw [if_neg hne, m1, m2]
    simp
  have hg : guessParams p.trace p.flat o.sgamp o.rsh (1 / 10 ^ 7) = .ok (1, -1, -100 / 10 ^ 6, 1 / 10 ^ 7) := by
    unfold guessParams
    rw [hs1, m1, m2, m3, h.sgamp, h.rsh, if_neg (by simp [hne])]
    simp only
    rw [if_neg (by norm_num)]
    norm_num
  refine ⟨hs1, ?_, ?_, ?_⟩
  · unfold startGuess squareGuess
    rw [if_pos rfl, m3, m4, if_neg (by norm_num), h.sgamp, h.rsh, h.dt0]
    norm_num
  · unfold startGuess
    rw [if_neg (by norm_num), if_pos rfl, hg, hs1, h.dt0]
  · unfold startGuess
    rw [if_neg (by norm_num), if_neg (by norm_num), h.res2]
    simp only [hg, hs1, h.dt0]
    norm_num [abs_of_nonpos, abs_of_neg]

theorem residual_def {l : List Pt} {v : List ℝ} (hv : ∀ f, ∃ y, fitY f v = .ok y)
    (h : ∀ p ∈ l, p.err.re ≠ 0 ∧ p.err.im ≠ 0) : ∃ r, residual l v = .ok r := by
  induction l with
  | nil => exact ⟨[], rfl⟩
  | cons q l ih =>
    obtain ⟨r, hr⟩ := ih fun p hp => h p (List.mem_cons_of_mem _ hp)
    obtain ⟨y, hy⟩ := hv q.f
    have := h q List.mem_cons_self
    simp only [residual, hy, hr]
    rw [if_neg (by tauto)]
    exact ⟨_, rfl⟩

theorem demo_freq (j : ℕ) (hj : j < 12) : freqAt 64 64 (2 * j + 1) = (2 * j + 1) * 1 := by
  have : Dft.freqIdx ((2 * j + 1 : ℕ) : ZMod 64) = 2 * j + 1 := by
    interval_cases j <;> decide
  change ((Dft.freqIdx ((2 * j + 1 : ℕ) : ZMod 64) : ℤ) : ℝ) * 64 / ((63 + 1 : ℕ) : ℝ) = _
  rw [this]
  push_cast
  ring

/-- The data of a demo lie on the model, at the odd harmonics among others, and the optimiser can be started. -/
theorem demo_data {v : List ℝ} {o : Obj} {p : Proc} {r0 rp : ℝ} (h : Demo v o p r0 rp) (hv : ∀ f, ∃ y, fitY f v = .ok y) :
    (∀ k < p.nbins, fitY (freqAt p.nbins o.fs k) v = .ok (p.didvmean k)) ∧
    (∀ j : ℕ, j < 12 → ∃ k < p.nbins, freqAt p.nbins o.fs k = (2 * j + 1) * 1) ∧
    ∀ w : List ℝ, (∀ f, ∃ y, fitY f w = .ok y) → ∃ r, residual (fitPts p o.fs none) w = .ok r := by
  refine ⟨fun k _ => ?_, fun j hj => ⟨2 * j + 1, by rw [h.nbins]; omega, by rw [h.nbins, h.fs]; exact demo_freq j hj⟩,
    fun w hw => residual_def hw fun q hq => ?_⟩
  · rw [h.nbins, h.fs, h.mean]
    obtain ⟨y, hy⟩ := hv (freqAt 64 64 k)
    simp only [hy]
    rfl
  · obtain ⟨k, -, -, rfl⟩ := mem_fitPts.1 hq
    rw [h.std]
    simp

/-- From averages to the fit result, for a detector with loop gain below one made with `didvinitfromdata`. -/
theorem demo_fit_two_general {A r0 rp : ℝ} (hA : 0 < A) (hc : ∀ dt cov ft cost, ∃ r, fitResult [A, 1, 1, 1, dt] cov ft cost 1 rp r0 =
    .ok r) : ∃ x : Ext, Finds x.ls ∧ ∃ o p, Demo [A, 1, 1, 1, 0] o p r0 rp ∧ (dofit x o 2 none).1 = .ok () ∧
    (∀ k < p.nbins, fitY (freqAt p.nbins o.fs k) [A, 1, 1, 1, 0] = .ok (p.didvmean k)) ∧
    (∀ j : ℕ, j < 8 → ∃ k < p.nbins, freqAt p.nbins o.fs k = (2 * j + 1) * 1) ∧
    guessSub1 p.trace p.flat = true := by
  obtain ⟨ls, hls, hcov⟩ := finds_exists
  obtain ⟨o, p, D⟩ := demo_init [A, 1, 1, 1, 0] r0 rp
  obtain ⟨hs1, -, hg, -⟩ := demo_guess D
  obtain ⟨hd, hh, hres⟩ := demo_data D fun f => fitY_two_def hA zero_le_one
  refine ⟨⟨ls, fun _ q => q, fun _ q => q⟩, hls, o, p, D, ?_, hd, fun j hj => hh j (by omega), hs1⟩
  obtain ⟨r, hr⟩ := hres [1, 1, 100 / 10 ^ 6, 1 / 10 ^ 7, 1 / 128] fun f => fitY_two_def one_pos zero_le_one
  have h2 : List.Forall₂ inB [(1 : ℝ), 1, 100 / 10 ^ 6, 1 / 10 ^ 7, 1 / 128]
      [(some 0, none), (some 0, none), (some 0, none), (some 0, none), (none, none)] :=
    .cons (inB_pos zero_le_one) (.cons (inB_pos zero_le_one) (.cons (inB_pos (by norm_num))
      (.cons (inB_pos (by norm_num)) (.cons (inB_free _) .nil))))
  have hfit : ∃ q, fitdidv ls (fitPts p o.fs none) 2 1 (-1) (-6 / 10) (-100 / 10 ^ 6) (1 / 10 ^ 7) 0 (1 / 128)
      (some true) = .ok q := by
    have e : starts 2 1 (-1) (-6 / 10) (-100 / 10 ^ 6) (1 / 10 ^ 7) 0 (1 / 128) =
        ([1, -1, -100 / 10 ^ 6, 1 / 10 ^ 7, 1 / 128],
          [(some 0, none), (none, some 0), (none, some 0), (some 0, none), (none, none)],
          [1, 1, 100 / 10 ^ 6, 1 / 10 ^ 7, 1 / 128],
          [(some 0, none), (some 0, none), (some 0, none), (some 0, none), (none, none)]) := by
      unfold starts
      norm_num
    unfold fitdidv
    rw [e]
    unfold leastSquares
    simp only
    rw [if_neg (not_not.2 h2), if_neg (by
      simp only [List.map_cons, List.map_nil, List.mem_cons, List.not_mem_nil, or_false, not_exists, not_and, not_le]
      rintro s (rfl | rfl | rfl | rfl | rfl) <;> norm_num), hr]
    simp only [hcov]
    exact ⟨_, rfl⟩
  obtain ⟨⟨params, cov, cost⟩, hfit⟩ := hfit
  obtain ⟨-, dt', rfl, -⟩ := two_pole_recovered (f0 := 1) hls hfit (fun q hq => by
      obtain ⟨k, h1, -, rfl⟩ := mem_fitPts.1 hq
      exact hd k h1) one_ne_zero (fun j hj => by
      obtain ⟨k, h1, e⟩ := hh j (by omega)
      exact ⟨_, mem_fitPts.2 ⟨k, h1, by simp, rfl⟩, e⟩) hA zero_le_one
    (Or.inr ⟨one_pos, one_pos, by simp⟩)
  have hrun : ∃ r, runFit ⟨ls, fun _ q => q, fun _ q => q⟩ o p 2 none = .ok r := by
    unfold runFit
    rw [hg]
    simp only [hfit, findPoleFallTimes, D.rsh, D.r0, D.rp]
    rw [if_neg (by positivity)]
    exact hc _ _ _ _
  obtain ⟨r, hrun⟩ := hrun
  unfold dofit
  simp only [D.proc, hrun]
  norm_num

/-- A detector with loop gain below one, made with `didvinitfromdata` and fitted with `dofit`, meets every hypothesis of
`dofit_two_recovered_partial`. -/
theorem demo_fit_two : ∃ x : Ext, Finds x.ls ∧ ∃ o p, Demo [1, 1, 1, 1, 0] o p ∧
    (dofit x o 2 none).1 = .ok () ∧
    (∀ k < p.nbins, fitY (freqAt p.nbins o.fs k) [1, 1, 1, 1, 0] = .ok (p.didvmean k)) ∧
    (∀ j : ℕ, j < 8 → ∃ k < p.nbins, freqAt p.nbins o.fs k = (2 * j + 1) * 1) ∧
    guessSub1 p.trace p.flat = true :=
  demo_fit_two_general one_pos fun dt cov ft cost => by
    simp only [fitResult, convertTo]
    rw [if_neg (by norm_num)]
    simp only [sspArgs, complexadmittance, compleximpedance, poleExtractor]
    norm_num [convertFrom, recipZ, twoPoleZ, jw]

example : ∃ x : Ext, Finds x.ls ∧ ∃ o p, demoInit [1, 1, 1, 1, 0] = .ok o ∧ o.proc = some p ∧
    (dofit x o 2 none).1 = .ok () ∧
    (∀ k < p.nbins, fitY (freqAt p.nbins o.fs k) [1, 1, 1, 1, 0] = .ok (p.didvmean k)) ∧
    (∀ j : ℕ, j < 8 → ∃ k < p.nbins, freqAt p.nbins o.fs k = (2 * j + 1) * 1) ∧
    guessSub1 p.trace p.flat = true := by
  obtain ⟨x, hx, o, p, D, h⟩ := demo_fit_two
  exact ⟨x, hx, o, p, D.init, D.proc, h⟩

/-- The same with three poles. -/
theorem demo_fit_three_general {A r0 rp : ℝ} (hA : 0 < A) (hc : ∀ dt cov ft cost, ∃ r,
    fitResult [A, 1, 1 / 2, 1, 1, 1, dt] cov ft cost 1 rp r0 = .ok r) :
    ∃ x : Ext, Finds x.ls ∧ ∃ o p, Demo [A, 1, 1 / 2, 1, 1, 1, 0] o p r0 rp ∧ (dofit x o 3 none).1 = .ok () ∧
    (∀ k < p.nbins, fitY (freqAt p.nbins o.fs k) [A, 1, 1 / 2, 1, 1, 1, 0] = .ok (p.didvmean k)) ∧
    (∀ j : ℕ, j < 12 → ∃ k < p.nbins, freqAt p.nbins o.fs k = (2 * j + 1) * 1) ∧
    guessSub1 p.trace p.flat = true := by
  obtain ⟨ls, hls, hcov⟩ := finds_exists
  obtain ⟨o, p, D⟩ := demo_init [A, 1, 1 / 2, 1, 1, 1, 0] r0 rp
  obtain ⟨hs1, -, -, hg⟩ := demo_guess D
  obtain ⟨hd, hh, hres⟩ := demo_data D fun f => fitY_three_def hA zero_le_one (by norm_num) (by norm_num)
  refine ⟨⟨ls, fun _ q => q, fun _ q => q⟩, hls, o, p, D, ?_, hd, hh, hs1⟩
  obtain ⟨r, hr⟩ := hres [1, 1, 5 / 100, 100 / 10 ^ 6, 1 / 10 ^ 7, 1 / 10 ^ 3, 1 / 128] fun f =>
    fitY_three_def one_pos zero_le_one (by norm_num) (by norm_num)
  have h2 : List.Forall₂ inB [(1 : ℝ), 1, 5 / 100, 100 / 10 ^ 6, 1 / 10 ^ 7, 1 / 10 ^ 3, 1 / 128]
      [(some 0, none), (some 0, none), (some 0, none), (some 0, none), (some 0, none), (some 0, none), (none, none)] :=
    .cons (inB_pos zero_le_one) (.cons (inB_pos zero_le_one) (.cons (inB_pos (by norm_num))
      (.cons (inB_pos (by norm_num)) (.cons (inB_pos (by norm_num)) (.cons (inB_pos (by norm_num))
        (.cons (inB_free _) .nil))))))
  have hfit : ∃ q, fitdidv ls (fitPts p o.fs none) 3 1 (-1) (-5 / 100) (-100 / 10 ^ 6) (1 / 10 ^ 7) (1 / 10 ^ 3)
      (1 / 128) (some true) = .ok q := by
    have e : starts 3 1 (-1) (-5 / 100) (-100 / 10 ^ 6) (1 / 10 ^ 7) (1 / 10 ^ 3) (1 / 128) =
        ([1, -1, -5 / 100, -100 / 10 ^ 6, 1 / 10 ^ 7, 1 / 10 ^ 3, 1 / 128],
          [(some 0, none), (none, some 0), (none, some 0), (none, some 0), (some 0, none), (some 0, none), (none, none)],
          [1, 1, 5 / 100, 100 / 10 ^ 6, 1 / 10 ^ 7, 1 / 10 ^ 3, 1 / 128],
          [(some 0, none), (some 0, none), (some 0, none), (some 0, none), (some 0, none), (some 0, none),
            (none, none)]) := by
      unfold starts
      norm_num
    unfold fitdidv
    rw [e]
    unfold leastSquares
    simp only
    rw [if_neg (not_not.2 h2), if_neg (by
      simp only [List.map_cons, List.map_nil, List.mem_cons, List.not_mem_nil, or_false, not_exists, not_and, not_le]
      rintro s (rfl | rfl | rfl | rfl | rfl | rfl | rfl) <;> norm_num), hr]
    simp only [hcov]
    exact ⟨_, rfl⟩
  obtain ⟨⟨params, cov, cost⟩, hfit⟩ := hfit
  obtain ⟨-, dt', rfl, -⟩ := three_pole_recovered (f0 := 1) hls hfit (fun q hq => by
      obtain ⟨k, h1, -, rfl⟩ := mem_fitPts.1 hq
      exact hd k h1) one_ne_zero (fun j hj => by
      obtain ⟨k, h1, e⟩ := hh j hj
      exact ⟨_, mem_fitPts.2 ⟨k, h1, by simp, rfl⟩, e⟩) hA zero_le_one one_pos
    (Or.inr ⟨one_pos, by norm_num, one_pos, by simp⟩)
  have hrun : ∃ r, runFit ⟨ls, fun _ q => q, fun _ q => q⟩ o p 3 none = .ok r := by
    unfold runFit
    rw [hg]
    simp only [hfit, findPoleFallTimes, D.rsh, D.r0, D.rp]
    rw [if_neg (by norm_num; positivity)]
    exact hc _ _ _ _
  obtain ⟨r, hrun⟩ := hrun
  unfold dofit
  simp only [D.proc, hrun]
  norm_num

/-- The same for `dofit_three_recovered_partial`. -/
theorem demo_fit_three : ∃ x : Ext, Finds x.ls ∧ ∃ o p, Demo [1, 1, 1 / 2, 1, 1, 1, 0] o p ∧
    (dofit x o 3 none).1 = .ok () ∧
    (∀ k < p.nbins, fitY (freqAt p.nbins o.fs k) [1, 1, 1 / 2, 1, 1, 1, 0] = .ok (p.didvmean k)) ∧
    (∀ j : ℕ, j < 12 → ∃ k < p.nbins, freqAt p.nbins o.fs k = (2 * j + 1) * 1) ∧
    guessSub1 p.trace p.flat = true :=
  demo_fit_three_general one_pos fun dt cov ft cost => by
    simp only [fitResult, convertTo]
    rw [if_neg (by norm_num)]
    simp only [sspArgs, complexadmittance, compleximpedance, poleExtractor]
    norm_num [convertFrom, recipZ, threePoleZ, jw]

example : ∃ x : Ext, Finds x.ls ∧ ∃ o p, demoInit [1, 1, 1 / 2, 1, 1, 1, 0] = .ok o ∧ o.proc = some p ∧
    (dofit x o 3 none).1 = .ok () ∧
    (∀ k < p.nbins, fitY (freqAt p.nbins o.fs k) [1, 1, 1 / 2, 1, 1, 1, 0] = .ok (p.didvmean k)) ∧
    (∀ j : ℕ, j < 12 → ∃ k < p.nbins, freqAt p.nbins o.fs k = (2 * j + 1) * 1) ∧
    guessSub1 p.trace p.flat = true := by
  obtain ⟨x, hx, o, p, D, h⟩ := demo_fit_three
  exact ⟨x, hx, o, p, D.init, D.proc, h⟩

/-- The same with one pole. -/
theorem demo_fit_one_general (r0 rp : ℝ) : ∃ x : Ext, Finds x.ls ∧ ∃ o p, Demo [2, 1, 0] o p r0 rp ∧
    (dofit x o 1 none).1 = .ok () ∧
    (∀ k < p.nbins, fitY (freqAt p.nbins o.fs k) [2, 1, 0] = .ok (p.didvmean k)) ∧
    (∀ j : ℕ, j < 2 → ∃ k < p.nbins, freqAt p.nbins o.fs k = (2 * j + 1) * 1) := by
  obtain ⟨ls, hls, hcov⟩ := finds_exists
  obtain ⟨o, p, D⟩ := demo_init [2, 1, 0] r0 rp
  obtain ⟨-, hg, -, -⟩ := demo_guess D
  obtain ⟨hd, hh, hres⟩ := demo_data D fun f => fitY_one_def two_pos
  refine ⟨⟨ls, fun _ q => q, fun _ q => q⟩, hls, o, p, D, ?_, hd, fun j hj => hh j (by omega)⟩
  obtain ⟨r, hr⟩ := hres [1, 1 / 10 ^ 6, 1 / 128] fun f => fitY_one_def one_pos
  have h2 : List.Forall₂ inB [(1 : ℝ), 1 / 10 ^ 6, 1 / 128] [(some 0, none), (some 0, none), (none, none)] :=
    .cons (inB_pos zero_le_one) (.cons (inB_pos (by norm_num)) (.cons (inB_free _) .nil))
  have hfit : ∃ q, fitdidv ls (fitPts p o.fs none) 1 1 (-6 / 10) (-6 / 10) (-1 / (2 * Real.pi * 500)) (1 / 10 ^ 6) 0
      (1 / 128) (some false) = .ok q := by
    have e : starts 1 1 (-6 / 10) (-6 / 10) (-1 / (2 * Real.pi * 500)) (1 / 10 ^ 6) 0 (1 / 128) =
        ([1, 1 / 10 ^ 6, 1 / 128], [(some 0, none), (some 0, none), (none, none)],
          [-1, 1 / 10 ^ 6, 1 / 128], [(none, some 0), (some 0, none), (none, none)]) := by
      unfold starts
      rw [if_pos rfl]
    unfold fitdidv
    rw [e]
    unfold leastSquares
    simp only
    rw [if_neg (not_not.2 h2), if_neg (by
      simp only [List.map_cons, List.map_nil, List.mem_cons, List.not_mem_nil, or_false, not_exists, not_and, not_le]
      rintro s (rfl | rfl | rfl) <;> norm_num), hr]
    simp only [hcov]
    exact ⟨_, rfl⟩
  obtain ⟨⟨params, cov, cost⟩, hfit⟩ := hfit
  obtain ⟨-, dt', hpar⟩ := one_pole_recovered (f0 := 1) hls hfit (fun q hq => by
      obtain ⟨k, h1, -, rfl⟩ := mem_fitPts.1 hq
      exact hd k h1) one_ne_zero (fun j hj => by
      obtain ⟨k, h1, e⟩ := hh j (by omega)
      exact ⟨_, mem_fitPts.2 ⟨k, h1, by simp, rfl⟩, e⟩) two_pos zero_le_one (by simp)
  have hrun : ∃ r, runFit ⟨ls, fun _ q => q, fun _ q => q⟩ o p 1 none = .ok r := by
    unfold runFit
    rw [hg]
    rcases hpar with ⟨rfl, -⟩ | ⟨rfl, -⟩ <;>
    · simp only [hfit, findPoleFallTimes, fitResult, convertTo, D.rsh]
      simp only [sspArgs, complexadmittance, compleximpedance, poleExtractor]
      norm_num [convertFrom, recipZ, onePoleZ, jw]
  obtain ⟨r, hrun⟩ := hrun
  unfold dofit
  simp only [D.proc, hrun]
  norm_num

/-- The same for `dofit_one_recovered_partial`. -/
theorem demo_fit_one : ∃ x : Ext, Finds x.ls ∧ ∃ o p, Demo [2, 1, 0] o p ∧
    (dofit x o 1 none).1 = .ok () ∧
    (∀ k < p.nbins, fitY (freqAt p.nbins o.fs k) [2, 1, 0] = .ok (p.didvmean k)) ∧
    (∀ j : ℕ, j < 2 → ∃ k < p.nbins, freqAt p.nbins o.fs k = (2 * j + 1) * 1) := demo_fit_one_general 1 0

example : ∃ x : Ext, Finds x.ls ∧ ∃ o p, demoInit [2, 1, 0] = .ok o ∧ o.proc = some p ∧
    (dofit x o 1 none).1 = .ok () ∧
    (∀ k < p.nbins, fitY (freqAt p.nbins o.fs k) [2, 1, 0] = .ok (p.didvmean k)) ∧
    (∀ j : ℕ, j < 2 → ∃ k < p.nbins, freqAt p.nbins o.fs k = (2 * j + 1) * 1) := by
  obtain ⟨x, hx, o, p, D, h⟩ := demo_fit_one
  exact ⟨x, hx, o, p, D.init, D.proc, h⟩

/-- Two equal traces are processed without an error; the fit of them is what fails. -/
example : Fresh (exObj ([1, 1].map spike) false (1 / 10)) ∧
    (∀ u ∈ (exObj ([1, 1].map spike) false (1 / 10)).raw, u = spike 1) ∧
    2 < nBins (exObj ([1, 1].map spike) false (1 / 10)).nraw 1 (1 / 3) ∧
    (deconvAt (nBins 7 1 (1 / 3)) (1 / 1) (fun i => spike 1 i / 1) 1 1 (1 / 3) (1 / 2) 2).2 = false ∧
    (processtraces (exObj ([1, 1].map spike) false (1 / 10))).1 = .ok () := by
  refine ⟨⟨rfl, rfl, rfl, rfl⟩, by simp [exObj], ?_, ?_, exObj_ok _ (by simp) (by simp) _ _⟩
  · change 2 < nBins 7 1 (1 / 3)
    rw [exObj_nbins]
    norm_num
  · rw [exObj_nbins]
    exact spike_unflagged one_ne_zero (by norm_num)

end Verif.Didv
