import Verif.DidvErrExist
import Verif.DidvRecoverEx
import Verif.DeviceLimitEx

/-! A detector whose dI/dV averages with ever less noise are fitted. -/

namespace Verif.Device
open Verif Verif.Dft Verif.Didv Verif.NonLin MeasureTheory Filter Topology

/-- One period on 64 samples. -/
noncomputable def errObj : Obj := ⟨[], 0, 64, 1, 1, 1, 1, 1, 0, 1 / 2, false, 1 / 128, none, none, none, none⟩

/-- Averages with values and error bars of the bins. -/
noncomputable def errProc (mean std : ℕ → ℂ) : Proc := ⟨64, fun i => i / 64 - 1 / 128, demoTr,
  [16, 17, 18, 19, 20, 21, 22, 23, 24, 25, 26, 27, 28, 29], mean, std, 0, 0⟩

theorem startGuess_congr {o o' : Obj} {p p' : Proc} (h1 : o.sgamp = o'.sgamp) (h2 : o.rsh = o'.rsh) (h3 : o.dt0 = o'.dt0)
    (h4 : o.res2 = o'.res2) (h5 : p.trace = p'.trace) (h6 : p.flat = p'.flat) (k : ℕ) : startGuess o p k = startGuess o' p' k := by
  unfold startGuess
  rw [h1, h2, h3, h4, h5, h6]

theorem err_guess (mean std : ℕ → ℂ) :
    startGuess errObj (errProc mean std) 1 = .ok ((1, -6 / 10, -6 / 10, -1 / (2 * Real.pi * 500), 1 / 10 ^ 6, 0, 1 / 128), false) ∧
    startGuess errObj (errProc mean std) 2 = .ok ((1, -1, -6 / 10, -100 / 10 ^ 6, 1 / 10 ^ 7, 0, 1 / 128), true) ∧
    startGuess errObj (errProc mean std) 3 = .ok ((1, -1, -5 / 100, -100 / 10 ^ 6, 1 / 10 ^ 7, 1 / 10 ^ 3, 1 / 128), true) := by
  obtain ⟨o, p, D⟩ := demo_init []
  obtain ⟨-, h1, h2, h3⟩ := demo_guess D
  have hc : ∀ k, startGuess errObj (errProc mean std) k = startGuess o p k := fun k =>
    startGuess_congr D.sgamp.symm D.rsh.symm D.dt0.symm D.res2.symm (by unfold Proc.trace; rw [D.nbins, D.tmean]; rfl)
      (by unfold Proc.flat; rw [D.flat, D.tmean]; rfl) k
  rw [hc, hc, hc]
  exact ⟨h1, h2, h3⟩

theorem err_drive (k : ZMod 64) : drive errObj k ≠ 0 → drive errObj (-k) ≠ 0 := by
  intro hk
  unfold drive at *
  have h1 : k.val ≠ 64 / 2 := fun h => hk (if_pos h)
  have h2 : (-k).val ≠ 64 / 2 := by clear hk; revert k; decide
  rw [if_neg h1] at hk
  rw [if_neg h2, sqWave_neg _ _ _ _ _ _ (by omega)]
  exact (map_ne_zero _).2 hk

/-- The correlation function of the noise. -/
noncomputable def errCorr (j : ZMod 64) : ℝ := if j = 0 then 1 ^ 2 / ((64 : ℕ) : ℝ) else 0

theorem errCorr_stationary : OF.Stationary (throws 64) (jolt 64 1) errCorr := jolt_stationary 64 1

theorem errCorr_fft (k : ZMod 64) : 0 < (fftR errCorr k).re := by
  have : fftR errCorr k = ((1 / 64 : ℝ) : ℂ) := by
    rw [fftR_apply, Finset.sum_eq_single 0]
    · simp [errCorr]
    · intro j _ hj; simp [errCorr, hj]
    · simp
  rw [this, Complex.ofReal_re]
  norm_num

theorem err_mirrored : Mirrored errObj none errCorr := fun k _ hk => ⟨err_drive k hk, errCorr_fft k⟩

theorem err_driven {N : ℕ} (hN : N ≤ 12) : DrivenBelow errObj none 64 1 N := by
  refine ⟨one_ne_zero, fun j hj => ⟨((2 * j + 1 : ℕ) : ZMod 64), by simp [Below], ?_, ?_⟩⟩
  · have hv : ((2 * j + 1 : ℕ) : ZMod 64).val = 2 * j + 1 := ZMod.val_cast_of_lt (by omega)
    have hf : fftfreq (1 / (1 / 64)) ((2 * j + 1 : ℕ) : ZMod 64) = 2 * j + 1 := by
      unfold fftfreq freqIdx
      rw [hv, if_pos (by omega)]
      push_cast
      norm_num
    unfold drive
    rw [hv, if_neg (by omega)]
    have hn : nearOne |(2 * (j : ℝ) + 1) / 1| := by
      have e : |(2 * (j : ℝ) + 1) / 1| = 1 + (j : ℕ) * 2 := by
        rw [div_one, abs_of_nonneg (by positivity)]
        ring
      rw [e]
      have := (nearOne_ratio (P := 1) one_pos (by norm_num) (2 * j + 1)).2 ⟨j, by ring⟩
      rw [show (1 : ℝ) + (j : ℕ) * 2 = ((2 * j + 1 : ℕ) : ℝ) / (1 : ℕ) by push_cast; ring]
      exact this
    simp only [sqWave, errObj, if_true, hf, hn]
    have hp := Real.pi_pos.ne'
    have : (2 * (j : ℝ) + 1) ≠ 0 := by positivity
    have h3 : ((2 * (j : ℝ) + 1 : ℝ) : ℂ) ≠ 0 := Complex.ofReal_ne_zero.2 this
    simp [hp]
    exact_mod_cast this
  · have hv : ((2 * j + 1 : ℕ) : ZMod 64).val = 2 * j + 1 := ZMod.val_cast_of_lt (by omega)
    unfold fftfreq freqIdx
    rw [hv, if_pos (by omega)]
    simp only [errObj]
    push_cast
    norm_num

/-- The averages with noise of size `s`. -/
noncomputable def errData (W : ZMod 64 → ℂ) (a : Bool × ZMod 64) (s : ℝ) : Proc :=
  errProc (fun k => if drive errObj (k : ZMod 64) = 0 then 0 else W k + s * (fftR (jolt 64 1 a) (k : ZMod 64) / drive errObj (k : ZMod 64)))
    fun k => if drive errObj (k : ZMod 64) = 0 then (1 + Complex.I) * 10 ^ 20
      else (1 + Complex.I) * ((s * (Real.sqrt ((64 : ℕ) * (fftR errCorr (k : ZMod 64)).re / 2) / ‖drive errObj (k : ZMod 64)‖) : ℝ) : ℂ)

theorem errData_averaged (W : ZMod 64 → ℂ) (a : Bool × ZMod 64) (s : ℝ) :
    Averaged errObj W (fun _ => 0) (jolt 64 1 a) errCorr s (errData W a s) := by
  refine ⟨rfl, fun k hk => ?_, fun k hk => ?_, fun k hk => ?_⟩ <;>
  simp [errData, errProc, hk]

theorem errData_start {W : ZMod 64 → ℂ} {a : Bool × ZMod 64} {s : ℝ} (hs : 0 < s) {v : List ℝ} (hv : ∀ f, ∃ y, fitY f v = .ok y) :
    ∃ r, Didv.residual (fitPts (errData W a s) errObj.fs none) v = .ok r := by
  refine residual_def hv fun q hq => ?_
  obtain ⟨k, hk, -, rfl⟩ := mem_fitPts.1 hq
  simp only [errData, errProc]
  split_ifs with h
  · have e : (10 : ℂ) ^ 20 = ((10 ^ 20 : ℝ) : ℂ) := by push_cast; rfl
    rw [e]
    generalize ht : (10 ^ 20 : ℝ) = t
    have h3 : t ≠ 0 := by rw [← ht]; norm_num
    constructor <;> simpa using h3
  · have h1 := errCorr_fft (k : ZMod 64)
    have h2 := norm_pos_iff.2 h
    have h3 : s * (Real.sqrt ((64 : ℕ) * (fftR errCorr (k : ZMod 64)).re / 2) / ‖drive errObj (k : ZMod 64)‖) ≠ 0 := by positivity
    generalize s * (Real.sqrt ((64 : ℕ) * (fftR errCorr (k : ZMod 64)).re / 2) / ‖drive errObj (k : ZMod 64)‖) = t at h3
    constructor <;> simpa using h3

/-- An optimiser with one answer. -/
def answer (x : List ℝ) (cov : List (List ℝ)) : Ext := ⟨fun _ _ _ => ⟨x, 0, .ok cov⟩, fun _ q => q, fun _ q => q⟩

theorem result_one {A t2 dt : ℝ} (hA : A ≠ 0) (cov : List (List ℝ)) (ft : List ℝ) (cost : ℝ) :
    ∃ r, fitResult [A, t2, dt] cov ft cost 1 0 1 = .ok r ∧ r.params = [A, t2, dt] ∧ r.cov = cov := by
  simp only [fitResult, convertTo, sspArgs, complexadmittance, compleximpedance, poleExtractor]
  simp [convertFrom, recipZ, onePoleZ, jw, hA]

theorem result_two {A B t1 t2 dt : ℝ} (hA : A ≠ 0) (hAB : A + B ≠ 0) (cov : List (List ℝ)) (ft : List ℝ) (cost : ℝ) :
    ∃ r, fitResult [A, B, t1, t2, dt] cov ft cost 1 0 1 = .ok r ∧ r.params = [A, B, t1, t2, dt] ∧ r.cov = cov := by
  have h1 : A + B + 1 - (1 + 0) = A + B := by ring
  have h2 : 1 - B / (A + B) = A / (A + B) := by field_simp; ring
  have h3 : A / (A + B) ≠ 0 := div_ne_zero hA hAB
  have h4 : (1 : ℝ) + 0 + 1 * (1 + ((A - (1 + 0)) / 1 - 1)) = A := by ring
  have h5 : 1 * (B / (A + B)) / (A / (A + B)) * (2 + ((A - (1 + 0)) / 1 - 1)) = B := by field_simp; ring
  simp only [fitResult, convertTo, h1, if_neg (not_or.2 ⟨one_ne_zero, hAB⟩)]
  simp only [sspArgs, complexadmittance, compleximpedance, poleExtractor]
  simp only [Option.isSome_some, Option.isSome_none, and_true, Option.getD_some, if_true, Bool.false_eq_true, and_false, if_false]
  simp only [convertFrom, h2, h4, h5, if_neg (not_or.2 ⟨h3, hA⟩)]
  have h6 : twoPoleZ 0 A B (t1 * (A + 1 - (1 + 0)) / (A + B) / (A / (A + B))) (A * t2 / A) ≠ 0 := by
    have : twoPoleZ 0 A B (t1 * (A + 1 - (1 + 0)) / (A + B) / (A / (A + B))) (A * t2 / A) = ((A + B : ℝ) : ℂ) := by
      simp [twoPoleZ, jw]
    rw [this]
    exact Complex.ofReal_ne_zero.2 hAB
  simp only [recipZ, if_neg h6]
  exact ⟨_, rfl, rfl, rfl⟩

theorem result_three {A B C t1 t2 t3 dt : ℝ} (hA : A ≠ 0) (hAB : A + B ≠ 0) (hC : 1 - C ≠ 0) (hs : A + B / (1 - C) ≠ 0)
    (cov : List (List ℝ)) (ft : List ℝ) (cost : ℝ) :
    ∃ r, fitResult [A, B, C, t1, t2, t3, dt] cov ft cost 1 0 1 = .ok r ∧ r.params = [A, B, C, t1, t2, t3, dt] ∧ r.cov = cov := by
  have h1 : A + B + 1 - (1 + 0) = A + B := by ring
  have h2 : 1 - B / (A + B) = A / (A + B) := by field_simp; ring
  have h3 : A / (A + B) ≠ 0 := div_ne_zero hA hAB
  have h4 : (1 : ℝ) + 0 + 1 * (1 + ((A - (1 + 0)) / 1 - 1)) = A := by ring
  have h5 : 1 * (B / (A + B)) / (A / (A + B)) * (2 + ((A - (1 + 0)) / 1 - 1)) = B := by field_simp; ring
  have h7 : C * (A + 1 - (1 + 0)) / (A + B) / (A / (A + B)) = C := by field_simp; ring
  simp only [fitResult, convertTo, h1, if_neg (not_or.2 ⟨one_ne_zero, hAB⟩)]
  simp only [sspArgs, complexadmittance, compleximpedance, poleExtractor]
  simp only [Option.isSome_some, Option.getD_some, and_true, if_true]
  simp only [convertFrom, h2, h4, h5, h7, if_neg (not_or.2 ⟨h3, hA⟩)]
  have e1 : (1 : ℂ) - C ≠ 0 := by exact_mod_cast Complex.ofReal_ne_zero.2 hC
  have h6 : threePoleZ 0 A B C (t1 * (A + 1 - (1 + 0)) / (A + B) / (A / (A + B))) (A * t2 / A) t3 = .ok ((A + B / (1 - C) : ℝ) : ℂ) := by
    simp [threePoleZ, jw, e1]
  simp only [h6, recipZ, if_neg (Complex.ofReal_ne_zero.2 hs)]
  exact ⟨_, rfl, rfl, rfl⟩

section
variable {W : ZMod 64 → ℂ} {a : Bool × ZMod 64} {s : ℝ} {cov : List (List ℝ)}

theorem stored_of {x : List ℝ} {k : ℕ} (hk : k = 1 ∨ k = 2 ∨ k = 3)
    (hb : LocalBest (Didv.residual (fitPts (errData W a s) errObj.fs none)) x ∧
      InverseGram (Didv.residual (fitPts (errData W a s) errObj.fs none)) x cov) {r : Result}
    (hr : runFit (answer x cov) { errObj with proc := some (errData W a s) } (errData W a s) k none = .ok r) :
    Stored errObj W (fun _ => 0) (jolt 64 1 a) errCorr k none s r := by
  have hM : Minimises (answer x cov).ls (fitPts (errData W a s) errObj.fs none) := fun p0 bounds =>
    ⟨hb.1, fun c hc => by cases hc; exact hb.2⟩
  rcases hk with rfl | rfl | rfl
  · refine ⟨answer x cov, { errObj with proc := some (errData W a s), res1 := some r }, errData W a s, errData_averaged W a s, hM, ?_, ?_⟩
    · simp [dofit, hr]
    · simp [fitresult]
  · refine ⟨answer x cov, { errObj with proc := some (errData W a s), res2 := some r }, errData W a s, errData_averaged W a s, hM, ?_, ?_⟩
    · simp [dofit, hr]
    · simp [fitresult]
  · refine ⟨answer x cov, { errObj with proc := some (errData W a s), res3 := some r }, errData W a s, errData_averaged W a s, hM, ?_, ?_⟩
    · simp [dofit, hr]
    · simp [fitresult]

theorem fit_one (hs : 0 < s) {A t2 dt : ℝ} : fitdidv (answer [A, t2, dt] cov).ls (fitPts (errData W a s) errObj.fs none) 1 1 (-6 / 10) (-6 / 10)
    (-1 / (2 * Real.pi * 500)) (1 / 10 ^ 6) 0 (1 / 128) (some false) = .ok ([A, t2, dt], cov, 0) := by
  obtain ⟨r, hr⟩ := errData_start (W := W) (a := a) hs (v := [1, 1 / 10 ^ 6, 1 / 128]) fun f => fitY_one_def one_pos
  have h2 : List.Forall₂ inB [(1 : ℝ), 1 / 10 ^ 6, 1 / 128] [(some 0, none), (some 0, none), (none, none)] :=
    .cons (inB_pos zero_le_one) (.cons (inB_pos (by norm_num)) (.cons (inB_free _) .nil))
  have e : starts 1 1 (-6 / 10) (-6 / 10) (-1 / (2 * Real.pi * 500)) (1 / 10 ^ 6) 0 (1 / 128) =
      ([1, 1 / 10 ^ 6, 1 / 128], [(some 0, none), (some 0, none), (none, none)],
        [-1, 1 / 10 ^ 6, 1 / 128], [(none, some 0), (some 0, none), (none, none)]) := by
    unfold starts
    rw [if_pos rfl]
  unfold fitdidv
  rw [e]
  unfold leastSquares
  simp only
  rw [if_neg (not_not.2 h2), if_neg (by
    simp only [List.map_cons, List.map_nil, List.mem_cons, List.not_mem_nil, or_false, not_exists, not_and, not_le]
    rintro s (rfl | rfl | rfl) <;> norm_num), hr]
  rfl

theorem run_one (hs : 0 < s) {A t2 dt : ℝ} (hA : A ≠ 0) :
    ∃ r, runFit (answer [A, t2, dt] cov) { errObj with proc := some (errData W a s) } (errData W a s) 1 none = .ok r ∧
      r.params = [A, t2, dt] ∧ r.cov = cov := by
  have hg : startGuess { errObj with proc := some (errData W a s) } (errData W a s) 1 = _ := (err_guess _ _).1
  have hfit := fit_one (W := W) (a := a) (cov := cov) hs (A := A) (t2 := t2) (dt := dt)
  unfold runFit
  rw [hg]
  simp only [hfit, findPoleFallTimes]
  exact result_one hA _ _ _

theorem fit_two (hs : 0 < s) {A B t1 t2 dt : ℝ} : fitdidv (answer [A, B, t1, t2, dt] cov).ls (fitPts (errData W a s) errObj.fs none) 2 1 (-1) (-6 / 10) (-100 / 10 ^ 6)
    (1 / 10 ^ 7) 0 (1 / 128) (some true) = .ok ([A, B, t1, t2, dt], cov, 0) := by
  obtain ⟨r, hr⟩ := errData_start (W := W) (a := a) hs (v := [1, 1, 100 / 10 ^ 6, 1 / 10 ^ 7, 1 / 128]) fun f =>
    fitY_two_def one_pos zero_le_one
  have h2 : List.Forall₂ inB [(1 : ℝ), 1, 100 / 10 ^ 6, 1 / 10 ^ 7, 1 / 128]
      [(some 0, none), (some 0, none), (some 0, none), (some 0, none), (none, none)] :=
    .cons (inB_pos zero_le_one) (.cons (inB_pos zero_le_one) (.cons (inB_pos (by norm_num))
      (.cons (inB_pos (by norm_num)) (.cons (inB_free _) .nil))))
  have e : starts 2 1 (-1) (-6 / 10) (-100 / 10 ^ 6) (1 / 10 ^ 7) 0 (1 / 128) =
      ([1, -1, -100 / 10 ^ 6, 1 / 10 ^ 7, 1 / 128],
        [(some 0, none), (none, some 0), (none, some 0), (some 0, none), (none, none)],
        [1, 1, 100 / 10 ^ 6, 1 / 10 ^ 7, 1 / 128],
        [(some 0, none), (some 0, none), (some 0, none), (some 0, none), (none, none)]) := by
    unfold starts
    norm_num
  unfold fitdidv
  rw [e]
  unfold leastSquares
  simp only
  rw [if_neg (not_not.2 h2), if_neg (by
    simp only [List.map_cons, List.map_nil, List.mem_cons, List.not_mem_nil, or_false, not_exists, not_and, not_le]
    rintro s (rfl | rfl | rfl | rfl | rfl) <;> norm_num), hr]
  rfl

theorem run_two (hs : 0 < s) {A B t1 t2 dt : ℝ} (hA : A ≠ 0) (hAB : A + B ≠ 0) :
    ∃ r, runFit (answer [A, B, t1, t2, dt] cov) { errObj with proc := some (errData W a s) } (errData W a s) 2 none = .ok r ∧
      r.params = [A, B, t1, t2, dt] ∧ r.cov = cov := by
  have hg : startGuess { errObj with proc := some (errData W a s) } (errData W a s) 2 = _ := (err_guess _ _).2.1
  have hfit := fit_two (W := W) (a := a) (cov := cov) hs (A := A) (B := B) (t1 := t1) (t2 := t2) (dt := dt)
  unfold runFit
  rw [hg]
  simp only [hfit, findPoleFallTimes, if_neg hAB]
  exact result_two hA hAB _ _ _

theorem fit_three (hs : 0 < s) {A B C t1 t2 t3 dt : ℝ} : fitdidv (answer [A, B, C, t1, t2, t3, dt] cov).ls (fitPts (errData W a s) errObj.fs none) 3 1 (-1) (-5 / 100)
    (-100 / 10 ^ 6) (1 / 10 ^ 7) (1 / 10 ^ 3) (1 / 128) (some true) = .ok ([A, B, C, t1, t2, t3, dt], cov, 0) := by
  obtain ⟨r, hr⟩ := errData_start (W := W) (a := a) hs (v := [1, 1, 5 / 100, 100 / 10 ^ 6, 1 / 10 ^ 7, 1 / 10 ^ 3, 1 / 128]) fun f =>
    fitY_three_def one_pos zero_le_one (by norm_num) (by norm_num)
  have h2 : List.Forall₂ inB [(1 : ℝ), 1, 5 / 100, 100 / 10 ^ 6, 1 / 10 ^ 7, 1 / 10 ^ 3, 1 / 128]
      [(some 0, none), (some 0, none), (some 0, none), (some 0, none), (some 0, none), (some 0, none), (none, none)] :=
    .cons (inB_pos zero_le_one) (.cons (inB_pos zero_le_one) (.cons (inB_pos (by norm_num))
      (.cons (inB_pos (by norm_num)) (.cons (inB_pos (by norm_num)) (.cons (inB_pos (by norm_num))
        (.cons (inB_free _) .nil))))))
  have e : starts 3 1 (-1) (-5 / 100) (-100 / 10 ^ 6) (1 / 10 ^ 7) (1 / 10 ^ 3) (1 / 128) =
      ([1, -1, -5 / 100, -100 / 10 ^ 6, 1 / 10 ^ 7, 1 / 10 ^ 3, 1 / 128],
        [(some 0, none), (none, some 0), (none, some 0), (none, some 0), (some 0, none), (some 0, none), (none, none)],
        [1, 1, 5 / 100, 100 / 10 ^ 6, 1 / 10 ^ 7, 1 / 10 ^ 3, 1 / 128],
        [(some 0, none), (some 0, none), (some 0, none), (some 0, none), (some 0, none), (some 0, none),
          (none, none)]) := by
    unfold starts
    norm_num
  unfold fitdidv
  rw [e]
  unfold leastSquares
  simp only
  rw [if_neg (not_not.2 h2), if_neg (by
    simp only [List.map_cons, List.map_nil, List.mem_cons, List.not_mem_nil, or_false, not_exists, not_and, not_le]
    rintro s (rfl | rfl | rfl | rfl | rfl | rfl | rfl) <;> norm_num), hr]
  rfl

theorem run_three (hs : 0 < s) {A B C t1 t2 t3 dt : ℝ} (hA : A ≠ 0) (hAB : A + B ≠ 0) (hC : 1 - C ≠ 0) (hq : A + B / (1 - C) ≠ 0) :
    ∃ r, runFit (answer [A, B, C, t1, t2, t3, dt] cov) { errObj with proc := some (errData W a s) } (errData W a s) 3 none = .ok r ∧
      r.params = [A, B, C, t1, t2, t3, dt] ∧ r.cov = cov := by
  have hg : startGuess { errObj with proc := some (errData W a s) } (errData W a s) 3 = _ := (err_guess _ _).2.2
  have hfit := fit_three (W := W) (a := a) (cov := cov) hs (A := A) (B := B) (C := C) (t1 := t1) (t2 := t2) (t3 := t3) (dt := dt)
  have h5 : ¬A * (1 - C) + B = 0 := by
    intro h
    refine hq ?_
    field_simp
    rw [h, mul_zero]
  unfold runFit
  rw [hg]
  simp only [hfit, findPoleFallTimes, if_neg h5]
  exact result_three hA hAB hC hq _ _ _

end

/-- From minima near the truth to fits which approach it. -/
theorem approaching_of {W : ZMod 64 → ℂ} {d : ℕ} {G : ℝ → (Fin d → ℝ) → ℂ} {x₀ : Fin d → ℝ}
    (hG : ∀ k : ZMod 64, (∀ᶠ v in 𝓝 x₀, fitY (fftfreq errObj.fs k) (List.ofFn v) = .ok (G (fftfreq errObj.fs k) v)) ∧
      ContDiffAt ℝ 1 (G (fftfreq errObj.fs k)) x₀)
    (hW : ∀ k : ZMod 64, G (fftfreq errObj.fs k) x₀ = W k)
    (hinj : ∀ u, (∀ k : ZMod 64, Below errObj.fs none k → drive errObj k ≠ 0 → fderiv ℝ (G (fftfreq errObj.fs k)) x₀ u = 0) → u = 0)
    {k : ℕ} (hk : k = 1 ∨ k = 2 ∨ k = 3)
    (hrun : ∀ᶠ v in 𝓝 x₀, ∀ a s cov, 0 < s → ∃ r, runFit (answer (List.ofFn v) cov) { errObj with proc := some (errData W a s) }
      (errData W a s) k none = .ok r ∧ r.params = List.ofFn v ∧ r.cov = cov) :
    ∃ r, Approaching errObj W (jolt 64 1) errCorr k none (List.ofFn x₀) r := by
  choose y cov hy hfit using fun a => fits_exist hG hW hinj err_mirrored (jolt 64 1 a) fun _ => 0
  have hst : ∀ a, ∀ᶠ s in 𝓝[>] 0, ∃ r, Stored errObj W (fun _ => 0) (jolt 64 1 a) errCorr k none s r ∧ r.params = List.ofFn (y a s) := by
    intro a
    filter_upwards [hfit a, (hy a).eventually hrun, self_mem_nhdsWithin] with s h1 h2 hs
    obtain ⟨r, h3, h4, -⟩ := h2 a s (cov a s) hs
    exact ⟨r, stored_of hk (h1 _ (errData_averaged W a s)) h3, h4⟩
  classical
  refine ⟨fun a s => if h : ∃ r, Stored errObj W (fun _ => 0) (jolt 64 1 a) errCorr k none s r ∧ r.params = List.ofFn (y a s)
    then h.choose else ⟨[], [], [], 0, [], 0⟩, fun a => ⟨fun _ => 0, ?_⟩, fun a ε hε => ?_⟩
  · filter_upwards [hst a] with s hs
    rw [dif_pos hs]
    exact hs.choose_spec.1
  · filter_upwards [hst a, (hy a).eventually (Metric.ball_mem_nhds x₀ hε)] with s hs hb
    rw [dif_pos hs, hs.choose_spec.2]
    refine List.forall₂_iff_get.2 ⟨by simp, fun i h1 h2 => ?_⟩
    have h3 := (dist_le_pi_dist (y a s) x₀ ⟨i, by simpa using h1⟩).trans_lt (Metric.mem_ball.1 hb)
    simpa [Real.dist_eq] using h3

/-- Fits of a detector with one pole which approach the truth. -/
theorem one_approaching : ∃ (W : ZMod 64 → ℂ) (r : Bool × ZMod 64 → ℝ → Result),
    Delayed errObj.fs W (fun f => onePoleY f 2 1) 0 ∧ Approaching errObj W (jolt 64 1) errCorr 1 none [2, 1, 0] r := by
  have hy : ∀ k : ZMod 64, ∃ w, (onePoleY (fftfreq errObj.fs k) 2 1).map (fun y => y * Complex.exp (-2 * Complex.I * Real.pi *
      fftfreq errObj.fs k * (0 : ℝ))) = .ok w := fun k => fitY_one_def two_pos
  choose W hW using hy
  have hl : [(2 : ℝ), 1, 0] = List.ofFn ![(2 : ℝ), 1, 0] := by simp [List.ofFn_succ]
  rw [hl]
  obtain ⟨a1, a2, a3⟩ := one_family (err_driven (by norm_num : 3 ≤ 12)) (x := ![(2 : ℝ), 1, 0]) two_ne_zero one_ne_zero hW
  obtain ⟨r, hr⟩ := approaching_of (G := fun f => shifted (z1 f) f 2) a1 a2 a3 (k := 1) (Or.inl rfl) (by
    have h0 : ∀ᶠ v : Fin 3 → ℝ in 𝓝 ![(2 : ℝ), 1, 0], v 0 ≠ 0 := (continuous_apply 0).continuousAt.eventually_ne two_ne_zero
    filter_upwards [h0] with v hv a s cov hs
    rw [show List.ofFn v = [v 0, v 1, v 2] by simp [List.ofFn_succ]]
    exact run_one hs hv)
  exact ⟨W, r, hW, hr⟩

/-- The same with two poles. -/
theorem two_approaching : ∃ (W : ZMod 64 → ℂ) (r : Bool × ZMod 64 → ℝ → Result),
    Delayed errObj.fs W (fun f => twoPoleY f 1 1 1 1) 0 ∧ Approaching errObj W (jolt 64 1) errCorr 2 none [1, 1, 1, 1, 0] r := by
  have hy : ∀ k : ZMod 64, ∃ w, (twoPoleY (fftfreq errObj.fs k) 1 1 1 1).map (fun y => y * Complex.exp (-2 * Complex.I * Real.pi *
      fftfreq errObj.fs k * (0 : ℝ))) = .ok w := fun k => fitY_two_def one_pos zero_le_one
  choose W hW using hy
  have hl : [(1 : ℝ), 1, 1, 1, 0] = List.ofFn ![(1 : ℝ), 1, 1, 1, 0] := by simp [List.ofFn_succ]
  rw [hl]
  obtain ⟨a1, a2, a3⟩ := two_family (err_driven (by norm_num : 5 ≤ 12)) (x := ![(1 : ℝ), 1, 1, 1, 0]) one_ne_zero one_ne_zero
    one_ne_zero one_ne_zero hW
  obtain ⟨r, hr⟩ := approaching_of (G := fun f => shifted (z2 f) f 4) a1 a2 a3 (k := 2) (Or.inr (Or.inl rfl)) (by
    have h0 : ∀ᶠ v : Fin 5 → ℝ in 𝓝 ![(1 : ℝ), 1, 1, 1, 0], v 0 ≠ 0 := (continuous_apply 0).continuousAt.eventually_ne one_ne_zero
    have h1 : ∀ᶠ v : Fin 5 → ℝ in 𝓝 ![(1 : ℝ), 1, 1, 1, 0], v 0 + v 1 ≠ 0 :=
      ((continuous_apply 0).add (continuous_apply 1)).continuousAt.eventually_ne (by change (1 : ℝ) + 1 ≠ 0; norm_num)
    filter_upwards [h0, h1] with v hv hv1 a s cov hs
    rw [show List.ofFn v = [v 0, v 1, v 2, v 3, v 4] by simp [List.ofFn_succ]]
    exact run_two hs hv hv1)
  exact ⟨W, r, hW, hr⟩

/-- The same with three poles. -/
theorem three_approaching : ∃ (W : ZMod 64 → ℂ) (r : Bool × ZMod 64 → ℝ → Result),
    Delayed errObj.fs W (fun f => threePoleY f 1 1 (1 / 2) 1 1 1) 0 ∧
    Approaching errObj W (jolt 64 1) errCorr 3 none [1, 1, 1 / 2, 1, 1, 1, 0] r := by
  have hy : ∀ k : ZMod 64, ∃ w, (threePoleY (fftfreq errObj.fs k) 1 1 (1 / 2) 1 1 1).map (fun y => y * Complex.exp (-2 * Complex.I *
      Real.pi * fftfreq errObj.fs k * (0 : ℝ))) = .ok w := fun k => fitY_three_def one_pos zero_le_one (by norm_num) (by norm_num)
  choose W hW using hy
  have hl : [(1 : ℝ), 1, 1 / 2, 1, 1, 1, 0] = List.ofFn ![(1 : ℝ), 1, 1 / 2, 1, 1, 1, 0] := by simp [List.ofFn_succ]
  rw [hl]
  obtain ⟨a1, a2, a3⟩ := three_family (err_driven (by norm_num : 7 ≤ 12)) (x := ![(1 : ℝ), 1, 1 / 2, 1, 1, 1, 0]) one_ne_zero
    one_ne_zero (by change (1 / 2 : ℝ) ≠ 0; norm_num) one_ne_zero one_ne_zero one_ne_zero hW
  obtain ⟨r, hr⟩ := approaching_of (G := fun f => shifted (z3 f) f 6) a1 a2 a3 (k := 3) (Or.inr (Or.inr rfl)) (by
    have h0 : ∀ᶠ v : Fin 7 → ℝ in 𝓝 ![(1 : ℝ), 1, 1 / 2, 1, 1, 1, 0], v 0 ≠ 0 :=
      (continuous_apply 0).continuousAt.eventually_ne one_ne_zero
    have h1 : ∀ᶠ v : Fin 7 → ℝ in 𝓝 ![(1 : ℝ), 1, 1 / 2, 1, 1, 1, 0], v 0 + v 1 ≠ 0 :=
      ((continuous_apply 0).add (continuous_apply 1)).continuousAt.eventually_ne (by change (1 : ℝ) + 1 ≠ 0; norm_num)
    have h2 : ∀ᶠ v : Fin 7 → ℝ in 𝓝 ![(1 : ℝ), 1, 1 / 2, 1, 1, 1, 0], 1 - v 2 ≠ 0 :=
      (continuous_const.sub (continuous_apply 2)).continuousAt.eventually_ne (by change (1 : ℝ) - 1 / 2 ≠ 0; norm_num)
    have h3 : ∀ᶠ v : Fin 7 → ℝ in 𝓝 ![(1 : ℝ), 1, 1 / 2, 1, 1, 1, 0], v 0 + v 1 / (1 - v 2) ≠ 0 :=
      ((continuous_apply 0).continuousAt.add ((continuous_apply 1).continuousAt.div (continuous_const.sub
        (continuous_apply 2)).continuousAt (by change (1 : ℝ) - 1 / 2 ≠ 0; norm_num))).eventually_ne (by
          change (1 : ℝ) + 1 / (1 - 1 / 2) ≠ 0; norm_num)
    filter_upwards [h0, h1, h2, h3] with v hv hv1 hv2 hv3 a s cov hs
    rw [show List.ofFn v = [v 0, v 1, v 2, v 3, v 4, v 5, v 6] by simp [List.ofFn_succ]]
    exact run_three hs hv hv1 hv2 hv3)
  exact ⟨W, r, hW, hr⟩

end Verif.Device
