import Verif.NoiseSymLemmas
import Verif.NoiseCsdProps

/-! Property C126: the results of a `Noise` object do not depend on the order of the traces and channels,
and have the units of the traces. -/

namespace Verif.Noise
open Verif Verif.Dft

variable {n m c : ℕ} [NeZero n]

/-- After any sequence of calls, on traces in another order, the results are the same. -/
theorem run_reorder (σ : Equiv.Perm (Fin m)) (o : Obj m c n) (ops : List Op) :
    run (o.reorder σ) ops = (run o ops).reorder σ := by
  unfold run
  induction ops generalizing o with
  | nil => rfl
  | cons op ops ih =>
    rw [List.foldl_cons, List.foldl_cons, ← ih]
    congr 1
    exact step_reorder σ o op

/-- In another order of the channels the results are those of the channels in that order. -/
theorem run_rewire (ρ : Equiv.Perm (Fin c)) (o : Obj m c n) (ops : List Op) :
    run (o.rewire ρ) ops = (run o ops).rewire ρ := by
  unfold run
  induction ops generalizing o with
  | nil => rfl
  | cons op ops ih =>
    rw [List.foldl_cons, List.foldl_cons, ← ih]
    congr 1
    exact step_rewire ρ o op

/-- Partial form: in other units of the channels and of time, the results are the same in the other units.
Missing: negative factors (`sign_results`, `sign_violated`). -/
theorem run_rescale_partial (a : Fin c → ℝ) (ha : ∀ i, 0 < a i) (r : ℝ) (hr : 0 < r) (o : Obj m c n)
    (ops : List Op) : run (o.rescale a r) ops = (run o ops).rescale a r := by
  unfold run
  induction ops generalizing o with
  | nil => rfl
  | cons op ops ih =>
    rw [List.foldl_cons, List.foldl_cons, ← ih]
    congr 1
    exact step_rescale a ha r hr o op

/-- Every call returns or raises the same in the three cases. -/
theorem outcome_same (o : Obj m c n) (op : Op) (σ : Equiv.Perm (Fin m)) (ρ : Equiv.Perm (Fin c))
    (a : Fin c → ℝ) (ha : ∀ i, 0 < a i) (r : ℝ) (hr : 0 < r) :
    outcome (o.reorder σ) op = outcome o op ∧ outcome (o.rewire ρ) op = outcome o op ∧
      outcome (o.rescale a r) op = outcome o op :=
  ⟨outcome_reorder σ o op, outcome_rewire ρ o op, outcome_rescale a ha r hr o op⟩

/-- Constants added to the traces change nothing but the power spectra and the correlation coefficients
at zero frequency, whatever is called. -/
theorem run_offset (b : Fin m → Fin c → ℝ) {o o' : Obj m c n} (h : Offset b o o') (ops : List Op) :
    Offset b (run o ops) (run o' ops) := by
  unfold run
  induction ops generalizing o o' with
  | nil => exact h
  | cons op ops ih => exact ih (step_offset b h op)

/-- A cyclic shift of each trace of each channel changes no power spectrum and no correlation
coefficient. -/
theorem shift_psd (d : Fin m → Fin c → ZMod n) (traces : Fin m → Fin c → ZMod n → ℝ) (fs : ℝ) :
    psdOf (fun t i => roll (traces t i) (d t i)) fs = psdOf traces fs ∧
    corrcoeffOf (fun t i => roll (traces t i) (d t i)) = corrcoeffOf traces := by
  constructor
  · funext i k
    unfold psdOf
    simp only [norm_rfft_roll]
  · funext i j k
    unfold corrcoeffOf
    simp only [norm_rfft_roll]

/-- With reversed signs of some channels: all results but the stored parts of the CSD follow. -/
theorem sign_results (a : Fin c → ℝ) (ha : ∀ i, a i ≠ 0) (traces : Fin m → Fin c → ZMod n → ℝ) (fs : ℝ)
    (i j : Fin c) (k : Half n) :
    psdOf (fun t i s => a i * traces t i s) fs i k = a i ^ 2 * psdOf traces fs i k ∧
    corrcoeffOf (fun t i s => a i * traces t i s) i j k = corrcoeffOf traces i j k ∧
    (csdOf (fun t i s => a i * traces t i s) fs).csd i j k =
      ((a i * a j : ℝ) : ℂ) * (csdOf traces fs).csd i j k ∧
    ((csdMat (csdOf traces fs) k).det ≠ 0 →
      uncorrOf (csdOf (fun t i s => a i * traces t i s) fs) j k = a j ^ 2 * uncorrOf (csdOf traces fs) j k ∧
      corrOf (csdOf (fun t i s => a i * traces t i s) fs) j k = a j ^ 2 * corrOf (csdOf traces fs) j k) := by
  have h1 := congrFun (congrFun (psdOf_rescale traces fs a (r := 1)) i) k
  have h2 := congrFun (congrFun (congrFun (corrcoeffOf_rescale traces a ha) i) j) k
  have h3 := csdOf_rescale_csd traces fs a (r := 1)
  rw [one_mul] at h1 h3
  refine ⟨by rw [h1, div_one], h2, by rw [h3, div_one], fun hd => ?_⟩
  have hu := csdMat_scaled_inv ha one_pos h3 k j hd
  have hj : 0 < a j * a j / 1 := by rw [div_one]; exact mul_self_pos.2 (ha j)
  have hre := congrFun (csdOf_rescale_real traces fs a (r := 1) j j hj) k
  rw [one_mul, div_one] at hre
  have haj := ha j
  have huc : 1 / ‖(csdMat (csdOf (fun t i s => a i * traces t i s) fs) k)⁻¹ j j‖ =
      a j ^ 2 * (1 / ‖(csdMat (csdOf traces fs) k)⁻¹ j j‖) := by
    rw [hu]
    by_cases hz : ‖(csdMat (csdOf traces fs) k)⁻¹ j j‖ = 0
    · simp [hz]
    · field_simp
  unfold uncorrOf corrOf
  rw [huc, hre]
  exact ⟨rfl, by ring⟩

/-- Full C126 is false for a reversed sign: if the real part of the cross spectrum of two channels takes
both signs, the stored real part stays positive at every frequency when one of the two is reversed,
instead of being reversed. -/
theorem sign_violated (a : Fin c → ℝ) (i j : Fin c) (hij : a i * a j < 0)
    (traces : Fin m → Fin c → ZMod n → ℝ) (fs : ℝ) (hp : ∃ k, 0 < ((csdOf traces fs).csd i j k).re)
    (hn : ∃ k, ((csdOf traces fs).csd i j k).re < 0) (k : Half n) :
    0 < (csdOf traces fs).real i j k ∧ 0 < (csdOf (fun t i s => a i * traces t i s) fs).real i j k := by
  have h3 := csdOf_rescale_csd traces fs a (r := 1) i j
  rw [one_mul] at h3
  have hr : ∀ tr : Fin m → Fin c → ZMod n → ℝ,
      (csdOf tr fs).real i j = fillNeg fun k => ((csdOf tr fs).csd i j k).re := by
    intro tr
    simp only [csd_re]
    rfl
  rw [hr, hr]
  obtain ⟨k2, hk2⟩ := hn
  refine ⟨fillNeg_all_pos _ hp k, fillNeg_all_pos _ ⟨k2, ?_⟩ k⟩
  rw [h3, div_one, Complex.re_ofReal_mul]
  exact mul_pos_of_neg_of_neg hij hk2

/-- `calc_psd`, one- and two-sided: order of the traces, units, shifts, and offsets. -/
theorem calcPsd_same (x : Fin m → ZMod n → ℝ) (fs : ℝ) (σ : Equiv.Perm (Fin m)) (a r : ℝ)
    (d : Fin m → ZMod n) (b : Fin m → ℝ) :
    (calcPsdFolded (fun t => x (σ t)) fs = calcPsdFolded x fs ∧
      calcPsdTwoSided (fun t => x (σ t)) fs = calcPsdTwoSided x fs) ∧
    ((∀ k, calcPsdFolded (fun t s => a * x t s) (r * fs) k = a ^ 2 / r * calcPsdFolded x fs k) ∧
      ∀ k, calcPsdTwoSided (fun t s => a * x t s) (r * fs) k = a ^ 2 / r * calcPsdTwoSided x fs k) ∧
    (calcPsdFolded (fun t => roll (x t) (d t)) fs = calcPsdFolded x fs ∧
      calcPsdTwoSided (fun t => roll (x t) (d t)) fs = calcPsdTwoSided x fs) ∧
    ((∀ k ≠ 0, calcPsdFolded (fun t s => x t s + b t) fs k = calcPsdFolded x fs k) ∧
      ∀ k ≠ 0, calcPsdTwoSided (fun t s => x t s + b t) fs k = calcPsdTwoSided x fs k) := by
  have hf : ∀ (y : ZMod n → ℝ) k, ‖fftR (fun s => a * y s) k‖ ^ 2 = a ^ 2 * ‖fftR y k‖ ^ 2 := by
    intro y k
    rw [fftR_smul, norm_mul, Complex.norm_real, Real.norm_eq_abs, mul_pow, sq_abs]
  refine ⟨⟨?_, ?_⟩, ⟨fun k => ?_, fun k => ?_⟩, ⟨?_, ?_⟩, fun k hk => ?_, fun k hk => ?_⟩
  · unfold calcPsdFolded
    congr 1
    funext k
    rw [avg_perm σ fun t => ‖rfft (x t) k‖ ^ 2]
  · unfold calcPsdTwoSided
    funext k
    rw [avg_perm σ fun t => ‖fftR (x t) k‖ ^ 2]
  · unfold calcPsdFolded mulSlice rfft
    simp only [hf, avg_mul]
    split_ifs <;> ring
  · unfold calcPsdTwoSided
    simp only [hf, avg_mul]
    ring
  · unfold calcPsdFolded
    simp only [norm_rfft_roll]
  · unfold calcPsdTwoSided
    simp only [fftR_roll, norm_mul, norm_e, one_mul]
  · unfold calcPsdFolded mulSlice
    simp only [rfft_offset _ _ hk]
  · unfold calcPsdTwoSided
    have : ∀ t, fftR (fun s => x t s + b t) k = fftR (x t) k := by
      intro t
      rw [show (fun s => x t s + b t) = fun s => x t s + (fun _ : ZMod n => b t) s from rfl, fftR_add,
        fftR_const, if_neg hk, add_zero]
    simp only [this]

/-- A fresh object and the same with offsets. -/
example (b : Fin m → Fin c → ℝ) (traces : Fin m → Fin c → ZMod n → ℝ) (fs : ℝ) (time : ZMod n → ℝ) :
    Offset b ⟨traces, fs, time, none, none, none, none, none, none, none⟩
      ⟨fun t i s => traces t i s + b t i, fs, time, none, none, none, none, none, none, none⟩ :=
  ⟨fun _ _ _ => rfl, rfl, rfl, .none, .none, .none, rfl, .none, rfl, rfl⟩

/-- Two channels with a cross spectrum of both signs, one of them reversed. -/
example : let traces : Fin 1 → Fin 2 → ZMod 6 → ℝ := fun _ i => spikeTrace (if i = 0 then 1 else 3)
    let a : Fin 2 → ℝ := ![1, -1]
    a 0 * a 1 < 0 ∧ (∃ k, 0 < ((csdOf traces 1).csd 0 1 k).re) ∧ ∃ k, ((csdOf traces 1).csd 0 1 k).re < 0 := by
  refine ⟨by simp, ?_⟩
  have h0 := csdScale_six_pos 0
  have h1 := csdScale_six_pos 1
  refine ⟨⟨0, ?_⟩, ⟨1, ?_⟩⟩
  · rw [csd_re]
    have : (csd1 (spikeTrace 1) (spikeTrace 3) 1 (0 : Half 6)).re = 1 / 4 * csdScale 6 1 0 := by
      rw [csd1_spikes, Complex.re_mul_ofReal, show -(2 * Half.bin (0 : Half 6)) = (0 : ZMod 6) by decide,
        e_zero]
      simp
    simp only [avg, Finset.univ_unique, Finset.sum_singleton]
    simpa [this] using h0
  · rw [csd_re]
    have : (csd1 (spikeTrace 1) (spikeTrace 3) 1 (1 : Half 6)).re = -(1 / 8 * csdScale 6 1 1) := by
      rw [csd1_spikes, Complex.re_mul_ofReal, show -(2 * Half.bin (1 : Half 6)) = -(2 : ZMod 6) by decide,
        ← conj_e, Complex.conj_re, e_six_two_re]
      ring
    simpa [avg, this] using h1

end Verif.Noise
