import Verif.OFLimitSpec
import Verif.OFRateProps
import Mathlib.Probability.StrongLaw

/-! Auxiliary lemmas of property C142. -/

namespace Verif.OF
open Verif Verif.Dft MeasureTheory ProbabilityTheory Filter Topology

variable {n : ℕ} [NeZero n]

/-- Power in one bin is a continuous function of the trace. -/
theorem power_measurable (k : ZMod n) : Measurable fun y : ZMod n → ℝ => ‖fftR y k‖ ^ 2 := by
  simp only [Noise.norm_sq_fftR]
  fun_prop

/-- The strong law of large numbers in one bin. -/
theorem Run.bin {Ω : Type*} [MeasurableSpace Ω] {μ : Measure Ω} {noise : ℕ → Ω → ZMod n → ℝ} {R : ZMod n → ℝ}
    (h : Run μ noise R) (fs : ℝ) (k : ZMod n) :
    ∀ᵐ ω ∂μ, Tendsto (fun m => measured (fun i => noise i ω) fs m k) atTop (𝓝 ((fftR R k).re / fs)) := by
  have hn : (n : ℝ) ≠ 0 := Nat.cast_ne_zero.2 (NeZero.ne n)
  have := strong_law_ae_real (fun i ω => ‖fftR (noise i ω) k‖ ^ 2) (h.stationary.int_bin k)
    (fun i j hij => (h.independent hij).comp (power_measurable k) (power_measurable k))
    fun i => (h.alike i).comp (power_measurable k)
  filter_upwards [this] with ω hω
  rw [h.stationary.bin] at hω
  have e : (fftR R k).re / fs = n * (fftR R k).re / (fs * n) := by
    rw [mul_comm fs, mul_div_mul_left _ _ hn]
  rw [e]
  refine (hω.div_const (fs * n)).congr fun m => ?_
  unfold measured Noise.calcPsdTwoSided Noise.avg
  rw [Finset.sum_range]

section Filter
variable {P : ℕ → ZMod n → ℝ} {psd : ZMod n → ℝ} {ac : Bool} {fs : ℝ} {x T : ZMod n → ℝ}

omit [NeZero n] in
theorem weight_limit (hP : ∀ k, Tendsto (fun m => P m k) atTop (𝓝 (psd k))) (hpsd : ∀ k, 0 < psd k) (ac : Bool) (k : ZMod n) :
    Tendsto (fun m => weight (fun k => (P m k : WithTop ℝ)) ac k) atTop
      (𝓝 (weight (fun k => (psd k : WithTop ℝ)) ac k)) := by
  unfold weight
  split_ifs
  · exact tendsto_const_nhds
  · exact (tendsto_const_nhds (x := (1 : ℝ))).div (hP k) (hpsd k).ne'

theorem ip_limit {W : ℕ → ZMod n → ℝ} {wt : ZMod n → ℝ} (hW : ∀ k, Tendsto (fun m => W m k) atTop (𝓝 (wt k)))
    (fs : ℝ) (y z : ZMod n → ℝ) : Tendsto (fun m => ip fs (W m) y z) atTop (𝓝 (ip fs wt y z)) := by
  unfold ip
  exact tendsto_finsetSum _ fun k _ => ((hW k).const_mul _).mul_const _

theorem norm_limit (hP : ∀ k, Tendsto (fun m => P m k) atTop (𝓝 (psd k))) (hpsd : ∀ k, 0 < psd k) (ac : Bool) (fs : ℝ)
    (y : ZMod n → ℝ) : Tendsto (fun m => traceChi2 fs (weight (fun k => (P m k : WithTop ℝ)) ac) y) atTop
      (𝓝 (traceChi2 fs (weight (fun k => (psd k : WithTop ℝ)) ac) y)) := by
  simp only [← ip_self]
  exact ip_limit (weight_limit hP hpsd ac) fs y y

theorem sfTd_limit (hP : ∀ k, Tendsto (fun m => P m k) atTop (𝓝 (psd k))) (hpsd : ∀ k, 0 < psd k)
    (hN : 0 < traceChi2 fs (weight (fun k => (psd k : WithTop ℝ)) ac) T) (x : ZMod n → ℝ) (d : ZMod n) :
    Tendsto (fun m => readSfTd (init x T (fun k => (P m k : WithTop ℝ)) fs ac false) d) atTop
      (𝓝 (readSfTd (init x T (fun k => (psd k : WithTop ℝ)) fs ac false) d)) := by
  simp only [init_sfTd, init_norm]
  exact (ip_limit (weight_limit hP hpsd ac) fs _ _).div (norm_limit hP hpsd ac fs T) hN.ne'

end Filter

/-- What a fit without a direction returns. -/
theorem withdelay_found {x T : ZMod n → ℝ} {psd : ZMod n → WithTop ℝ} {fs : ℝ} {ac : Bool} {nc : Option ℤ} {o : Bool}
    {wc : ℤ} {a t c : ℝ} (hN : 0 < traceChi2 fs (weight psd ac) T) (hne : (Delays n nc o wc).Nonempty)
    (h : (withdelay (init x T psd fs ac false) nc o 0 wc false).1 = .ok (a, t, c)) :
    ∃ d ∈ Delays n nc o wc, a = readSfTd (init x T psd fs ac false) (d : ZMod n) ∧ t = d / fs ∧
      ∀ d' ∈ Delays n nc o wc, readSfTd (init x T psd fs ac false) (d' : ZMod n) ^ 2 ≤ a ^ 2 := by
  have hdom := fun (d' : ℤ) hd' => withdelay_dominates hN h (d := d') hd' (by simp) (by simp)
  simp only [withdelay, pick] at h
  split at h
  · simp at h
  · rename_i hs
    obtain ⟨d, hd⟩ := hne
    exact absurd ⟨hd, by simp, by simp⟩ ((search_spec _ _ _ _ _ _ _ hs).2 _)
  · rename_i i hs
    simp only [Bool.false_eq_true, if_false, Except.ok.injEq, Prod.mk.injEq] at h
    obtain ⟨rfl, rfl, rfl⟩ := h
    refine ⟨i - (n : ℤ) / 2, ?_, by rw [init_amps, sub_half_cast], ?_, hdom⟩
    · change Admissible n nc o none wc (i - (n : ℤ) / 2 + (n : ℤ) / 2)
      rw [sub_add_cancel]
      exact (search_spec _ _ _ _ _ _ _ hs).2.1.1
    · rw [show (n : ℤ) / 2 = ((n / 2 : ℕ) : ℤ) by simp]; push_cast; rfl

end Verif.OF
