import Verif.NoiseResidLemmas

/-! Property C125: the uncorrelated noise is what the best prediction from the other channels leaves. -/

namespace Verif.Noise
open Verif Verif.Dft

variable {n m c : ℕ} [NeZero n]

/-- The uncorrelated noise of channel `j` is the least spectral density that can be reached by adding the
other channels to it with any weights, which may depend on the frequency; exactly one choice of the
weights reaches it. -/
theorem uncorr_least {o o' : Obj m c n} (hfs : 0 ≤ o.fs)
    (hcur : ∀ d, o.csd = some d → d = csdOf o.traces o.fs)
    (h : calculateUncorrNoise o = (.ok (), o')) :
    ∃ u, o'.uncorr = some u ∧ ∀ j k,
      (∀ w : Fin c → ℂ, w j = 1 → u j k ≤ combined o.traces o.fs k w) ∧
      ∃! w : Fin c → ℂ, w j = 1 ∧ combined o.traces o.fs k w = u j k := by
  obtain ⟨hdet, hu, -⟩ := uncorr_ok hcur h
  refine ⟨_, hu, fun j k => ?_⟩
  have hs := div_nonneg (csdScale_nonneg (n := n) o.fs hfs k) (Nat.cast_nonneg (α := ℝ) m)
  obtain ⟨v, hv, he, -, hall⟩ := gram_least (fun t i => segFft (o.traces t i) k) _ hs _
    (csdMat_gram o.traces o.fs k) (hdet k) j
  unfold uncorrOf
  simp only [combined_eq]
  refine ⟨fun w hw => ?_, v, ⟨hv, he⟩, ?_⟩
  · rw [hall w hw, le_add_iff_nonneg_right]
    exact Finset.sum_nonneg fun t _ => mul_nonneg (sq_nonneg _) hs
  · rintro w ⟨hw, hwe⟩
    rw [hall w hw] at hwe
    have h0 := gram_definite (fun t i => segFft (o.traces t i) k) _ hs _
      (csdMat_gram o.traces o.fs k) (hdet k) (fun i => w i - v i) (by linarith)
    funext i
    exact sub_eq_zero.1 (congrFun h0 i)

/-- In particular no sum of the traces of channel `j` with multiples of the traces of the others has a
spectrum below the uncorrelated noise, at any frequency. -/
theorem uncorr_mixed {o o' : Obj m c n} (hfs : 0 ≤ o.fs)
    (hcur : ∀ d, o.csd = some d → d = csdOf o.traces o.fs)
    (h : calculateUncorrNoise o = (.ok (), o')) :
    ∃ u, o'.uncorr = some u ∧ ∀ j k, ∀ a : Fin c → ℝ, a j = 1 →
      u j k ≤ ((csdOf (mixed o.traces a) o.fs).csd 0 0 k).re := by
  obtain ⟨u, hu, hl⟩ := uncorr_least hfs hcur h
  refine ⟨u, hu, fun j k a ha => ((hl j k).1 (fun i => (a i : ℂ)) (by simp [ha])).trans_eq ?_⟩
  rw [combined_eq]
  have := csdMat_gram (mixed o.traces a) o.fs k 0 0
  unfold csdMat at this
  rw [this, Complex.re_sum]
  refine Finset.sum_congr rfl fun t _ => ?_
  have e : segFft (mixed o.traces a t 0) k = ∑ i, (a i : ℂ) * segFft (o.traces t i) k :=
    segFft_sum (o.traces t) a k
  rw [e, mul_comm (starRingEnd ℂ _), Complex.mul_conj, Complex.normSq_eq_norm_sq, Complex.re_mul_ofReal,
    Complex.ofReal_re]

/-- A channel has no correlated noise at a frequency exactly if its CSD with every other channel vanishes
there. -/
theorem corr_zero_iff {o o' : Obj m c n} (hfs : 0 ≤ o.fs)
    (hcur : ∀ d, o.csd = some d → d = csdOf o.traces o.fs)
    (h : calculateUncorrNoise o = (.ok (), o')) :
    ∃ r, o'.corr = some r ∧ ∀ j k,
      r j k = 0 ↔ ∀ i, i ≠ j → (csdOf o.traces o.fs).csd i j k = 0 := by
  obtain ⟨hdet, -, hr⟩ := uncorr_ok hcur h
  refine ⟨_, hr, fun j k => ?_⟩
  have hs := div_nonneg (csdScale_nonneg (n := n) o.fs hfs k) (Nat.cast_nonneg (α := ℝ) m)
  obtain ⟨v, hv, he, hMv, hall⟩ := gram_least (fun t i => segFft (o.traces t i) k) _ hs _
    (csdMat_gram o.traces o.fs k) (hdet k) j
  obtain ⟨g1, g2, g3⟩ := gram_inv (fun t i => segFft (o.traces t i) k) _ hs _
    (csdMat_gram o.traces o.fs k) (hdet k) j
  have hre : ((csdOf o.traces o.fs).csd j j k).re =
      avg fun t => (csd1 (o.traces t j) (o.traces t j) o.fs k).re := by
    simp only [csdOf, avg]
    rw [show ((∑ t, csd1 (o.traces t j) (o.traces t j) o.fs k) / (m : ℂ)) =
      (∑ t, csd1 (o.traces t j) (o.traces t j) o.fs k) / ((m : ℝ) : ℂ) by push_cast; rfl,
      Complex.div_ofReal_re, Complex.re_sum]
  have hreal : (csdOf o.traces o.fs).real j j k = (csdMat (csdOf o.traces o.fs) k j j).re := by
    have : (csdOf o.traces o.fs).real j j k = fillNeg (fun k => avg fun t =>
      (csd1 (o.traces t j) (o.traces t j) o.fs k).re) k := rfl
    rw [this, fillNeg_pos _ _ (by rw [← hre]; exact g3), ← hre]
    rfl
  -- the channel alone
  set e : Fin c → ℂ := fun i => if i = j then 1 else 0 with hedef
  have hej : e j = 1 := by simp [hedef]
  have hform : ((∑ t, ‖∑ i, e i * segFft (o.traces t i) k‖ ^ 2 * (csdScale n o.fs k / m) : ℝ) : ℂ) =
      csdMat (csdOf o.traces o.fs) k j j := by
    rw [← gram_form _ _ _ (csdMat_gram o.traces o.fs k)]
    simp [hedef]
  have hform' : (csdMat (csdOf o.traces o.fs) k j j).re =
      ∑ t, ‖∑ i, e i * segFft (o.traces t i) k‖ ^ 2 * (csdScale n o.fs k / m) := by
    rw [← hform, Complex.ofReal_re]
  unfold corrOf
  rw [hreal, hform', hall e hej, add_sub_cancel_left]
  constructor
  · intro h0 i hi
    have h1 := gram_definite (fun t i => segFft (o.traces t i) k) _ hs _
      (csdMat_gram o.traces o.fs k) (hdet k) (fun i => e i - v i) h0
    have h2 : ∀ i, v i = e i := fun i => (sub_eq_zero.1 (congrFun h1 i)).symm
    have h3 := hMv i
    rw [if_neg hi, Finset.sum_congr rfl fun l _ => by rw [h2 l]] at h3
    simpa [hedef, csdMat] using h3
  · intro h0
    have h1 : ∀ i, (csdMat (csdOf o.traces o.fs) k).mulVec
        (fun l => csdMat (csdOf o.traces o.fs) k j j * v l - ((1 / ‖(csdMat (csdOf o.traces o.fs) k)⁻¹ j j‖ : ℝ) : ℂ) * e l) i = 0 := by
      intro i
      have : (csdMat (csdOf o.traces o.fs) k).mulVec
        (fun l => csdMat (csdOf o.traces o.fs) k j j * v l -
          ((1 / ‖(csdMat (csdOf o.traces o.fs) k)⁻¹ j j‖ : ℝ) : ℂ) * e l) i =
        csdMat (csdOf o.traces o.fs) k j j * ∑ l, csdMat (csdOf o.traces o.fs) k i l * v l -
          ((1 / ‖(csdMat (csdOf o.traces o.fs) k)⁻¹ j j‖ : ℝ) : ℂ) *
            ∑ l, csdMat (csdOf o.traces o.fs) k i l * e l := by
        show ∑ l, csdMat (csdOf o.traces o.fs) k i l * _ = _
        rw [Finset.mul_sum, Finset.mul_sum, ← Finset.sum_sub_distrib]
        exact Finset.sum_congr rfl fun l _ => by ring
      rw [this, hMv i]
      have h5 : ∑ l, csdMat (csdOf o.traces o.fs) k i l * e l = csdMat (csdOf o.traces o.fs) k i j := by
        simp [hedef]
      rw [h5]
      by_cases hi : i = j
      · subst hi
        rw [if_pos rfl]
        ring
      · rw [if_neg hi]
        have : csdMat (csdOf o.traces o.fs) k i j = 0 := h0 i hi
        rw [this]
        ring
    have h2 : (fun l => csdMat (csdOf o.traces o.fs) k j j * v l -
        ((1 / ‖(csdMat (csdOf o.traces o.fs) k)⁻¹ j j‖ : ℝ) : ℂ) * e l) = 0 := by
      by_contra hw
      exact hdet k (Matrix.exists_mulVec_eq_zero_iff.1 ⟨_, hw, funext h1⟩)
    have h3 := congrFun h2 j
    simp only [hv, hej, mul_one, Pi.zero_apply] at h3
    have h4 : (csdMat (csdOf o.traces o.fs) k j j).re = 1 / ‖(csdMat (csdOf o.traces o.fs) k)⁻¹ j j‖ := by
      rw [sub_eq_zero.1 h3, Complex.ofReal_re]
    rw [hform', hall e hej] at h4
    linarith

/-- With fewer traces than channels the uncorrelated noise cannot be calculated: the CSD matrix is
singular at every frequency and LinAlgError is raised. -/
theorem uncorr_few {o : Obj m c n} (hc : c ≠ 1) (hmc : m < c)
    (hcur : ∀ d, o.csd = some d → d = csdOf o.traces o.fs) :
    (calculateUncorrNoise o).1 = .error .linAlgError := by
  have hdet : ∃ k, (csdMat (csdOf o.traces o.fs) k).det = 0 := by
    refine ⟨0, ?_⟩
    by_contra hdet
    -- more unknowns than equations
    have hlt : Module.finrank ℂ (Fin m → ℂ) < Module.finrank ℂ (Fin c → ℂ) := by simpa using hmc
    obtain ⟨w, hw, hw0⟩ := Submodule.exists_mem_ne_zero_of_ne_bot
      (LinearMap.ker_ne_bot_of_finrank_lt (f := Matrix.toLin' (fun (t : Fin m) (i : Fin c) =>
        segFft (o.traces t i) 0)) hlt)
    rw [LinearMap.mem_ker] at hw
    have hz : ∀ t, ∑ i, segFft (o.traces t i) 0 * w i = 0 := fun t => congrFun hw t
    apply hw0
    by_contra hne
    refine hdet (Matrix.exists_mulVec_eq_zero_iff.1 ⟨w, hw0, ?_⟩)
    funext i
    show ∑ l, csdMat (csdOf o.traces o.fs) 0 i l * w l = 0
    have : ∑ l, csdMat (csdOf o.traces o.fs) 0 i l * w l = ∑ t, starRingEnd ℂ (segFft (o.traces t i) 0) *
        ((∑ l, segFft (o.traces t l) 0 * w l) * ((csdScale n o.fs 0 / m : ℝ) : ℂ)) := by
      simp only [csdMat_gram, Finset.sum_mul, Finset.mul_sum]
      rw [Finset.sum_comm]
      refine Finset.sum_congr rfl fun t _ => Finset.sum_congr rfl fun l _ => by ring
    rw [this]
    simp [hz]
  unfold calculateUncorrNoise
  cases hd : o.csd with
  | some d =>
    obtain rfl := hcur d hd
    simp only [storeUncorr]
    rw [if_pos hdet]
  | none =>
    simp only [calculateCsd]
    rw [if_neg hc]
    simp only [storeUncorr]
    rw [if_pos hdet]

/-- The ramp traces meet the hypotheses, before and after `calculate_csd`. -/
example : (∃ o', calculateUncorrNoise rampObj = (.ok (), o')) ∧
    (∃ o', calculateUncorrNoise (step rampObj .calculateCsd) = (.ok (), o')) ∧
    (∀ d, rampObj.csd = some d → d = csdOf rampObj.traces rampObj.fs) ∧
    (∀ d, (step rampObj .calculateCsd).csd = some d → d = csdOf rampObj.traces rampObj.fs) := by
  have hdet : ¬ ∃ k, (csdMat (csdOf rampTraces 1) k).det = 0 := by
    rintro ⟨k, hk⟩
    rw [Matrix.det_fin_two] at hk
    simp [csdMat, ramp_csd] at hk
  have h0 : (calculateUncorrNoise rampObj).1 = .ok () := by
    simp only [calculateCsd, calculateUncorrNoise, rampObj]
    rw [if_neg (by norm_num : ¬ (2 : ℕ) = 1)]
    simp only [storeUncorr]
    rw [if_neg hdet]
  have h : (calculateUncorrNoise (step rampObj .calculateCsd)).1 = .ok () := by
    simp only [step, calculateCsd, calculateUncorrNoise, rampObj]
    rw [if_neg (by norm_num : ¬ (2 : ℕ) = 1)]
    simp only [storeUncorr]
    rw [if_neg hdet]
  refine ⟨⟨_, Prod.ext h0 rfl⟩, ⟨_, Prod.ext h rfl⟩, fun d hd => ?_, fun d hd => ?_⟩
  · simp [rampObj] at hd
  · simp only [step, calculateCsd] at hd
    rw [if_neg (by norm_num : ¬ (2 : ℕ) = 1)] at hd
    exact (Option.some.inj hd).symm

/-- One trace of two channels is too few. -/
example : (1 : ℕ) < 2 ∧ (2 : ℕ) ≠ 1 := by decide

end Verif.Noise
