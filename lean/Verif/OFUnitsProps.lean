import Verif.OFUnitsLemmas
import Verif.OFPairProps

/-! Property C124: the results of the optimum filters do not depend on the units of signal, template,
noise and time. -/

namespace Verif.OF
open Verif Verif.Dft

variable {n : ℕ} [NeZero n]

section
variable (u : Units) (hu : u.Proper) (x T : ZMod n → ℝ) (psd : ZMod n → WithTop ℝ) (fs : ℝ) (ac b : Bool)
include hu

/-- The resolutions: the energy resolution changes like an amplitude of chi-square one. -/
theorem resolutions_units (a : ℝ) :
    energyResolution (u.fit x T psd fs ac b) =
      |u.amp b| / Real.sqrt u.chi * energyResolution (init x T psd fs ac b) ∧
    (timeResolution (u.fit x T psd fs ac b) (u.amp b * a)).1 =
      (timeResolution (init x T psd fs ac b) a).1 / (u.rate * Real.sqrt u.chi) := by
  have h := scaled_init u hu x T psd fs ac b
  obtain ⟨hα, hκ, hN, hσ⟩ := factors u hu b
  obtain ⟨hc, hg, hp, hr⟩ := hu
  have hk : 0 < u.chi := by
    unfold Units.chi
    have := pow_pos (abs_pos.2 hc) 2
    rw [sq_abs] at this
    positivity
  have hs := Real.sqrt_pos.2 hk
  constructor
  · unfold energyResolution
    rw [h.norm, hN, Real.sqrt_mul (by unfold Units.weight; positivity)]
    unfold Units.weight
    rw [Real.sqrt_div hk.le, Real.sqrt_sq_eq_abs]
    have ha : u.amp b ≠ 0 := by
      rw [← hα]
      exact div_ne_zero (div_ne_zero hc hr.ne') hσ
    have := abs_pos.2 ha
    by_cases hz : Real.sqrt (init x T psd fs ac b).norm = 0
    · simp [hz]
    field_simp
  · unfold timeResolution
    dsimp only
    have e : ∀ k, (2 * Real.pi * readFreqs (u.fit x T psd fs ac b) k) ^ 2 *
        ‖(u.fit x T psd fs ac b).s k‖ ^ 2 * (u.fit x T psd fs ac b).w k =
        u.rate ^ 2 * (if b then 1 else u.template / u.rate) ^ 2 / u.noise *
        ((2 * Real.pi * readFreqs (init x T psd fs ac b) k) ^ 2 *
          ‖(init x T psd fs ac b).s k‖ ^ 2 * (init x T psd fs ac b).w k) := by
      intro k
      rw [h.readFreqs, h.s, h.w, norm_mul, Complex.norm_real, Real.norm_eq_abs, mul_pow |_| _, sq_abs]
      ring
    rw [Finset.sum_congr rfl fun k _ => e k, ← Finset.mul_sum, h.df]
    generalize ∑ k, (2 * Real.pi * readFreqs (init x T psd fs ac b) k) ^ 2 *
          ‖(init x T psd fs ac b).s k‖ ^ 2 * (init x T psd fs ac b).w k = S
    generalize (init x T psd fs ac b).df = D
    have : (u.amp b * a) ^ 2 * (u.rate ^ 2 * (if b then 1 else u.template / u.rate) ^ 2 / u.noise * S) *
        (u.rate * D) = u.rate ^ 2 * u.chi * (a ^ 2 * S * D) := by
      rw [← hκ, ← hα]
      generalize (if b then (1 : ℝ) else u.template / u.rate) = σ at hσ
      field_simp
    generalize a ^ 2 * S * D = M at this ⊢
    rw [this, mul_assoc, Real.sqrt_mul (sq_nonneg _), Real.sqrt_sq hr.le, Real.sqrt_mul hk.le,
      div_div]
    ring_nf

/-- The chi-squares without a pulse, and of the low frequencies. -/
theorem chi2_units (a t0 fc : ℝ) :
    (chi2Nopulse (u.fit x T psd fs ac b)).1 = u.chi * (chi2Nopulse (init x T psd fs ac b)).1 ∧
    (chi2Lowfreq (u.fit x T psd fs ac b) (u.amp b * a) (t0 / u.rate) (u.rate * fc)).1 =
      u.chi * (chi2Lowfreq (init x T psd fs ac b) a t0 fc).1 := by
  have h := scaled_init u hu x T psd fs ac b
  obtain ⟨hα, hκ, hN, hσ⟩ := factors u hu b
  obtain ⟨hc, hg, hp, hr⟩ := hu
  constructor
  · unfold chi2Nopulse
    dsimp only
    rw [h.readChi0, hκ]
  · unfold chi2Lowfreq
    dsimp only
    rw [Finset.mul_sum]
    refine Finset.sum_congr rfl fun k _ => ?_
    have hf : |readFreqs (u.fit x T psd fs ac b) k| ≤ u.rate * fc ↔
        |readFreqs (init x T psd fs ac b) k| ≤ fc := by
      rw [h.readFreqs, abs_mul, abs_of_pos hr, mul_le_mul_iff_right₀ hr]
    by_cases h1 : |readFreqs (init x T psd fs ac b) k| ≤ fc
    · rw [if_pos h1, if_pos (hf.2 h1), h.df, h.w]
      have hr' : (u.rate : ℂ) ≠ 0 := by exact_mod_cast hr.ne'
      have e : (u.fit x T psd fs ac b).v k - ((u.amp b * a : ℝ) : ℂ) *
          Complex.exp (-2 * Complex.I * Real.pi * ((t0 / u.rate : ℝ) : ℂ) *
            readFreqs (u.fit x T psd fs ac b) k) * (u.fit x T psd fs ac b).s k =
          ((u.signal / u.rate : ℝ) : ℂ) * ((init x T psd fs ac b).v k - (a : ℂ) *
          Complex.exp (-2 * Complex.I * Real.pi * t0 * readFreqs (init x T psd fs ac b) k) *
            (init x T psd fs ac b).s k) := by
        rw [h.v, h.s, h.readFreqs, ← hα]
        have : -2 * Complex.I * Real.pi * ((t0 / u.rate : ℝ) : ℂ) *
            ((u.rate * readFreqs (init x T psd fs ac b) k : ℝ) : ℂ) =
            -2 * Complex.I * Real.pi * t0 * readFreqs (init x T psd fs ac b) k := by
          push_cast
          field_simp
        rw [this]
        generalize (if b then (1 : ℝ) else u.template / u.rate) = σ at hσ
        have hσ' : (σ : ℂ) ≠ 0 := by exact_mod_cast hσ
        generalize Complex.exp (-2 * Complex.I * Real.pi * t0 * readFreqs (init x T psd fs ac b) k) = E
        generalize (u.signal / u.rate : ℝ) = τ
        push_cast
        field_simp
      rw [e, norm_mul, Complex.norm_real, Real.norm_eq_abs, mul_pow |_| _, sq_abs, ← hκ]
      ring
    · rw [if_neg h1, if_neg (fun q => h1 (hf.1 q)), mul_zero]

/-- The fit without a delay, centred at any bin. -/
theorem nodelay_units (wc : ℤ) :
    (nodelay (u.fit x T psd fs ac b) wc).1 =
      (u.amp b * (nodelay (init x T psd fs ac b) wc).1.1,
        u.chi * (nodelay (init x T psd fs ac b) wc).1.2) := by
  have h := scaled_init u hu x T psd fs ac b
  obtain ⟨hα, hκ, hN, hσ⟩ := factors u hu b
  obtain ⟨hc, hg, hp, hr⟩ := hu
  have hr' : (u.rate : ℂ) ≠ 0 := by exact_mod_cast hr.ne'
  have hfac : u.signal / u.rate / ((if b then (1 : ℝ) else u.template / u.rate) * u.rate) * u.rate =
      u.amp b := by
    rw [← hα]
    generalize (if b then (1 : ℝ) else u.template / u.rate) = σ at hσ
    field_simp
  have hamp : (if wc ≠ 0 then
      (∑ k, (u.fit x T psd fs ac b).signalfilt k * Complex.exp (2 * Complex.I * Real.pi *
        ((wc / (u.fit x T psd fs ac b).fs : ℝ) : ℂ) * readFreqs (u.fit x T psd fs ac b) k)).re *
        (u.fit x T psd fs ac b).df
      else (∑ k, (u.fit x T psd fs ac b).signalfilt k).re * (u.fit x T psd fs ac b).df) =
      u.amp b * (if wc ≠ 0 then
      (∑ k, (init x T psd fs ac b).signalfilt k * Complex.exp (2 * Complex.I * Real.pi *
        ((wc / (init x T psd fs ac b).fs : ℝ) : ℂ) * readFreqs (init x T psd fs ac b) k)).re *
        (init x T psd fs ac b).df
      else (∑ k, (init x T psd fs ac b).signalfilt k).re * (init x T psd fs ac b).df) := by
    by_cases hw : wc ≠ 0
    · rw [if_pos hw, if_pos hw]
      have e : ∀ k, (u.fit x T psd fs ac b).signalfilt k * Complex.exp (2 * Complex.I * Real.pi *
          ((wc / (u.fit x T psd fs ac b).fs : ℝ) : ℂ) * readFreqs (u.fit x T psd fs ac b) k) =
          ((u.signal / u.rate / ((if b then (1 : ℝ) else u.template / u.rate) * u.rate) : ℝ) : ℂ) *
          ((init x T psd fs ac b).signalfilt k * Complex.exp (2 * Complex.I * Real.pi *
          ((wc / (init x T psd fs ac b).fs : ℝ) : ℂ) * readFreqs (init x T psd fs ac b) k)) := by
        intro k
        rw [h.sf, h.readFreqs, h.fs]
        have : 2 * Complex.I * Real.pi * ((wc / (u.rate * (init x T psd fs ac b).fs) : ℝ) : ℂ) *
            ((u.rate * readFreqs (init x T psd fs ac b) k : ℝ) : ℂ) =
            2 * Complex.I * Real.pi * ((wc / (init x T psd fs ac b).fs : ℝ) : ℂ) *
              readFreqs (init x T psd fs ac b) k := by
          by_cases hfs : ((init x T psd fs ac b).fs : ℂ) = 0
          · push_cast
            simp [hfs]
          push_cast
          field_simp
        rw [this, mul_assoc]
      rw [Finset.sum_congr rfl fun k _ => e k, ← Finset.mul_sum, Complex.re_ofReal_mul, h.df, ← hfac]
      ring
    · rw [if_neg hw, if_neg hw, Finset.sum_congr rfl fun k _ => h.sf k, ← Finset.mul_sum,
        Complex.re_ofReal_mul, h.df, ← hfac]
      ring
  unfold nodelay
  dsimp only
  rw [hamp, h.readChi0, hκ, h.norm, hN]
  refine Prod.ext rfl ?_
  dsimp only
  unfold Units.weight
  have ha : u.amp b ≠ 0 := by
    rw [← hα]
    exact div_ne_zero (div_ne_zero hc hr.ne') hσ
  generalize (if wc ≠ 0 then
      (∑ k, (init x T psd fs ac b).signalfilt k * Complex.exp (2 * Complex.I * Real.pi *
        ((wc / (init x T psd fs ac b).fs : ℝ) : ℂ) * readFreqs (init x T psd fs ac b) k)).re *
        (init x T psd fs ac b).df
      else (∑ k, (init x T psd fs ac b).signalfilt k).re * (init x T psd fs ac b).df) = A
  field_simp

/-- The fit with a free delay, for every window, direction and interpolation. -/
theorem withdelay_units (nc : Option ℤ) (o : Bool) (dir wc : ℤ) (interp : Bool) :
    (withdelay (u.fit x T psd fs ac b) nc o (u.dir b dir) wc interp).1 =
      u.res b (withdelay (init x T psd fs ac b) nc o dir wc interp).1 := by
  have h := scaled_init u hu x T psd fs ac b
  obtain ⟨hα, hκ, hN, hσ⟩ := factors u hu b
  obtain ⟨ha, hk⟩ := factors_ne u hu b
  obtain ⟨hc, hg, hp, hr⟩ := hu
  unfold withdelay
  dsimp only
  rw [h.readAmps hr.ne', h.readChi hr.ne' hσ, h.readChi0, h.fs, hα, hκ]
  unfold Units.dir
  rw [search_units _ _ ha hk, pick_units _ _ _ _ _ hk.ne' hr.ne']
  exact res3_eq u b _

/-- The fit of a second pulse. -/
theorem pileup_units (a1 t1 : ℝ) (nc : Option ℤ) (o : Bool) (dir wc : ℤ) (interp : Bool) :
    (pileupIterative (u.fit x T psd fs ac b) (u.amp b * a1) (t1 / u.rate) nc o (u.dir b dir) wc
      interp).1 =
      u.res b (pileupIterative (init x T psd fs ac b) a1 t1 nc o dir wc interp).1 := by
  have h := scaled_init u hu x T psd fs ac b
  obtain ⟨hα, hκ, hN, hσ⟩ := factors u hu b
  obtain ⟨ha, hk⟩ := factors_ne u hu b
  obtain ⟨hc, hg, hp, hr⟩ := hu
  have h1 := h.pileupA2 hr.ne' hσ hp.ne' a1 t1
  have h2 := h.pileupChi hr hσ hp.ne' a1 t1
  have h3 := h.pileupChit hr hσ a1 t1
  rw [hα] at h1 h2 h3
  rw [hκ] at h2 h3
  have e1 : roll (pileupA2 (u.fit x T psd fs ac b) (u.amp b * a1) (t1 / u.rate))
      ((n / 2 : ℕ) : ZMod n) = fun m => u.amp b * roll (pileupA2 (init x T psd fs ac b) a1 t1)
        ((n / 2 : ℕ) : ZMod n) m := by
    rw [h1]
    rfl
  have e2 : roll (pileupChi (u.fit x T psd fs ac b) (u.amp b * a1) (t1 / u.rate))
      ((n / 2 : ℕ) : ZMod n) = fun m => u.chi * roll (pileupChi (init x T psd fs ac b) a1 t1)
        ((n / 2 : ℕ) : ZMod n) m := by
    rw [h2]
    rfl
  unfold pileupIterative
  dsimp only
  rw [h.t1Index hr]
  by_cases hi : ¬ (-(n : ℤ) ≤ t1Index (init x T psd fs ac b) t1 ∧ t1Index (init x T psd fs ac b) t1 < n)
  · rw [if_pos hi, if_pos hi]
    rfl
  rw [if_neg hi, if_neg hi, e1, e2, h3]
  dsimp only
  unfold Units.dir
  rw [search_units _ _ ha hk, h.readChi0, hκ]
  have hd : 1 / (u.fit x T psd fs ac b).fs = 1 / (init x T psd fs ac b).fs / u.rate := by
    rw [h.fs, mul_comm, div_div]
  rw [hd]
  generalize search (roll (pileupA2 (init x T psd fs ac b) a1 t1) ((n / 2 : ℕ) : ZMod n))
    (roll (pileupChi (init x T psd fs ac b) a1 t1) ((n / 2 : ℕ) : ZMod n)) nc o dir wc = R
  rcases R with e | _ | i
  · rfl
  · simp [Units.res, mul_add]
  · cases interp
    · simp only [Bool.false_eq_true, if_false, Units.res, h.readTimes]
    · simp only [if_true]
      rw [interpolateOf_units _ _ _ hk.ne' hr.ne']
      cases interpolateOf (roll (pileupA2 (init x T psd fs ac b) a1 t1) ((n / 2 : ℕ) : ZMod n))
        (roll (pileupChi (init x T psd fs ac b) a1 t1) ((n / 2 : ℕ) : ZMod n)) i
        (1 / (init x T psd fs ac b).fs) with
      | error e => rfl
      | ok q =>
        obtain ⟨a, t, c⟩ := q
        simp only [res3, Units.res, h.readTimes, Except.ok.injEq, Prod.mk.injEq, true_and, and_true]
        rw [add_div]

/-- The fit with a free baseline. -/
theorem baseline_units (nc : Option ℤ) (o : Bool) (dir wc : ℤ) (interp : Bool) :
    baseline (u.fit x T psd fs ac b) nc o (u.dir b dir) wc interp =
      u.res b (baseline (init x T psd fs ac b) nc o dir wc interp) := by
  have h := scaled_init u hu x T psd fs ac b
  obtain ⟨hα, hκ, hN, hσ⟩ := factors u hu b
  obtain ⟨ha, hk⟩ := factors_ne u hu b
  obtain ⟨hc, hg, hp, hr⟩ := hu
  unfold baseline
  rw [h.psd0]
  generalize (init x T psd fs ac b).psd0 = P
  cases P with
  | top => rfl
  | coe p0 =>
    rw [WithTop.map_coe]
    dsimp only
    obtain ⟨q1, q2, q3, q4, q5, q6⟩ := h.baseQ hr hp p0
    rw [h.fs]
    generalize hQ' : baseQ (u.fit x T psd fs ac b) (u.noise * p0) = Q' at *
    generalize hQ : baseQ (init x T psd fs ac b) p0 = Q at *
    generalize (if b then (1 : ℝ) else u.template / u.rate) = σ at *
    have hτ : u.signal / u.rate ≠ 0 := div_ne_zero hc hr.ne'
    generalize hτe : u.signal / u.rate = τ at *
    have hden : Q'.norm * Q'.c2 - Q'.b2 ^ 2 = σ ^ 2 / u.noise ^ 2 * (Q.norm * Q.c2 - Q.b2 ^ 2) := by
      rw [q1, q3, q5]
      field_simp
    have hz : (Q'.norm * Q'.c2 - Q'.b2 ^ 2 = 0 ∨ Q'.c2 = 0 ∨ Q'.norm = 0) ↔
        (Q.norm * Q.c2 - Q.b2 ^ 2 = 0 ∨ Q.c2 = 0 ∨ Q.norm = 0) := by
      rw [hden, q1, q5]
      have n1 : σ ^ 2 / u.noise ^ 2 ≠ 0 := div_ne_zero (pow_ne_zero 2 hσ) (pow_ne_zero 2 hp.ne')
      have n2 : 1 / (u.rate * u.noise) ≠ 0 := by positivity
      have n3 : σ ^ 2 * u.rate / u.noise ≠ 0 :=
        div_ne_zero (mul_ne_zero (pow_ne_zero 2 hσ) hr.ne') hp.ne'
      simp only [mul_eq_zero, n1, n2, n3, false_or]
    by_cases hzero : Q.norm * Q.c2 - Q.b2 ^ 2 = 0 ∨ Q.c2 = 0 ∨ Q.norm = 0
    · rw [if_pos hzero, if_pos (hz.2 hzero)]
      rfl
    rw [if_neg hzero, if_neg (fun q => hzero (hz.1 q))]
    push Not at hzero
    obtain ⟨z1, z2, z3⟩ := hzero
    have hA : ∀ m, baseAmps Q' m = τ / σ * baseAmps Q m := by
      intro m
      unfold baseAmps
      rw [hden, q2, q3, q4, q5]
      field_simp
    have hB : ∀ m, baselines Q' m = τ * u.rate * baselines Q m := by
      intro m
      unfold baselines
      rw [hA, q3, q4, q5]
      field_simp
    have hX : ∀ m, baseChi1 Q' m = τ ^ 2 * u.rate / u.noise * baseChi1 Q m := by
      intro m
      unfold baseChi1
      rw [hA, hB, q1, q2, q3, q4, q5, q6]
      dsimp only
      field_simp
    have hmin : argminOn (asIdx (baseChi1 Q')) (arange 0 n) = argminOn (asIdx (baseChi1 Q)) (arange 0 n) := by
      refine argminOn_order _ _ (fun i j => ?_) _
      unfold asIdx
      rw [hX, hX, hκ]
      exact mul_lt_mul_iff_right₀ hk
    rw [hmin]
    cases argminOn (asIdx (baseChi1 Q)) (arange 0 n) with
    | none => rfl
    | some i0 =>
      dsimp only
      rw [hB]
      generalize baselines Q ((i0 : ℤ) : ZMod n) = bs
      have g1 : roll (baseAmps2 Q' (τ * u.rate * bs)) ((n / 2 : ℕ) : ZMod n) =
          fun m => u.amp b * roll (baseAmps2 Q bs) ((n / 2 : ℕ) : ZMod n) m := by
        funext m
        simp only [roll, baseAmps2]
        rw [q1, q2, q3, ← hα]
        field_simp
      have g0 : baseChi0 Q' (τ * u.rate * bs) = u.chi * baseChi0 Q bs := by
        unfold baseChi0
        rw [q4, q5, q6, ← hκ]
        field_simp
      have g2 : roll (baseChi2 Q' (τ * u.rate * bs)) ((n / 2 : ℕ) : ZMod n) =
          fun m => u.chi * roll (baseChi2 Q bs) ((n / 2 : ℕ) : ZMod n) m := by
        have hA2 : ∀ m, baseAmps2 Q' (τ * u.rate * bs) m = τ / σ * baseAmps2 Q bs m := by
          intro m
          unfold baseAmps2
          rw [q1, q2, q3]
          field_simp
        funext m
        simp only [roll, baseChi2]
        rw [g0, hA2, q1, q2, q3, ← hκ]
        field_simp
      rw [g0, g1, g2]
      unfold Units.dir
      rw [search_units _ _ ha hk, pick_units _ _ _ _ _ hk.ne' hr.ne']
      exact res3_eq u b _

/-- Partial form for the fit of two pulses of which one is not delayed: it does not depend on the units
if no bin searched is the one of zero delay, or if the units leave the variance of the amplitude unchanged.
Missing: all other searches (`stationary_units_violated`). -/
theorem stationary_units_partial (nc : Option ℤ) (o : Bool) (wc : ℤ)
    (hz : (∀ j ∈ searchedBins n nc o wc, (j : ZMod n) ≠ ((n / 2 : ℕ) : ZMod n)) ∨ u.weight b = 1) :
    (pileupStationary (u.fit x T psd fs ac b) nc o wc).1 =
      u.res2 b (pileupStationary (init x T psd fs ac b) nc o wc).1 := by
  have h := scaled_init u hu x T psd fs ac b
  obtain ⟨hα, hκ, hN, hσ⟩ := factors u hu b
  obtain ⟨ha, hk⟩ := factors_ne u hu b
  obtain ⟨hc, hg, hp, hr⟩ := hu
  have hbin : ∀ j ∈ searchedBins n nc o wc, (j : ZMod n) - ((n / 2 : ℕ) : ZMod n) ≠ 0 ∨
      (if b then (1 : ℝ) else u.template / u.rate) ^ 2 * u.rate / u.noise = 1 := by
    intro j hj
    rcases hz with hz | hz
    · exact .inl (sub_ne_zero.2 (hz j hj))
    · exact .inr (hN.trans hz)
  have hchi : ∀ j ∈ searchedBins n nc o wc, roll (statChi (u.fit x T psd fs ac b))
      ((n / 2 : ℕ) : ZMod n) (j : ZMod n) =
      u.chi * roll (statChi (init x T psd fs ac b)) ((n / 2 : ℕ) : ZMod n) (j : ZMod n) := by
    intro j hj
    simp only [roll]
    rw [h.statChi hr hσ hp (hbin j hj), hκ]
  have hmin : argminChi2 n (asIdx (roll (statChi (u.fit x T psd fs ac b)) ((n / 2 : ℕ) : ZMod n))) nc o
      none wc = argminChi2 n (asIdx (roll (statChi (init x T psd fs ac b)) ((n / 2 : ℕ) : ZMod n))) nc o
      none wc := by
    refine argminChi2_orderOn _ _ _ fun i hi j hj => ?_
    unfold asIdx
    rw [hchi i hi, hchi j hj]
    exact mul_lt_mul_iff_right₀ hk
  unfold pileupStationary
  dsimp only
  rw [hmin]
  cases hR : argminChi2 n (asIdx (roll (statChi (init x T psd fs ac b)) ((n / 2 : ℕ) : ZMod n))) nc o
      none wc with
  | error e => rfl
  | ok q =>
    cases q with
    | none => rfl
    | some i =>
      have hi := argminChi2_mem hR
      have hw : u.weight b ≠ 0 := by
        unfold Units.weight
        exact div_ne_zero hk.ne' (pow_ne_zero 2 ha)
      have hnan : (∃ j ∈ searchedBins n nc o wc, (j : ZMod n) - ((n / 2 : ℕ) : ZMod n) ≠ 0 ∧
          (u.fit x T psd fs ac b).norm ^ 2 - tfTd (u.fit x T psd fs ac b)
            ((j : ZMod n) - ((n / 2 : ℕ) : ZMod n)) ^ 2 = 0) ↔
          ∃ j ∈ searchedBins n nc o wc, (j : ZMod n) - ((n / 2 : ℕ) : ZMod n) ≠ 0 ∧
          (init x T psd fs ac b).norm ^ 2 - tfTd (init x T psd fs ac b)
            ((j : ZMod n) - ((n / 2 : ℕ) : ZMod n)) ^ 2 = 0 := by
        refine exists_congr fun j => and_congr_right fun _ => and_congr_right fun _ => ?_
        rw [h.norm, h.tfTd, hN, mul_pow, mul_pow, ← mul_sub]
        rw [mul_eq_zero, or_iff_right (pow_ne_zero 2 hw)]
      dsimp only
      by_cases hE : ∃ j ∈ searchedBins n nc o wc, (j : ZMod n) - ((n / 2 : ℕ) : ZMod n) ≠ 0 ∧
          (init x T psd fs ac b).norm ^ 2 - tfTd (init x T psd fs ac b)
            ((j : ZMod n) - ((n / 2 : ℕ) : ZMod n)) ^ 2 = 0
      · rw [if_pos hE, if_pos (hnan.2 hE)]
        rfl
      · rw [if_neg hE, if_neg (fun q => hE (hnan.1 q)), hchi i hi]
        simp only [roll, Units.res2]
        rw [(h.statA hr hσ hp (hbin i hi)).1, (h.statA hr hσ hp (hbin i hi)).2, h.readTimes, hα]

end

/-- Full C124 is false for that fit: with the trace `(1, 0)`, a one-bin template and white noise sampled at
2 Hz, and the second pulse forced to delay zero, the fit reports amplitudes `(1, 1)` and chi-square
`1/2`; with the noise power in units twice as large it reports `(1/2, 1/2)` and chi-square zero. -/
theorem stationary_units_violated : ∃ u : Units, u.Proper ∧
    (pileupStationary (init (n := 2) delta delta white 2 false false) (some 1) false 0).1 =
      .ok (1, 1, 0, 1 / 2) ∧
    (pileupStationary (u.fit (n := 2) delta delta white 2 false false) (some 1) false 0).1 =
      .ok (1 / 2, 1 / 2, 0, 0) ∧
    u.res2 false (.ok (1, 1, 0, 1 / 2)) = .ok (1, 1, 0, 1) := by
  set u : Units := ⟨1, 1, 1 / 2, 1⟩ with hu
  have hup : u.Proper := ⟨by simp [hu], by simp [hu], by norm_num [hu], by norm_num [hu]⟩
  refine ⟨u, hup, stationary_zero_violated.1, ?_, ?_⟩
  · have h := scaled_init u hup (n := 2) delta delta white 2 false false
    set st0 := init (n := 2) delta delta white 2 false false with hst0
    set st := u.fit (n := 2) delta delta white 2 false false with hst
    have hsf : ∀ m, readSfTd st m = delta m := fun m => by
      rw [h.readSfTd (by norm_num [hu]), hst0, delta_sfTd 2 two_ne_zero delta m]
      norm_num [hu]
    have hN : st.norm = 1 := by
      rw [h.norm, hst0, init_norm, delta_norm]
      norm_num [hu]
    have h0 : readChi0 st = 1 := by
      rw [h.readChi0, hst0, delta_chi0]
      simp [delta]
      norm_num [hu]
    have hT : ∀ m, tfTd st m = if m = 0 then 1 else 0 := by
      intro m
      rw [h.tfTd, hst0, init_tfTd, ip_white]
      simp only [roll, delta, Bool.false_eq_true, if_false]
      by_cases hm : m = 0
      · subst hm
        simp
        norm_num [hu]
      · have : ∀ j : ZMod 2, (if j - m = 0 then (1 : ℝ) else 0) * (if j = 0 then 1 else 0) = 0 := by
          intro j
          by_cases hj : j = 0
          · subst hj; simp [hm]
          · simp [hj]
        simp [this, hm]
    have hs : ∀ chi : ZMod 2 → ℝ, argminChi2 2 (asIdx chi) (some 1) false none 0 = .ok (some 1) := by
      intro chi
      simp only [argminChi2]
      simp [winInds, arange, argminOn, argminGo, List.range_succ]
    have hr0 : ((1 : ℤ) : ZMod 2) - ((2 / 2 : ℕ) : ZMod 2) = 0 := by decide
    have hA1 : statA1 st 0 = 1 / 2 := by simp [statA1, hsf, hN, delta]
    have hA2 : statA2 st 0 = 1 / 2 := by simp [statA2, hsf, hN, delta]
    have hC : statChi st 0 = 0 := by
      simp only [statChi, hA1, hA2, hsf, hN, hT, h0, delta]; norm_num
    have htime : readTimes st ((1 : ℤ) : ZMod 2) = 0 := by
      show ((((1 : ℤ) : ZMod 2).val : ℝ) - ((2 / 2 : ℕ) : ℝ)) / _ = 0
      have : (((1 : ℤ) : ZMod 2)).val = 1 := rfl
      rw [this]; norm_num
    simp only [pileupStationary, hs]
    rw [if_neg]
    · simp only [roll, hr0, hA1, hA2, hC, htime]
    · rintro ⟨j, -, hm, h1⟩
      rw [hN, hT, if_neg hm] at h1
      norm_num at h1
  · norm_num [Units.res2, Units.amp, Units.chi, hu]

/-- Microamperes instead of amperes, a template twice as high, the spectrum per kilohertz and times in
milliseconds. -/
example : (⟨10 ^ 6, 2, 10 ^ 15, 1 / 1000⟩ : Units).Proper :=
  ⟨by norm_num, by norm_num, by norm_num, by norm_num⟩

/-- A search that avoids zero delay: the two outermost bins of eight. -/
example : ∀ j ∈ searchedBins 8 (some 6) true 0, (j : ZMod 8) ≠ ((8 / 2 : ℕ) : ZMod 8) := by
  decide

end Verif.OF
