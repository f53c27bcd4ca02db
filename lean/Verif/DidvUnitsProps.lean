import Verif.DidvUnitsLemmas

/-! The dI/dV models, the costs of the fits and the responses carry units. -/

namespace Verif.Didv
open Verif Dft OF Matrix

variable (u : Units)

/-- A change of units used in the examples: milliohms and microseconds. -/
noncomputable def milliMicro : Units := ⟨10 ^ 3, 10 ^ 6, by norm_num, by norm_num⟩

/-- Parameters of a device in ohms, henries and seconds, for the examples. -/
noncomputable def ohms : Args where
  rsh := some (5 / 1000)
  rp := some (2 / 1000)
  r0 := some (1 / 10)
  beta := some 1
  l := some 10
  L := some (1 / 10 ^ 7)
  tau0 := some (1 / 10 ^ 3)

/-- The impedance and the admittance of keyword arguments in new units are those of the old ones, in new
units; errors are the same. -/
theorem didv_units (f : ℝ) (a : Args) :
    compleximpedance (f / u.τ) (u.args a) = (compleximpedance f a).map ((u.s : ℂ) * ·) ∧
      complexadmittance (f / u.τ) (u.args a) = (complexadmittance f a).map (· / (u.s : ℂ)) :=
  ⟨compleximpedance_units u f a, complexadmittance_units u f a⟩

/-- The conversions between fit parameters and small signal parameters carry the units: resistances,
inductance and times scale, loop gain, `beta` and the heat conductance ratio do not. -/
theorem convert_units (p q : List ℝ) (rsh r0 rp : ℝ) :
    convertTo (u.fit p) (u.s * rsh) (u.s * r0) (u.s * rp) = (convertTo p rsh r0 rp).map u.tes ∧
      convertFrom (u.tes q) = (convertFrom q).map u.fit :=
  ⟨convertTo_units u p rsh r0 rp, convertFrom_units u q⟩

/-- The residuals of the fit, and so its cost, are the same in all units: the best fit is the same. -/
theorem fit_units (pts : List Pt) (p : List ℝ) :
    residual (pts.map u.pt) (u.fit p) = residual pts p := residual_units u pts p

/-- The results of the fit carry the units. -/
theorem fitResult_units (p : List ℝ) (cov cov' : List (List ℝ)) (ft ft' : List ℝ) (cost rsh rp r0 : ℝ) :
    fitResult (u.fit p) cov' ft' cost (u.s * rsh) (u.s * rp) (u.s * r0) =
      (fitResult p cov ft cost rsh rp r0).map fun r => u.result r cov' ft' := by
  unfold fitResult
  rw [convertTo_units]
  cases convertTo p rsh r0 rp with
  | error e => rfl
  | ok ssp =>
    simp only [Except.map]
    have h := complexadmittance_units u 0 (sspArgs ssp)
    rw [zero_div, ← sspArgs_units] at h
    rw [h]
    cases complexadmittance 0 (sspArgs ssp) with
    | error e => rfl
    | ok y => simp [Except.map, Units.result]

/-- The equations of the fall times: solutions scale with the unit of time and do not depend on the unit
of resistance. -/
theorem falltimes_units (A B C t1 t2 t3 p1 p2 p3 : ℝ) :
    (twoPoleEqs (u.s * A) (u.s * B) (u.τ * t1) (u.τ * t2) (u.τ * p1, u.τ * p2) = 0 ↔
        twoPoleEqs A B t1 t2 (p1, p2) = 0) ∧
      (threePoleEqs (u.s * A) (u.s * B) C (u.τ * t1) (u.τ * t2) (u.τ * t3)
          (u.τ * p1, u.τ * p2, u.τ * p3) = 0 ↔
        threePoleEqs A B C t1 t2 t3 (p1, p2, p3) = 0) := by
  have h2 := twoPoleEqs_units u A B t1 t2 (p1, p2)
  have h3 := threePoleEqs_units u A B C t1 t2 t3 (p1, p2, p3)
  have := u.hτ.ne'
  constructor
  · rw [h2]
    simp [Prod.ext_iff, this]
  · rw [h3]
    simp [Prod.ext_iff, this]

/-- The response to the square wave does not depend on the units of resistance and time, and is
proportional to the amplitude of the drive. -/
theorem response_units {n : ℕ} [NeZero n] (c dx sgamp sgfreq duty : ℝ) (a : Args) :
    squarewaveresponse (n := n) (u.τ * dx) (c * sgamp) (sgfreq / u.τ) duty (u.args a) =
      (squarewaveresponse dx sgamp sgfreq duty a).map fun r j => c * r j := by
  rw [squarewaveresponse_units, squarewaveresponse_amp]

/-- Processing the traces does not depend on the unit of time: the same traces are kept, the admittances
and their errors are the same, and times scale. -/
theorem process_units (o : Obj) :
    processtraces (u.timeObj o) = ((processtraces o).1, u.timeObj (processtraces o).2) := by
  unfold processtraces
  have e1 : (u.timeObj o).raw = o.raw := rfl
  have e2 : nBins (u.timeObj o).nraw (u.timeObj o).fs (u.timeObj o).sgfreq =
      nBins o.nraw o.fs o.sgfreq := nBins_units u _ _ _
  rw [e1, e2, keptTraces_units, shiftDt0_units, procOf_units]
  split_ifs <;> rfl

/-- The cost of the fit with priors is the same in all units, provided a combination of parameters which
has no uncertainty involves only parameters without a prior. -/
theorem priors_units_partial (poles : ℤ) (pts : List Pt) (priors params : List ℝ) {c : Cov}
    (hc : Separated c) :
    nll poles (pts.map u.ptScaled) (u.tes priors) ⟨(u.cov c).d, pinv (u.cov c).m⟩ (u.tes params) =
      nll poles pts priors ⟨c.d, pinv c.m⟩ params := by
  unfold nll
  rw [length_tes, length_tes, residualP_units]
  by_cases h : params.length ≠ nParams poles ∨ priors.length ≠ params.length ∨ c.d ≠ params.length
  · have h' : params.length ≠ nParams poles ∨ priors.length ≠ params.length ∨
        (⟨(u.cov c).d, pinv (u.cov c).m⟩ : Cov).d ≠ params.length := h
    rw [if_pos h, if_pos h']
  · have h' : ¬ (params.length ≠ nParams poles ∨ priors.length ≠ params.length ∨
        (⟨(u.cov c).d, pinv (u.cov c).m⟩ : Cov).d ≠ params.length) := h
    rw [if_neg h, if_neg h']
    simp only [not_or, not_not] at h
    rw [priorForm_units u priors params c hc.1 hc.2 (h.2.1.trans h.2.2.symm) h.2.2.symm]

/-- Independent priors, some of them absent, meet the hypothesis. -/
example : Separated ⟨4, diagonal ![1 / 10 ^ 6, 1 / 10 ^ 4, 0, 0]⟩ := separated_diagonal _

/-- Without the hypothesis the cost depends on the units: a prior which ties the shunt resistance to the
inductance (fully correlated), one-pole model, no data.  A shunt resistance off by one unit costs `1/8`
with time in one unit and `1/50` with time in half that unit. -/
theorem correlated_priors_violated : ∃ (u : Units) (priors params : List ℝ) (c : Cov),
    c.m.IsSymm ∧ (∀ x, 0 ≤ x ⬝ᵥ c.m *ᵥ x) ∧
      nll 1 [] priors ⟨c.d, pinv c.m⟩ params = .ok (1 / 8) ∧
      nll 1 ([].map u.ptScaled) (u.tes priors) ⟨(u.cov c).d, pinv (u.cov c).m⟩ (u.tes params) =
        .ok (1 / 50) := by
  refine ⟨⟨1, 2, one_pos, two_pos⟩, [1, 1, 1, 0], [2, 1, 1, 0], ⟨4, outer ![1, 0, 1, 0] 1⟩,
    outer_transpose _ _, ?_, ?_, ?_⟩
  · intro x
    have h : x ⬝ᵥ (outer ![1, 0, 1, 0] 1) *ᵥ x = (x 0 + x 2) ^ 2 := by
      simp [dotProduct, Matrix.mulVec, Fin.sum_univ_four, outer]
      ring
    rw [h]
    positivity
  · exact nll_rank_one _ _ _ rfl rfl (by simp [Fin.sum_univ_four]) (by
      simp [Fin.sum_univ_four]
      norm_num)
  · have e : ((⟨1, 2, one_pos, two_pos⟩ : Units).cov ⟨4, outer ![1, 0, 1, 0] 1⟩) =
        ⟨4, outer ![1, 0, 2, 0] 1⟩ := by
      unfold Units.cov
      refine congrArg (Cov.mk 4) (funext fun i => funext fun j => ?_)
      fin_cases i <;> fin_cases j <;> simp [Units.tesFactors, outer]
    rw [e]
    exact nll_rank_one _ _ _ rfl rfl (by simp [Fin.sum_univ_four]; norm_num) (by
      simp [Fin.sum_univ_four, tes_four]
      norm_num)

/-! ### The hypotheses are met -/

/-- A two-pole impedance in ohms and seconds at 100 Hz; the theorem gives it in milliohms and
microseconds. -/
example : ∃ z, compleximpedance 100 ohms = .ok z ∧
    compleximpedance (100 / 10 ^ 6) (milliMicro.args ohms) = .ok (((10 ^ 3 : ℝ) : ℂ) * z) := by
  have h : ∃ z, compleximpedance 100 ohms = .ok z := by
    simp only [compleximpedance, poleExtractor, convertFrom, ohms]
    norm_num
  obtain ⟨z, hz⟩ := h
  refine ⟨z, hz, ?_⟩
  rw [show (100 / 10 ^ 6 : ℝ) = 100 / milliMicro.τ from rfl, (didv_units milliMicro _ _).1, hz]
  rfl

/-- The fit parameters of the two-pole model in milliohms and microseconds. -/
example : milliMicro.fit [1, -2, -3, 4, 5] = [10 ^ 3 * 1, 10 ^ 3 * -2, 10 ^ 6 * -3, 10 ^ 6 * 4, 10 ^ 6 * 5] := rfl

end Verif.Didv
