import Verif.OFRateSpec
import Verif.OFStatProps
import Verif.OFProps
import Mathlib.Probability.Moments.SubGaussian

/-! Auxiliary lemmas of property C141. -/

namespace Verif.OF
open Verif Verif.Dft MeasureTheory ProbabilityTheory

variable {n : ℕ} [NeZero n]

omit [NeZero n] in
theorem delays_finite (nc : Option ℤ) (o : Bool) (wc : ℤ) : (Delays n nc o wc).Finite := by
  refine (Set.finite_Ico (-((n : ℤ) / 2)) (n - (n : ℤ) / 2)).subset ?_
  rintro d ⟨h1, h2, -⟩
  exact ⟨by omega, by omega⟩

/-- What the search returns: nothing, or the amplitude at an allowed delay. -/
theorem withdelay_cases {x T : ZMod n → ℝ} {psd : ZMod n → WithTop ℝ} {fs : ℝ} {ac : Bool} {nc : Option ℤ} {o : Bool}
    {dir wc : ℤ} {a t c : ℝ} (h : (withdelay (init x T psd fs ac false) nc o dir wc false).1 = .ok (a, t, c)) :
    c = readChi0 (init x T psd fs ac false) - a ^ 2 * (init x T psd fs ac false).norm ∧
    (a = 0 ∨ ∃ d ∈ Delays n nc o wc, a = readSfTd (init x T psd fs ac false) (d : ZMod n)) := by
  simp only [withdelay, pick] at h
  split at h
  · simp at h
  · simp only [Except.ok.injEq, Prod.mk.injEq] at h
    obtain ⟨rfl, rfl, rfl⟩ := h
    exact ⟨by ring, .inl rfl⟩
  · rename_i i hs
    simp only [Bool.false_eq_true, if_false, Except.ok.injEq, Prod.mk.injEq] at h
    obtain ⟨rfl, rfl, rfl⟩ := h
    refine ⟨by rw [init_chi, init_amps], .inr ⟨i - (n : ℤ) / 2, ?_, by rw [init_amps, sub_half_cast]⟩⟩
    change Admissible n nc o none wc (i - (n : ℤ) / 2 + (n : ℤ) / 2)
    rw [sub_add_cancel]
    exact (search_spec _ _ _ _ _ _ _ hs).2.1.1

/-- The amplitude found is at least as large as that at any allowed delay. -/
theorem withdelay_dominates {x T : ZMod n → ℝ} {psd : ZMod n → WithTop ℝ} {fs : ℝ} {ac : Bool} {nc : Option ℤ} {o : Bool}
    {dir wc : ℤ} {a t c : ℝ} (hN : 0 < traceChi2 fs (weight psd ac) T)
    (h : (withdelay (init x T psd fs ac false) nc o dir wc false).1 = .ok (a, t, c)) {d : ℤ} (hd : d ∈ Delays n nc o wc)
    (h1 : dir = 1 → 0 ≤ readSfTd (init x T psd fs ac false) (d : ZMod n))
    (h2 : dir = -1 → readSfTd (init x T psd fs ac false) (d : ZMod n) ≤ 0) :
    readSfTd (init x T psd fs ac false) (d : ZMod n) ^ 2 ≤ a ^ 2 := by
  have e := (withdelay_optimal x T psd fs ac hN nc o dir wc a t c h).2.2 d _ hd h1 h2
  rw [(withdelay_cases h).1, resid_square x T psd fs ac hN.ne', sub_self, init_norm] at e
  nlinarith

/-- The amplitude at any delay of a pulse with noise. -/
theorem sfTd_pulse {psd : ZMod n → WithTop ℝ} {fs : ℝ} {ac : Bool} {T : ZMod n → ℝ}
    (hN : 0 < traceChi2 fs (weight psd ac) T) (a : ℝ) (m : ℤ) (y : ZMod n → ℝ) :
    readSfTd (init (pulse T a m y) T psd fs ac false) (m : ZMod n) =
      a + ip fs (weight psd ac) (roll T m) y / traceChi2 fs (weight psd ac) T := by
  rw [init_sfTd, init_norm]
  unfold pulse
  rw [ip_add_right, ip_smul_right, ip_self, traceChi2_roll]
  field_simp

theorem sfTd_noise {psd : ZMod n → WithTop ℝ} {fs : ℝ} {ac : Bool} {T : ZMod n → ℝ} (m : ZMod n) (y : ZMod n → ℝ) :
    readSfTd (init y T psd fs ac false) m =
      ip fs (weight psd ac) (roll T m) y / traceChi2 fs (weight psd ac) T := by
  rw [init_sfTd, init_norm]

/-- The square of the resolution. -/
theorem resolution_sq {x T : ZMod n → ℝ} {psd : ZMod n → WithTop ℝ} {fs : ℝ} {ac : Bool}
    (hN : 0 < traceChi2 fs (weight psd ac) T) :
    0 < energyResolution (init x T psd fs ac false) ∧
    energyResolution (init x T psd fs ac false) ^ 2 = 1 / traceChi2 fs (weight psd ac) T := by
  rw [energyResolution, init_norm]
  refine ⟨by positivity, ?_⟩
  rw [div_pow, Real.sq_sqrt hN.le, one_pow]

section Sets
variable {Ω : Type*} {noise : Ω → ZMod n → ℝ} {psd : ZMod n → WithTop ℝ} {fs : ℝ} {ac : Bool} {T : ZMod n → ℝ}
  {nc : Option ℤ} {o : Bool} {dir wc : ℤ} {A t c : Ω → ℝ}

/-- The error of the amplitude at a delay. -/
noncomputable def err (fs : ℝ) (psd : ZMod n → WithTop ℝ) (ac : Bool) (T : ZMod n → ℝ) (m : ZMod n) (y : ZMod n → ℝ) : ℝ :=
  ip fs (weight psd ac) (roll T m) y / traceChi2 fs (weight psd ac) T

/-- A false trigger needs a large error of the allowed sign at one of the delays. -/
theorem trigger_set (hfit : ∀ ω, (withdelay (init (noise ω) T psd fs ac false) nc o dir wc false).1 = .ok (A ω, t ω, c ω))
    {s : ℝ} (hs : 0 < s) : {ω | s ≤ |A ω|} ⊆ ⋃ d ∈ (delays_finite (n := n) nc o wc).toFinset,
      {ω | (dir ≠ -1 ∧ s ≤ err fs psd ac T d (noise ω)) ∨ (dir ≠ 1 ∧ s ≤ -err fs psd ac T d (noise ω))} := by
  intro ω hω
  rw [Set.mem_ofPred_eq] at hω
  have hne : A ω ≠ 0 := fun e => by rw [e, abs_zero] at hω; linarith
  obtain ⟨d, hd, e⟩ := (withdelay_cases (hfit ω)).2.resolve_left hne
  obtain ⟨-, h1, h2⟩ := direction_sign_partial _ _ _ _ _ _ _ _ _ _ _ _ _ (hfit ω)
  rw [sfTd_noise] at e
  simp only [Set.mem_iUnion, Set.mem_ofPred_eq]
  refine ⟨d, (delays_finite nc o wc).mem_toFinset.2 hd, ?_⟩
  change (dir ≠ -1 ∧ s ≤ ip fs (weight psd ac) (roll T d) (noise ω) / traceChi2 fs (weight psd ac) T) ∨
    (dir ≠ 1 ∧ s ≤ -(ip fs (weight psd ac) (roll T d) (noise ω) / traceChi2 fs (weight psd ac) T))
  rw [← e]
  rcases abs_cases (A ω) with ⟨e1, e2⟩ | ⟨e1, e2⟩
  · refine .inl ⟨fun hd => ?_, e1 ▸ hω⟩
    rcases h2 hd with h | h
    · linarith
    · exact hne h.1
  · refine .inr ⟨fun hd => ?_, e1 ▸ hω⟩
    rcases h1 hd with h | h
    · linarith
    · exact hne h.1

/-- A missed pulse needs a large error against the direction of the pulse at its delay. -/
theorem missed_set (hN : 0 < traceChi2 fs (weight psd ac) T) {a : ℝ} {m : ℤ}
    (hfit : ∀ ω, (withdelay (init (pulse T a m (noise ω)) T psd fs ac false) nc o dir wc false).1 =
      .ok (A ω, t ω, c ω)) (hm : m ∈ Delays n nc o wc) (h1 : dir = 1 → 0 < a) (h2 : dir = -1 → a < 0)
    {s : ℝ} (hs : 0 < s) : {ω | |A ω| ≤ |a| - s} ⊆
      {ω | (0 < a ∧ s ≤ -err fs psd ac T m (noise ω)) ∨ (a < 0 ∧ s ≤ err fs psd ac T m (noise ω))} := by
  intro ω hω
  rw [Set.mem_ofPred_eq] at hω ⊢
  have hdom := withdelay_dominates hN (hfit ω) hm
  rw [sfTd_pulse hN] at hdom
  change _ → _ → (a + err fs psd ac T m (noise ω)) ^ 2 ≤ _ at hdom
  change (_ → 0 ≤ a + err fs psd ac T m (noise ω)) → (_ → a + err fs psd ac T m (noise ω) ≤ 0) → _ at hdom
  have h0 := abs_nonneg (A ω)
  rcases lt_trichotomy a 0 with ha | ha | ha
  · refine .inr ⟨ha, ?_⟩
    by_contra hc
    rw [abs_of_neg ha] at hω
    have := sq_le_sq.1 (hdom (fun e => absurd (h1 e) (by linarith)) fun _ => by linarith)
    rw [abs_of_neg (by linarith : a + err fs psd ac T m (noise ω) < 0)] at this
    linarith
  · rw [ha, abs_zero] at hω
    linarith
  · refine .inl ⟨ha, ?_⟩
    by_contra hc
    rw [abs_of_pos ha] at hω
    have := sq_le_sq.1 (hdom (fun _ => by linarith) fun e => absurd (h2 e) (by linarith))
    rw [abs_of_pos (by linarith : 0 < a + err fs psd ac T m (noise ω))] at this
    linarith

end Sets

section Tails
variable {Ω : Type*} [MeasurableSpace Ω] {μ : Measure Ω} {noise : Ω → ZMod n → ℝ} {R : ZMod n → ℝ}
  {psd : ZMod n → WithTop ℝ} {fs : ℝ} {ac : Bool} {T : ZMod n → ℝ}

theorem err_lin (hs : ∀ k, psd (-k) = psd k) (m : ZMod n) : ∃ g : ZMod n → ℝ, ∀ y,
    err fs psd ac T m y = ∑ j, g j * y j := by
  refine ⟨fun j => gOpt fs (weight psd ac) (roll T m) j / traceChi2 fs (weight psd ac) T, fun y => ?_⟩
  rw [err, ip_gOpt fs _ _ _ (weight_symm hs ac), Finset.sum_div]
  exact Finset.sum_congr rfl fun j _ => by ring

theorem err_int (h : Stationary μ noise R) (hs : ∀ k, psd (-k) = psd k) (m : ZMod n) :
    Integrable (fun ω => err fs psd ac T m (noise ω) ^ 2) μ := by
  obtain ⟨g, hg⟩ := err_lin (fs := fs) (psd := psd) (ac := ac) (T := T) hs m
  simp only [hg, pow_two]
  exact h.int_lin2 g g

/-- The mean square of the error at a delay. -/
theorem err_sq (h : Stationary μ noise R) (hR : HasPsd R fs psd) (hpsd : ∀ k, 0 < psd k)
    (hs : ∀ k, psd (-k) = psd k) (hfs : 0 < fs) (hN : 0 < traceChi2 fs (weight psd ac) T) (m : ZMod n) (x : ZMod n → ℝ) :
    ∫ ω, err fs psd ac T m (noise ω) ^ 2 ∂μ = energyResolution (init x T psd fs ac false) ^ 2 := by
  simp only [err, div_pow]
  rw [integral_div, h.ip_sq hR hpsd hs hfs, traceChi2_roll, (resolution_sq hN).2]
  field_simp

/-- Chebyshev's inequality. -/
theorem err_tail [IsFiniteMeasure μ] (h : Stationary μ noise R) (hR : HasPsd R fs psd) (hpsd : ∀ k, 0 < psd k)
    (hs : ∀ k, psd (-k) = psd k) (hfs : 0 < fs) (hN : 0 < traceChi2 fs (weight psd ac) T) (m : ZMod n) (x : ZMod n → ℝ)
    {l : ℝ} (hl : 0 < l) :
    μ.real {ω | l * energyResolution (init x T psd fs ac false) ≤ |err fs psd ac T m (noise ω)|} ≤ 1 / l ^ 2 := by
  have hσ := (resolution_sq (x := x) hN).1
  set σ := energyResolution (init x T psd fs ac false)
  have := mul_meas_ge_le_integral_of_nonneg (μ := μ) (f := fun ω => err fs psd ac T m (noise ω) ^ 2)
    (Filter.Eventually.of_forall fun _ => sq_nonneg _) (err_int h hs m) ((l * σ) ^ 2)
  rw [err_sq h hR hpsd hs hfs hN m x] at this
  have e : {ω | l * σ ≤ |err fs psd ac T m (noise ω)|} = {ω | (l * σ) ^ 2 ≤ err fs psd ac T m (noise ω) ^ 2} := by
    ext ω
    rw [Set.mem_ofPred_eq, Set.mem_ofPred_eq, ← sq_abs (err fs psd ac T m (noise ω))]
    exact (pow_le_pow_iff_left₀ (by positivity) (abs_nonneg _) two_ne_zero).symm
  rw [e, le_div_iff₀ (by positivity)]
  refine le_of_mul_le_mul_left ?_ (pow_pos hσ 2)
  calc _ = (l * σ) ^ 2 * μ.real {ω | (l * σ) ^ 2 ≤ err fs psd ac T m (noise ω) ^ 2} := by ring
    _ ≤ _ := by rw [mul_one]; exact this

/-- Linear combinations of independent normal draws. -/
theorem normal_tail (g : ZMod n → ℝ) {s : ℝ} (hs : 0 ≤ s) :
    (normalDraws n).real {ω | s ≤ ∑ j, g j * ω j} ≤ Real.exp (-s ^ 2 / (2 * ∑ j, g j ^ 2)) := by
  have hind : iIndepFun (fun (j : ZMod n) (ω : ZMod n → ℝ) => g j * ω j) (normalDraws n) :=
    iIndepFun_pi (μ := fun _ : ZMod n => gaussianReal 0 1) (X := fun j y => g j * y) fun j => by fun_prop
  have hsub : ∀ j ∈ Finset.univ, HasSubgaussianMGF (fun ω : ZMod n → ℝ => g j * ω j) (g j ^ 2).toNNReal
      (normalDraws n) := by
    intro j _
    have h1 : HasSubgaussianMGF (fun y : ℝ => g j * y) (g j ^ 2).toNNReal (gaussianReal 0 1) := by
      constructor
      · intro t
        simpa only [mul_assoc] using integrable_exp_mul_gaussianReal (μ := 0) (v := 1) (t * g j)
      · intro t
        have := congrFun (mgf_id_gaussianReal (μ := 0) (v := 1)) (t * g j)
        unfold mgf at this ⊢
        simp only [id] at this
        simp only [← mul_assoc]
        rw [this]
        refine le_of_eq ?_
        congr 1
        rw [NNReal.coe_one, zero_mul, zero_add, one_mul, Real.coe_toNNReal _ (sq_nonneg _)]
        ring
    have hm : MeasurePreserving (Function.eval j) (normalDraws n) (gaussianReal 0 1) := measurePreserving_eval _ j
    refine HasSubgaussianMGF.of_map (Y := Function.eval j) (X := fun y : ℝ => g j * y) hm.measurable.aemeasurable ?_
    rw [hm.map_eq]
    exact h1
  have := HasSubgaussianMGF.measure_sum_ge_le_of_iIndepFun hind hsub hs
  rw [NNReal.coe_sum] at this
  simpa only [Real.coe_toNNReal _ (sq_nonneg _)] using this

/-- Generated noise. -/
theorem err_normal_tail {psd : ZMod n → ℝ} (hpsd : ∀ k, 0 < psd k) (hs : ∀ k, psd (-k) = psd k) (hfs : 0 < fs)
    (hN : 0 < traceChi2 fs (weight (fun k => (psd k : WithTop ℝ)) ac) T) (m : ZMod n) (x : ZMod n → ℝ)
    {l : ℝ} (hl : 0 ≤ l) :
    (normalDraws n).real {ω | l * energyResolution (init x T (fun k => psd k) fs ac false) ≤
      err fs (fun k => psd k) ac T m (Noise.genNoise psd fs ω)} ≤ Real.exp (-l ^ 2 / 2) ∧
    (normalDraws n).real {ω | l * energyResolution (init x T (fun k => psd k) fs ac false) ≤
      -err fs (fun k => psd k) ac T m (Noise.genNoise psd fs ω)} ≤ Real.exp (-l ^ 2 / 2) := by
  have hpsd' : ∀ k, (0 : WithTop ℝ) < psd k := fun k => by exact_mod_cast hpsd k
  have hs' : ∀ k, ((psd (-k) : ℝ) : WithTop ℝ) = psd k := fun k => by rw [hs]
  obtain ⟨R, h, hR⟩ := genNoise_stationary psd hs (fun k => (hpsd k).le) hfs.le (normalDraws_stationary (n := n))
  obtain ⟨g, hg⟩ : ∃ g : ZMod n → ℝ, ∀ ω, err fs (fun k => psd k) ac T m (Noise.genNoise psd fs ω) = ∑ j, g j * ω j := by
    obtain ⟨f, hf⟩ := err_lin (fs := fs) (psd := fun k => (psd k : WithTop ℝ)) (ac := ac) (T := T) hs' m
    refine ⟨fun j => ∑ i, f i * impulse psd fs (i - j), fun ω => ?_⟩
    rw [hf, genNoise_conv psd fs hs]
    simp only [Finset.mul_sum, Finset.sum_mul]
    rw [Finset.sum_comm]
    exact Finset.sum_congr rfl fun i _ => Finset.sum_congr rfl fun j _ => by ring
  have hσ := (resolution_sq (x := x) hN).1
  have hv := err_sq h hR hpsd' hs' hfs hN m x
  set σ := energyResolution (init x T (fun k => psd k) fs ac false)
  have hsum : ∑ j, g j ^ 2 = σ ^ 2 := by
    rw [← hv]
    simp only [hg, pow_two]
    rw [normalDraws_stationary.lin2 g g]
    refine Finset.sum_congr rfl fun i _ => ?_
    rw [Finset.sum_eq_single i]
    · simp
    · intro j _ hj
      rw [if_neg (sub_ne_zero.2 hj.symm), mul_zero]
    · simp
  have hexp : -(l * σ) ^ 2 / (2 * σ ^ 2) = -l ^ 2 / 2 := by
    field_simp
  simp only [hg]
  constructor
  · have := normal_tail g (mul_nonneg hl hσ.le)
    rwa [hsum, hexp] at this
  · have := normal_tail (fun j => -g j) (mul_nonneg hl hσ.le)
    simp only [neg_sq, hsum, hexp, neg_mul, Finset.sum_neg_distrib] at this
    exact this

end Tails

end Verif.OF
