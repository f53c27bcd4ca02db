import Verif.OFLawLemmas
import Verif.NsmbLawLemmas
import Verif.NsmbIntEx

/-!
Property C144: the distributions of the fitted amplitudes and chi-squares.
-/

namespace Verif.OF
open Verif Verif.Dft MeasureTheory ProbabilityTheory

variable {n : ℕ} [NeZero n] {psd : ZMod n → ℝ} {fs : ℝ}

/-- On noise of `gen_noise`, `chi2_nopulse` has the chi-square distribution with as many degrees of freedom as bins are
used. -/
theorem chi2_nopulse_law (hpsd : ∀ k, 0 < psd k) (hs : ∀ k, psd (-k) = psd k) (hfs : 0 < fs) (ac b : Bool)
    (T : ZMod n → ℝ) :
    (normalDraws n).map (fun ω => (chi2Nopulse (init (Noise.genNoise psd fs ω) T (fun k => psd k) fs ac b)).1) =
      chiSquared (nUsed (fun k => (psd k : WithTop ℝ)) ac) := by
  simp only [chi2Nopulse, init_chi0, gen_chi hpsd hs hfs]
  exact total_law _ (usedBins_neg psd ac)

/-- White noise with the zero bin ignored: three degrees of freedom on four samples. -/
example (T : ZMod 4 → ℝ) : (normalDraws 4).map
    (fun ω => (chi2Nopulse (init (Noise.genNoise (fun _ => 1) 1 ω) T (fun _ => (1 : ℝ)) 1 true false)).1) = chiSquared 3 := by
  have h := chi2_nopulse_law (psd := fun _ : ZMod 4 => (1 : ℝ)) (fs := 1) (fun _ => one_pos) (fun _ => rfl) one_pos true false T
  have hU : nUsed (fun _ : ZMod 4 => ((1 : ℝ) : WithTop ℝ)) true = 3 := by
    have := nUsed_finite (fun _ : ZMod 4 => (1 : ℝ)) true
    norm_num at this
    exact_mod_cast this
  rwa [hU] at h

/-- With a pulse at the time of the fit, the amplitude of `ofamp_nodelay` is normal around the true one with a standard
deviation of `energy_resolution`, the chi-square has the chi-square distribution with one degree of freedom less than bins
are used, and the two are independent. -/
theorem nodelay_law (hpsd : ∀ k, 0 < psd k) (hs : ∀ k, psd (-k) = psd k) (hfs : 0 < fs) (ac : Bool)
    (T : ZMod n → ℝ) (hN : traceChi2 fs (weight (fun k => (psd k : WithTop ℝ)) ac) T ≠ 0) (a : ℝ) (wc : ℤ)
    (x : ZMod n → ℝ) :
    (normalDraws n).map
        (fun ω => (nodelay (init (pulse T a wc (Noise.genNoise psd fs ω)) T (fun k => psd k) fs ac false) wc).1) =
      (gaussianReal a (energyResolution (init x T (fun k => psd k) fs ac false) ^ 2).toNNReal).prod
        (chiSquared (nUsed (fun k => (psd k : WithTop ℝ)) ac - 1)) := by
  obtain ⟨z, h1, h2, h3⟩ := gen_ip (ac := ac) hpsd hs hfs (roll T (wc : ZMod n))
  rw [traceChi2_roll] at h2
  have hpos : 0 < traceChi2 fs (weight (fun k => (psd k : WithTop ℝ)) ac) T := by
    refine lt_of_le_of_ne ?_ hN.symm
    rw [← h2]
    exact Finset.sum_nonneg fun j _ => sq_nonneg _
  obtain ⟨hσ, hσ2⟩ := resolution_sq (x := x) (psd := fun k => (psd k : WithTop ℝ)) hpos
  set σ := energyResolution (init x T (fun k => (psd k : WithTop ℝ)) fs ac false)
  set N := traceChi2 fs (weight (fun k => (psd k : WithTop ℝ)) ac) T
  have hNσ : N = 1 / σ ^ 2 := by rw [hσ2]; field_simp
  have hlin : ∀ ω, lin (fun j => σ * z j) ω = σ * lin z ω := fun ω => by
    simp only [lin, Finset.mul_sum, mul_assoc]
  have hlaw := total_sub_law (usedBins psd ac) (usedBins_neg psd ac) (fun j => σ * z j)
    (by simp only [mul_pow]
        rw [← Finset.mul_sum, h2, hNσ]
        field_simp)
    (fun k hk => by rw [fftR_smul, h3 k hk, mul_zero])
  have e : (fun ω => (nodelay (init (pulse T a wc (Noise.genNoise psd fs ω)) T (fun k => (psd k : WithTop ℝ)) fs ac false) wc).1) =
      Prod.map (fun y => a + σ * y) id ∘
        fun ω => (lin (fun j => σ * z j) ω, total (usedBins psd ac) ω - lin (fun j => σ * z j) ω ^ 2) := by
    funext ω
    rw [nodelay_pulse hfs.ne' ac T hN, h1, gen_chi hpsd hs hfs]
    simp only [Function.comp, Prod.map, hlin, id]
    have hσ0 := hσ.ne'
    refine Prod.ext ?_ ?_
    · show a + lin z ω / N = _
      rw [hNσ]
      field_simp
    · show total (usedBins psd ac) ω - lin z ω ^ 2 / N = _
      rw [hNσ]
      field_simp
  have hm : Measurable fun ω : ZMod n → ℝ => (lin (fun j => σ * z j) ω, total (usedBins psd ac) ω - lin (fun j => σ * z j) ω ^ 2) :=
    (lin_measurable _).prodMk ((total_measurable _).sub ((lin_measurable _).pow_const 2))
  rw [e, ← Measure.map_map (by fun_prop) hm, hlaw, ← Measure.map_prod_map _ _ (by fun_prop) measurable_id, Measure.map_id]
  congr 1
  have e2 : (fun y : ℝ => a + σ * y) = (fun y => a + y) ∘ fun y => σ * y := rfl
  rw [e2, ← Measure.map_map (by fun_prop) (by fun_prop), gaussianReal_map_const_mul, gaussianReal_map_const_add, mul_zero,
    zero_add]
  congr 1
  ext
  rw [Real.coe_toNNReal _ (sq_nonneg _)]
  simp

/-- A chi-square cut leaves the distribution of the amplitudes unchanged: the fraction of pulses which pass the cut and whose
amplitude lies in `B` is the fraction which pass times the fraction with an amplitude in `B`. -/
theorem chi2_cut_unbiased (hpsd : ∀ k, 0 < psd k) (hs : ∀ k, psd (-k) = psd k) (hfs : 0 < fs) (ac : Bool)
    (T : ZMod n → ℝ) (hN : traceChi2 fs (weight (fun k => (psd k : WithTop ℝ)) ac) T ≠ 0) (a : ℝ) (wc : ℤ)
    (x : ZMod n → ℝ) (c : ℝ) {B : Set ℝ} (hB : MeasurableSet B) :
    let fit := fun ω => (nodelay (init (pulse T a wc (Noise.genNoise psd fs ω)) T (fun k => psd k) fs ac false) wc).1
    normalDraws n {ω | (fit ω).1 ∈ B ∧ (fit ω).2 ≤ c} =
      gaussianReal a (energyResolution (init x T (fun k => psd k) fs ac false) ^ 2).toNNReal B *
        chiSquared (nUsed (fun k => (psd k : WithTop ℝ)) ac - 1) (Set.Iic c) ∧
    normalDraws n {ω | (fit ω).2 ≤ c} = chiSquared (nUsed (fun k => (psd k : WithTop ℝ)) ac - 1) (Set.Iic c) := by
  intro fit
  have h := nodelay_law hpsd hs hfs ac T hN a wc x
  change (normalDraws n).map fit = _ at h
  have hm : AEMeasurable fit (normalDraws n) := by
    by_contra hc
    rw [Measure.map_of_not_aemeasurable hc] at h
    have := congrArg (fun μ : Measure (ℝ × ℝ) => μ Set.univ) h
    simp at this
  have key : ∀ D : Set (ℝ × ℝ), MeasurableSet D → normalDraws n (fit ⁻¹' D) = _ := fun D hD =>
    (Measure.map_apply_of_aemeasurable hm hD).symm.trans (congrArg (fun μ : Measure (ℝ × ℝ) => μ D) h)
  refine ⟨(key (B ×ˢ Set.Iic c) (hB.prod measurableSet_Iic)).trans ?_,
    (key (Set.univ ×ˢ Set.Iic c) (MeasurableSet.univ.prod measurableSet_Iic) |> fun e => ?_)⟩
  · exact Measure.prod_prod _ _
  · have e2 : fit ⁻¹' (Set.univ ×ˢ Set.Iic c) = {ω | (fit ω).2 ≤ c} := by
      ext ω
      simp
    rw [← e2, e]
    simp only [Measure.prod_prod, measure_univ, one_mul]

/-- White noise on four samples and a one-sample pulse of height two: the amplitude has unit variance, and the chi-square
three degrees of freedom. -/
example : (normalDraws 4).map
      (fun ω => (nodelay (init (pulse (delta : ZMod 4 → ℝ) 2 1 (Noise.genNoise (fun _ => 1) 1 ω)) delta (fun _ => (1 : ℝ)) 1
        false false) 1).1) = (gaussianReal 2 1).prod (chiSquared 3) := by
  have hN : traceChi2 1 (weight (fun _ : ZMod 4 => ((1 : ℝ) : WithTop ℝ)) false) delta = 1 := by
    have := traceChi2_white (n := 4) 1 delta
    change traceChi2 1 (weight white false) _ = 1
    rw [this]
    simp [delta]
  have h := nodelay_law (psd := fun _ : ZMod 4 => (1 : ℝ)) (fs := 1) (fun _ => one_pos) (fun _ => rfl) one_pos false delta
    (by rw [hN]; exact one_ne_zero) 2 1 0
  have hσ := (resolution_sq (x := 0) (psd := fun _ : ZMod 4 => ((1 : ℝ) : WithTop ℝ)) (fs := 1) (ac := false) (T := delta)
    (by rw [hN]; exact one_pos)).2
  rw [hN, div_one] at hσ
  have hU : nUsed (fun _ : ZMod 4 => ((1 : ℝ) : WithTop ℝ)) false = 4 := by
    have := nUsed_finite (fun _ : ZMod 4 => (1 : ℝ)) false
    simp only [Bool.false_eq_true, if_false, sub_zero] at this
    exact_mod_cast this
  rw [hσ, hU, Real.toNNReal_one] at h
  exact h

open Classical in
/-- With the true amplitude and time, `chi2_lowfreq` has the chi-square distribution with as many degrees of freedom as bins
are used up to the cutoff. -/
theorem chi2_lowfreq_law (hpsd : ∀ k, 0 < psd k) (hs : ∀ k, psd (-k) = psd k) (hfs : 0 < fs) (ac : Bool)
    (T : ZMod n → ℝ) (a fc : ℝ) (wc : ℤ) :
    (normalDraws n).map (fun ω =>
      (chi2Lowfreq (init (pulse T a wc (Noise.genNoise psd fs ω)) T (fun k => psd k) fs ac false) a (wc / fs) fc).1) =
      chiSquared (Finset.univ.filter fun k : ZMod n =>
        Used (fun k => (psd k : WithTop ℝ)) ac k ∧ |fftfreq fs k| ≤ fc).card := by
  simp only [gen_low hpsd hs hfs]
  exact total_law _ (lowBins_neg psd fs ac fc)

/-- On white noise, whatever the template and the amplitude, the chi-square above has its mean equal to the number of bins. -/
example (T : ZMod 4 → ℝ) (a fc : ℝ) : ∃ d, (normalDraws 4).map (fun ω =>
      (chi2Lowfreq (init (pulse T a 1 (Noise.genNoise (fun _ => 1) 1 ω)) T (fun _ => (1 : ℝ)) 1 false false) a (1 / 1) fc).1) =
      chiSquared d ∧ ∫ y, y ∂(chiSquared d) = d := by
  have h := chi2_lowfreq_law (psd := fun _ : ZMod 4 => (1 : ℝ)) (fs := 1) (fun _ => one_pos) (fun _ => rfl) one_pos false T a fc 1
  refine ⟨_, by simpa using h, chiSquared_mean _⟩

/-- The stationary pile-up fit with the second delay given: both amplitudes are normal around the true ones, and independent
of the chi-square, which has two degrees of freedom less than bins are used. -/
theorem pileup_law (hpsd : ∀ k, 0 < psd k) (hs : ∀ k, psd (-k) = psd k) (hfs : 0 < fs) (ac : Bool) (T : ZMod n → ℝ)
    (hT : Distinguishable fs (weight (fun k => (psd k : WithTop ℝ)) ac) T 2) {k : ℤ}
    (hk : -((n : ℤ) / 2) ≤ k ∧ k ≤ (n : ℤ) / 2 - ((n : ℤ) + 1) % 2) (hk0 : k ≠ 0) (A1 A2 : ℝ) :
    let N := traceChi2 fs (weight (fun k => (psd k : WithTop ℝ)) ac) T
    let C := overlap fs (weight (fun k => (psd k : WithTop ℝ)) ac) T (roll T (k : ZMod n))
    ∃ a1 a2 chi : (ZMod n → ℝ) → ℝ,
      (∀ ω, (pileupStationary (init (twoPulses T A1 A2 k (Noise.genNoise psd fs ω)) T (fun k => psd k) fs ac false) (some 1)
        false k).1 = .ok (a1 ω, a2 ω, k / fs, chi ω)) ∧
      (normalDraws n).map a1 = gaussianReal A1 (N / (N ^ 2 - C ^ 2)).toNNReal ∧
      (normalDraws n).map a2 = gaussianReal A2 (N / (N ^ 2 - C ^ 2)).toNNReal ∧
      (normalDraws n).map chi = chiSquared (nUsed (fun k => (psd k : WithTop ℝ)) ac - 2) ∧
      IndepFun (fun ω => (a1 ω, a2 ω)) chi (normalDraws n) := by
  classical
  intro N C
  have hpsd' : ∀ k, (0 : WithTop ℝ) < psd k := fun k => by exact_mod_cast hpsd k
  have hs' : ∀ k, ((psd (-k) : ℝ) : WithTop ℝ) = psd k := fun k => by rw [hs]
  obtain ⟨R, h, hR⟩ := genNoise_stationary psd hs (fun k => (hpsd k).le) hfs.le (normalDraws_stationary (n := n))
  obtain ⟨a1, a2, chi, hr, m1, m2, v1, v2, -, -, mc⟩ := stationary_noise h hR hpsd' hs' hfs ac T hT hk hk0 A1 A2
  have hC : C = ip fs (weight (fun k => (psd k : WithTop ℝ)) ac) T (roll T (k : ZMod n)) := overlap_eq _ _ _ _
  obtain ⟨hN, hD, -⟩ := stationary_pair hfs hpsd' ac T hT hk hk0 A1 A2 T
  have hp := fun ω => (stationary_pair hfs hpsd' ac T hT hk hk0 A1 A2 (Noise.genNoise psd fs ω)).2.2
  simp only [← hC] at hD hp
  change 0 < N at hN
  change 0 < N ^ 2 - C ^ 2 at hD
  obtain ⟨z, z1, z2, z3⟩ := gen_ips (ac := ac) hpsd hs hfs ![T, roll T (k : ZMod n)]
  have za := z1 0
  have zb := z1 1
  simp only [Matrix.cons_val_zero, Matrix.cons_val_one] at za zb
  have g00 : ∑ t, z 0 t * z 0 t = N := by
    rw [z2]
    exact ip_self _ _ _
  have g01 : ∑ t, z 0 t * z 1 t = C := by
    rw [z2, hC]
    rfl
  have g10 : ∑ t, z 1 t * z 0 t = C := by
    rw [← g01]
    exact Finset.sum_congr rfl fun t _ => mul_comm _ _
  have g11 : ∑ t, z 1 t * z 1 t = N := by
    rw [z2]
    exact (ip_self _ _ _).trans (traceChi2_roll _ _ _ _)
  have hfit : ∀ ω, a1 ω = A1 + (N * lin (z 0) ω - C * lin (z 1) ω) / (N ^ 2 - C ^ 2) ∧
      a2 ω = A2 + (N * lin (z 1) ω - C * lin (z 0) ω) / (N ^ 2 - C ^ 2) ∧
      chi ω = total (usedBins psd ac) ω - (N * (lin (z 0) ω * lin (z 0) ω) - 2 * C * (lin (z 0) ω * lin (z 1) ω) +
        N * (lin (z 1) ω * lin (z 1) ω)) / (N ^ 2 - C ^ 2) := by
    intro ω
    have h1 := (hr ω).symm.trans (hp ω)
    rw [za, zb, gen_chi hpsd hs hfs] at h1
    have h2 := Except.ok.inj h1
    exact ⟨congrArg Prod.fst h2, congrArg (fun p => p.2.1) h2, congrArg (fun p => p.2.2.2) h2⟩
  refine ⟨a1, a2, chi, hr, ?_⟩
  let G : Matrix (Fin 2) (Fin 2) ℝ := !![N, C; C, N]
  let X : Matrix (Fin 2) (Fin 2) ℝ := !![N / (N ^ 2 - C ^ 2), -C / (N ^ 2 - C ^ 2); -C / (N ^ 2 - C ^ 2), N / (N ^ 2 - C ^ 2)]
  obtain ⟨L, h1, h2, h3, h4⟩ := gram_map (usedBins psd ac) (usedBins_neg psd ac) z z3 G X
    (by
      intro i j
      fin_cases i <;> fin_cases j <;> simp [G, g00, g01, g10, g11])
    (by
      ext i j
      fin_cases i <;> fin_cases j <;> simp [X])
    (by
      have hD0 := hD.ne'
      ext i j
      fin_cases i <;> fin_cases j <;> simp [X, G, Matrix.mul_apply, Fin.sum_univ_two] <;> field_simp <;> ring)
  have hq : ∀ x, ∑ j, L x j * x j = chi x := by
    intro x
    rw [h4, (hfit x).2.2]
    simp only [X, Matrix.mulVec, dotProduct, Fin.sum_univ_two, Matrix.of_apply, Matrix.cons_val', Matrix.cons_val_zero,
      Matrix.cons_val_one, Matrix.empty_val', Matrix.cons_val_fin_one]
    ring
  have hchim : Measurable chi := by
    have e : chi = fun ω => total (usedBins psd ac) ω - (N * (lin (z 0) ω * lin (z 0) ω) - 2 * C * (lin (z 0) ω * lin (z 1) ω) +
        N * (lin (z 1) ω * lin (z 1) ω)) / (N ^ 2 - C ^ 2) := funext fun ω => (hfit ω).2.2
    rw [e]
    have := total_measurable (usedBins psd ac)
    have := lin_measurable (z 0)
    have := lin_measurable (z 1)
    fun_prop
  have hU : 2 ≤ nUsed (fun k => (psd k : WithTop ℝ)) ac := by
    have : 0 ≤ ∫ ω, chi ω ∂(normalDraws n) := by
      refine integral_nonneg fun ω => ?_
      show 0 ≤ chi ω
      rw [← hq, ← h2, h1]
      exact Finset.sum_nonneg fun j _ => mul_self_nonneg _
    rw [mc] at this
    have h5 : (2 : ℝ) ≤ nUsed (fun k => (psd k : WithTop ℝ)) ac := by linarith
    exact_mod_cast h5
  have hmc : ∫ ω, chi ω ∂(normalDraws n) = ((nUsed (fun k => (psd k : WithTop ℝ)) ac - 2 : ℕ) : ℝ) := by
    rw [mc, Nat.cast_sub hU]
    norm_num
  have gauss : ∀ (f : (ZMod n → ℝ) → ℝ) (c : ℝ) (u : ZMod n → ℝ) (V : ℝ), (∀ ω, f ω = c + lin u ω) →
      ∫ ω, (f ω - c) ^ 2 ∂(normalDraws n) = V → (normalDraws n).map f = gaussianReal c V.toNNReal := by
    intro f c u V hf hV
    have e : f = (fun y => c + y) ∘ lin u := funext hf
    have hsum : ∑ j, u j ^ 2 = V := by
      rw [← hV, ← (lin_mean u).2]
      simp only [hf, add_sub_cancel_left]
    rw [e, ← Measure.map_map (by fun_prop) (lin_measurable u), lin_gauss, gaussianReal_map_const_add, zero_add, hsum]
  refine ⟨gauss a1 A1 (fun j => (N * z 0 j - C * z 1 j) / (N ^ 2 - C ^ 2)) _ (fun ω => ?_) v1,
    gauss a2 A2 (fun j => (N * z 1 j - C * z 0 j) / (N ^ 2 - C ^ 2)) _ (fun ω => ?_) v2,
    idem_law L h1 h2 hchim hq hmc, ?_⟩
  · rw [(hfit ω).1]
    congr 1
    simp only [lin, Finset.mul_sum, ← Finset.sum_sub_distrib, Finset.sum_div]
    exact Finset.sum_congr rfl fun j _ => by ring
  · rw [(hfit ω).2.1]
    congr 1
    simp only [lin, Finset.mul_sum, ← Finset.sum_sub_distrib, Finset.sum_div]
    exact Finset.sum_congr rfl fun j _ => by ring
  · have hind := idem_indep L h1 h2 z h3 hchim hq hmc
    have := hind.comp (φ := fun y : Fin 2 → ℝ => (A1 + (N * y 0 - C * y 1) / (N ^ 2 - C ^ 2),
      A2 + (N * y 1 - C * y 0) / (N ^ 2 - C ^ 2))) (ψ := id) (by fun_prop) measurable_id
    refine this.congr (Filter.Eventually.of_forall fun ω => ?_) (Filter.EventuallyEq.refl _ _)
    exact Prod.ext (hfit ω).1.symm (hfit ω).2.1.symm

/-- White noise on eight samples and two one-sample pulses: the chi-square has six degrees of freedom. -/
example : ∃ a1 a2 chi : (ZMod 8 → ℝ) → ℝ,
    (∀ ω, (pileupStationary (init (twoPulses (delta : ZMod 8 → ℝ) 5 2 3 (Noise.genNoise (fun _ => 1) 1 ω)) delta
      (fun _ => (1 : ℝ)) 1 false false) (some 1) false 3).1 = .ok (a1 ω, a2 ω, 3 / 1, chi ω)) ∧
    (normalDraws 8).map chi = chiSquared 6 := by
  have hT : Distinguishable 1 (weight white false) (delta : ZMod 8 → ℝ) 2 := by
    intro c _ h
    funext j
    have := white_zero h j
    rw [pulses_delta, add_zero] at this
    exact this
  obtain ⟨a1, a2, chi, h1, -, -, h2, -⟩ := pileup_law (psd := fun _ : ZMod 8 => (1 : ℝ)) (fs := 1) (fun _ => one_pos)
    (fun _ => rfl) one_pos false delta hT (k := 3) (by norm_num) (by norm_num) 5 2
  have hU : nUsed (fun _ : ZMod 8 => ((1 : ℝ) : WithTop ℝ)) false = 8 := by
    have := nUsed_finite (fun _ : ZMod 8 => (1 : ℝ)) false
    simp only [Bool.false_eq_true, if_false, sub_zero] at this
    exact_mod_cast this
  rw [hU] at h2
  exact ⟨a1, a2, chi, by simpa using h1, h2⟩

end Verif.OF

namespace Verif.Nsmb
open Verif Verif.Dft Verif.Nsmb.Spec MeasureTheory ProbabilityTheory Matrix Verif.OF

variable {n : ℕ} [NeZero n] {nb : ℕ} {T : Fin (nb + 1) → ZMod n → ℝ} {psd : ZMod n → ℝ} {fs : ℝ} {F : Filt n nb}

/-- The multi-template fit at a given delay, on noise made by `gen_noise`: the chi-square has the chi-square distribution
with as many degrees of freedom as there are bins less independent templates, and is independent of the amplitudes; for
independent templates each amplitude is normal around the true one with the variance given by `of_nsmb_getiP`. -/
theorem nsmb_law (hF : setup T psd fs = .ok F) (hpsd : ∀ f, 0 < psd f) (h0 : psd 0 = psd 1)
    (hs : ∀ f, psd (-f) = psd f) (hfs : 0 < fs) (hnb : nb ≠ 0) {k : ℤ} (hk : -(n : ℤ) ≤ k) (lf : ℕ)
    (A : Fin (nb + 1) → ℝ) :
    ∃ r : (ZMod n → ℝ) → Fit n nb,
      (∀ vals, ofNsmb (event T (k : ZMod n) A (Noise.genNoise psd fs vals)) F (getiP F.P) fs [k] lf = .ok (r vals)) ∧
      (normalDraws n).map (fun vals => (r vals).chi2min) =
        chiSquared (n - Set.finrank ℝ (Set.range (delayed T (k : ZMod n)))) ∧
      IndepFun (fun vals => (r vals).amps) (fun vals => (r vals).chi2min) (normalDraws n) ∧
      (Indep (delayed T (k : ZMod n)) → ∀ i, (normalDraws n).map (fun vals => (r vals).amps i) =
        gaussianReal (A i) (getiP F.P (k : ZMod n) i i).toNNReal) := by
  obtain ⟨R, hst, hR⟩ := genNoise_stationary psd hs (fun k => (hpsd k).le) hfs.le (normalDraws_stationary (n := n))
  have hdc : (fun k => (psd k : WithTop ℝ)) = dcPsd psd := by
    funext k
    unfold dcPsd
    split_ifs with hk
    · rw [hk, h0]
    · rfl
  have hR' := hR
  rw [hdc] at hR'
  obtain ⟨r, hr, hcov, hx⟩ := nsmb_covariance hF (fun f _ => hpsd f) hs hfs hnb hst hR' hk lf A
  obtain ⟨r', hr', -, hm⟩ := nsmb_mean hF (fun f _ => hpsd f) hs hfs hnb hst hk lf A
  have hrr : r' = r := by
    funext v
    exact Except.ok.inj ((hr' v).symm.trans (hr v))
  subst hrr
  refine ⟨r', hr, ?_⟩
  choose r₂ hr₂ ha hchi using fun ω => ofNsmb_one hnb (event T (k : ZMod n) A (Noise.genNoise psd fs ω)) F (getiP F.P) fs hk lf
  have hrr : r₂ = r' := by
    funext v
    exact Except.ok.inj ((hr₂ v).symm.trans (hr v))
  subst hrr
  set S := delayed T (k : ZMod n) with hS
  set G : Matrix (Fin (nb + 1)) (Fin (nb + 1)) ℝ :=
    of fun i j => OF.ip fs (OF.weight (dcPsd psd) false) (S i) (S j) with hG0
  have hG : G = of fun i j => ipR (Spec.noise psd fs) (S i) (S j) := by simp only [ipR_eq psd hfs, hG0]
  have hsym : Gᵀ = G := by rw [hG]; exact gram_symm _ S
  have hX := isPinv_pinv hsym
  obtain ⟨z, z1, z2, z3⟩ := gen_ips (ac := false) hpsd hs hfs S
  simp only [hdc] at z1 z2
  have hgc := fun ω => gen_chi (ac := false) hpsd hs hfs ω
  simp only [hdc] at hgc
  have hamp : ∀ ω, (r₂ ω).amps = pinv G *ᵥ (G *ᵥ A) + pinv G *ᵥ fun i => lin (z i) ω := by
    intro ω
    rw [ha, (fit_event hF (fun f _ => hpsd f) hfs _ A (Noise.genNoise psd fs ω)).2.1]
    simp only [← hS, ipR_eq psd hfs, z1]
    rfl
  have hchi2 : ∀ ω, (r₂ ω).chi2min = total (usedBins psd false) ω - (pinv G *ᵥ fun i => lin (z i) ω) ⬝ᵥ fun i => lin (z i) ω := by
    intro ω
    rw [hchi, (fit_event hF (fun f _ => hpsd f) hfs _ A (Noise.genNoise psd fs ω)).2.2]
    simp only [← hS, ipR_eq psd hfs, z1]
    rw [OF.ip_self, hgc]
  obtain ⟨L, h1, h2, h3, h4⟩ := gram_map (usedBins psd false) (usedBins_neg psd false) z z3 G (pinv G)
    (fun i j => z2 i j) (pinv_symm hsym) hX.axa
  have hq : ∀ x, ∑ j, L x j * x j = (r₂ x).chi2min := fun x => by rw [h4, hchi2]
  have hlm : Measurable fun (ω : ZMod n → ℝ) (i : Fin (nb + 1)) => lin (z i) ω :=
    measurable_pi_iff.2 fun i => lin_measurable _
  have hchim : Measurable fun ω => (r₂ ω).chi2min := by
    simp only [hchi2, dotProduct, mulVec]
    have := total_measurable (usedBins psd false)
    have := fun i => lin_measurable (z i)
    fun_prop
  have hrank : Set.finrank ℝ (Set.range S) ≤ n := by
    have := Submodule.finrank_le (Submodule.span ℝ (Set.range S))
    rwa [Module.finrank_fintype_fun_eq_card, ZMod.card] at this
  have hD : ∫ ω, (r₂ ω).chi2min ∂(normalDraws n) = ((n - Set.finrank ℝ (Set.range S) : ℕ) : ℝ) := by
    rw [hx, Nat.cast_sub hrank]
  refine ⟨idem_law L h1 h2 hchim hq hD, ?_, fun hI i => ?_⟩
  · have hind := idem_indep L h1 h2 z h3 hchim hq hD
    have := hind.comp (φ := fun y : Fin (nb + 1) → ℝ => pinv G *ᵥ (G *ᵥ A) + pinv G *ᵥ y) (ψ := id)
      (by
        refine measurable_pi_iff.2 fun i => ?_
        simp only [Pi.add_apply, mulVec, dotProduct]
        fun_prop) measurable_id
    exact this.congr (Filter.Eventually.of_forall fun ω => (hamp ω).symm) (Filter.EventuallyEq.refl _ _)
  · have hmi := hm hI i
    set u : ZMod n → ℝ := fun t => ∑ j, pinv G i j * z j t with hu
    have hlin : ∀ ω, (pinv G *ᵥ fun i => lin (z i) ω) i = lin u ω := by
      intro ω
      simp only [mulVec, dotProduct, lin, hu, Finset.mul_sum, Finset.sum_mul]
      rw [Finset.sum_comm]
      exact Finset.sum_congr rfl fun j _ => Finset.sum_congr rfl fun l _ => by ring
    have hf : ∀ ω, (r₂ ω).amps i = (pinv G *ᵥ (G *ᵥ A)) i + lin u ω := fun ω => by rw [hamp, Pi.add_apply, hlin]
    have hmean : (pinv G *ᵥ (G *ᵥ A)) i = A i := by
      rw [← hmi]
      simp only [hf]
      have hi0 : Integrable (lin u) (normalDraws n) := normalDraws_stationary.int_lin u
      have h00 : ∫ ω, lin u ω ∂(normalDraws n) = 0 := normalDraws_stationary.lin u
      rw [integral_add (integrable_const _) hi0, h00]
      simp
    have hvar : ∑ t, u t ^ 2 = getiP F.P (k : ZMod n) i i := by
      rw [← hcov i i, hmi, ← (lin_mean u).2]
      simp only [hf, hmean, add_sub_cancel_left, pow_two]
    have e : (fun ω => (r₂ ω).amps i) = (fun y => A i + y) ∘ lin u := funext fun ω => by
      rw [hf, hmean]
      rfl
    rw [e, ← Measure.map_map (by fun_prop) (lin_measurable u), lin_gauss, gaussianReal_map_const_add, zero_add, hvar]

/-- Three templates on four samples of white noise: the chi-square has one degree of freedom. -/
example : ∃ F, setup inT inPsd 4 = .ok F ∧ ∃ r : (ZMod 4 → ℝ) → Fit 4 2,
    (∀ vals, ofNsmb (event inT 1 ![1, 2, 3] (Noise.genNoise inPsd 4 vals)) F (getiP F.P) 4 [1] 1 = .ok (r vals)) ∧
    (normalDraws 4).map (fun vals => (r vals).chi2min) = chiSquared 1 := by
  obtain ⟨F, hF⟩ := in_setup
  obtain ⟨r, h1, h2, -⟩ := nsmb_law hF (fun _ => one_pos) rfl (fun _ => rfl) (by norm_num) (by norm_num) (k := 1) (by norm_num)
    1 ![1, 2, 3]
  refine ⟨F, hF, r, by simpa using h1, ?_⟩
  have hli : LinearIndependent ℝ (delayed inT ((1 : ℤ) : ZMod 4)) := by
    rw [Fintype.linearIndependent_iff]
    intro g hg i
    exact congrFun (in_indep _ g fun τ => by simpa using congrFun hg τ) i
  rw [h2, Set.finrank, finrank_span_eq_card hli, Fintype.card_fin]

end Verif.Nsmb
