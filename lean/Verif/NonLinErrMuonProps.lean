import Verif.NonLinErrMuon
import Verif.NonLinLimitProps

/-! C152 for `fitmuontail`. -/

namespace Verif.NonLin

open Verif Verif.Dft MeasureTheory Filter Topology

variable {n : ℕ} [NeZero n] {Ω : Type*} [MeasurableSpace Ω] {μ : Measure Ω} [IsProbabilityMeasure μ] {noise : Ω → ZMod n → ℝ}
  {R : ZMod n → ℝ}

/-- **C152.**  The muon tail: the noise has the stated density in all bins, so the reported covariance is exact to first
order.  `hguess`: whichever of the samples closest to `1/e` of the height gives the guess, its bound is above `τ`. -/
theorem muon_fit_errors (hst : OF.Stationary μ noise R) {psd : ZMod n → ℝ} {fs errscale : ℝ} {signal : ZMod n → ℝ}
    (hS : ∀ k, fftR R k = ((fs * (psd k / errscale) : ℝ) : ℂ)) (hpsd : ∀ k, 0 < psd k) (herr : 0 < errscale) (hfs : 0 < fs)
    (hn : 2 < n) (hodd : Odd n) {A τ : ℝ} (hA : 0 < A) (hτ : 0 < τ) (hA' : A < ampscale signal * 100)
    (hguess : ∀ i : ℕ, i < n → (∀ j, |signal (i : ZMod n) - ampscale signal / Real.exp 1| ≤ |signal j - ampscale signal / Real.exp 1|) →
      τ < i / fs * 100)
    (hdata : ∀ k, fftR signal k / (Real.sqrt (fs * n) : ℂ) = (Muon.prepare psd fs signal errscale).fcn A τ k)
    {r : Ω → ℝ → FitResult n}
    (hfit : ∀ ω, ∀ᶠ s in 𝓝[≠] 0, MuonBest psd fs errscale (fun j => signal j + s * noise ω j) (r ω s)) :
    Honest μ 2 [A, τ] r True := by
  set err : ZMod n → ℝ := fun k => Real.sqrt (psd k / errscale) with herrdef
  have he : ∀ k, 0 < err k := fun k => Real.sqrt_pos.2 (div_pos (hpsd k) herr)
  have hsq : ∀ k, err k ^ 2 = psd k / errscale := fun k => Real.sq_sqrt (div_pos (hpsd k) herr).le
  have hS1 : ∀ k, (fftR R k).re = fs * err k ^ 2 := fun k => by rw [hS k, Complex.ofReal_re, hsq]
  have heven : ∀ k, err (-k) = err k := by
    intro k
    have h1 := hS1 k
    have h2 := hS1 (-k)
    rw [(psd_even hst k).1, h1] at h2
    exact ((pow_left_inj₀ (he k).le (he (-k)).le two_ne_zero).1 (mul_left_cancel₀ hfs.ne' h2)).symm
  set F : (Fin 2 → ℝ) → ZMod n → ℂ := fun v => multi n fs ![v 0] ![v 1] 0 with hFdef
  set x₀ : Fin 2 → ℝ := ![A, τ] with hx₀
  have hl : [A, τ] = List.ofFn x₀ := by simp [hx₀, List.ofFn_succ]
  have hcont : ∀ v, ContDiffAt ℝ 1 F v := fun v =>
    multi_contDiff (by intro i; fin_cases i; exact contDiffAt_apply ..) (by intro i; fin_cases i; exact contDiffAt_apply ..)
      contDiffAt_const
  have hF : ∀ (sig : ZMod n → ℝ) (v : Fin 2 → ℝ), (Muon.prepare psd fs sig errscale).fcn (v 0) (v 1) = F v := fun sig v =>
    muon_multi sig _ _
  have hd0 : ∀ k, fftR signal k / (Real.sqrt (fs * n) : ℂ) = F x₀ k := fun k => by
    rw [hdata, ← hF signal]
    rfl
  have hres : ∀ (sig : ZMod n → ℝ) (v : Fin 2 → ℝ), muonRes (Muon.prepare psd fs sig errscale) (List.ofFn v) =
      .ok (flatten (fun k => (Muon.prepare psd fs sig errscale).data k - F v k) err) := by
    intro sig v
    rw [← hF sig v]
    simp only [List.ofFn_succ, List.ofFn_zero]
    rfl
  -- eventually the truth is in the interior of the bounds
  have hin : ∀ ω, ∀ᶠ s in 𝓝[≠] 0, ∃ tau, muonTau fs (fun j => signal j + s * noise ω j) = .ok tau ∧ τ < tau * 100 ∧
      A < (ampscale fun j => signal j + s * noise ω j) * 100 := by
    intro ω
    filter_upwards [muonTau_near (fs := fs) signal (noise ω),
      ((ampscale_tendsto signal (noise ω)).mul_const 100).eventually_const_lt hA'] with s hs ha
    obtain ⟨i, hi, ht, hj⟩ := hs
    exact ⟨_, ht, hguess i hi hj, ha⟩
  have hcl : ∀ ω, ∀ ε > 0, ∀ᶠ s in 𝓝[≠] 0, Close ε (r ω s).lsq.x (List.ofFn x₀) := by
    intro ω ε hε
    obtain ⟨η, hη, hnear⟩ := muon_fit_stable hpsd herr hfs (by omega) hA hτ hdata hε
    filter_upwards [hfit ω, noisy_near signal (noise ω) hη, hin ω] with s hs hp hi
    obtain ⟨solve, tau, hfit', htau, hbest, -⟩ := hs
    obtain ⟨tau', ht', h1, h2⟩ := hi
    rw [htau] at ht'
    cases ht'
    rw [← hl]
    refine hnear _ hp _ ⟨solve, r ω s, hfit', rfl, ?_⟩
    obtain ⟨⟨A', τ', hx, hchi⟩, -⟩ := muon_parts hfit'
    obtain ⟨-, res, hres0, hmin⟩ := hbest
    rw [hx] at hres0
    cases hres0
    have := hmin [A, τ] _ (by
      have z : (0 : EReal) = ((0 : ℝ) : EReal) := rfl
      simp only [Within, List.forall₂_cons, List.forall₂_nil_left_iff, z, EReal.coe_le_coe_iff, and_true]
      exact ⟨⟨hA.le, hτ.le⟩, h2.le, h1.le⟩) rfl
    rw [Muon.residuals, Muon.residuals, flatten_sq, flatten_sq] at this
    rw [hchi]
    exact this
  rw [hl]
  have key := honest_fit (F := F) (x₀ := x₀) (err := err) (r := r) (hcont x₀)
    (Eventually.of_forall fun v k => multi_herm fs hodd _ _ _ k) ?_ he heven hfs hst
    (fun k _ => hS1 k) (hS1 0).le fun ω => ?_
  · obtain ⟨D, C, a1, a2, a3, a4, a5, a6, a7, a8⟩ := key
    exact ⟨D, C, a1, a2, a3, a4, a5, a6, a7, fun _ => a8 (hS1 0)⟩
  · intro u hu
    have h := line_deriv (hcont x₀) hu
    simp only [hFdef, Pi.add_apply, Pi.smul_apply, smul_eq_mul] at h
    obtain ⟨e0, e1⟩ := muon_inj hfs hn (A := A) (τ := τ) hA hτ h
    funext i
    fin_cases i <;> assumption
  · have hy : Tendsto (fun (s : ℝ) (i : Fin 2) => (r ω s).lsq.x.getD i 0) (𝓝[≠] 0) (𝓝 x₀) :=
      tendsto_pi_nhds.2 fun i => Metric.tendsto_nhds.2 fun ε hε => by
        filter_upwards [hcl ω ε hε] with s hs
        exact (close_ofFn hs).2 i
    refine ⟨_, hy, ?_⟩
    have hy0 := tendsto_pi_nhds.1 hy 0
    have hy1 := tendsto_pi_nhds.1 hy 1
    have hmid : ∀ᶠ s in 𝓝[≠] 0, ∃ tau, muonTau fs (fun j => signal j + s * noise ω j) = .ok tau ∧
        (r ω s).lsq.x.getD 1 0 < tau * 100 ∧
        (r ω s).lsq.x.getD 0 0 < (ampscale fun j => signal j + s * noise ω j) * 100 := by
      have hgap : ∀ᶠ s in 𝓝[≠] 0, ∀ i : Fin n, τ < (i : ℕ) / fs * 100 → (r ω s).lsq.x.getD 1 0 < (i : ℕ) / fs * 100 := by
        refine eventually_all.2 fun i => ?_
        by_cases h : τ < (i : ℕ) / fs * 100
        · filter_upwards [hy1.eventually_lt_const (show x₀ 1 < _ from h)] with s hs _
          exact hs
        · exact Eventually.of_forall fun s h' => absurd h' h
      filter_upwards [muonTau_near (fs := fs) signal (noise ω),
        hy0.eventually_lt ((ampscale_tendsto signal (noise ω)).mul_const 100) hA', hgap] with s hs ha hg
      obtain ⟨i, hi, ht, hj⟩ := hs
      exact ⟨_, ht, hg ⟨i, hi⟩ (hguess i hi hj), ha⟩
    filter_upwards [hfit ω, hcl ω 1 one_pos, hmid, hy0.eventually_const_lt (show 0 < x₀ 0 from hA),
      hy1.eventually_const_lt (show 0 < x₀ 1 from hτ)] with s hs hc1 hm p0 p1
    have hx := (close_ofFn hc1).1
    set y : Fin 2 → ℝ := fun i => (r ω s).lsq.x.getD i 0 with hydef
    obtain ⟨solve, tau, hfit', htau, hbest, hjac⟩ := hs
    obtain ⟨tau', ht', m1, m0⟩ := hm
    rw [htau] at ht'
    cases ht'
    obtain ⟨-, hcov, herrs⟩ := muon_parts hfit'
    have hod : ∀ k, (Muon.prepare psd fs (fun j => signal j + s * noise ω j) errscale).data k =
        F x₀ k + s * (fftR (noise ω) k / (Real.sqrt (fs * n) : ℂ)) := by
      intro k
      rw [← hd0]
      show fftR (fun j => signal j + s * noise ω j) k / (Real.sqrt (fs * n) : ℂ) = _
      rw [fftR_noisy]
      ring
    refine ⟨hx, ?_, cov_gram hcov herrs hx ((hcont y).differentiableAt (by simp)).hasFDerivAt
      (Eventually.of_forall fun v => hres _ v) hjac⟩
    obtain ⟨-, res, hres0, hmin⟩ := hbest
    have hself := hres (fun j => signal j + s * noise ω j) y
    rw [← hx, hres0] at hself
    cases hself
    have hb : ∀ᶠ v in 𝓝 y, 0 < v 0 ∧ 0 < v 1 ∧ v 0 < (ampscale fun j => signal j + s * noise ω j) * 100 ∧ v 1 < tau * 100 := by
      filter_upwards [((continuous_apply 0).tendsto y).eventually_const_lt p0, ((continuous_apply 1).tendsto y).eventually_const_lt p1,
        ((continuous_apply 0).tendsto y).eventually_lt_const m0, ((continuous_apply 1).tendsto y).eventually_lt_const m1] with v a b c d
      exact ⟨a, b, c, d⟩
    show ∀ᶠ v in 𝓝 y, _
    filter_upwards [hb] with v hv
    have := hmin (List.ofFn v) _ (by
      have z : (0 : EReal) = ((0 : ℝ) : EReal) := rfl
      simp only [Within, List.ofFn_succ, List.ofFn_zero, List.forall₂_cons, List.forall₂_nil_left_iff, z, EReal.coe_le_coe_iff, and_true]
      exact ⟨⟨hv.1.le, hv.2.1.le⟩, hv.2.2.1.le, hv.2.2.2.le⟩) (hres _ v)
    rw [flatten_sq, flatten_sq] at this
    simpa only [hod] using this

/-- The hypotheses hold for the trace `1, 1, 0` with jolts. -/
example : ∃ (R : ZMod 3 → ℝ) (r : Bool × ZMod 3 → ℝ → FitResult 3),
    OF.Stationary (Device.throws 3) (Device.jolt 3 (Real.sqrt (9 / (2 * Real.pi)))) R ∧
    (∀ k, fftR R k = ((3 / (2 * Real.pi) * (1 / 1) : ℝ) : ℂ)) ∧
    4 * Real.pi / (3 * Real.sqrt 3) < ampscale exMuon * 100 ∧
    (∀ i : ℕ, i < 3 → (∀ j, |exMuon (i : ZMod 3) - ampscale exMuon / Real.exp 1| ≤ |exMuon j - ampscale exMuon / Real.exp 1|) →
      Real.sqrt 3 < i / (3 / (2 * Real.pi)) * 100) ∧
    (∀ k, fftR exMuon k / (Real.sqrt (3 / (2 * Real.pi) * (3 : ℕ)) : ℂ) =
      (Muon.prepare (fun _ => 1) (3 / (2 * Real.pi)) exMuon 1).fcn (4 * Real.pi / (3 * Real.sqrt 3)) (Real.sqrt 3) k) ∧
    ∀ ω, ∀ᶠ s in 𝓝[≠] 0, MuonBest (fun _ => 1) (3 / (2 * Real.pi)) 1
      (fun j => exMuon j + s * Device.jolt 3 (Real.sqrt (9 / (2 * Real.pi))) ω j) (r ω s) := by
  have hpi := Real.two_le_pi
  have hpi4 := Real.pi_le_four
  have h3 : 1 ≤ Real.sqrt 3 := Real.one_le_sqrt.2 (by norm_num)
  have h3' : Real.sqrt 3 ≤ 2 := Real.sqrt_le_iff.2 ⟨by norm_num, by norm_num⟩
  have he : 2 < Real.exp 1 := by
    have := Real.add_one_lt_exp (one_ne_zero (α := ℝ))
    linarith
  have hc : 1 / Real.exp 1 < 1 / 2 := one_div_lt_one_div_of_lt (by norm_num) he
  have hc0 : 0 < 1 / Real.exp 1 := by positivity
  have hclose : ∀ i : ℕ, i < 3 →
      (∀ j, |exMuon (i : ZMod 3) - ampscale exMuon / Real.exp 1| ≤ |exMuon j - ampscale exMuon / Real.exp 1|) → i = 2 := by
    intro i hi h
    have h2 : exMuon 2 = 0 := by simp [exMuon]
    have hj := h 2
    rw [exMuon_amp, h2, zero_sub, abs_neg, abs_of_pos hc0] at hj
    interval_cases i
    · have h0 : exMuon ((0 : ℕ) : ZMod 3) = 1 := rfl
      rw [h0, abs_of_pos (by linarith)] at hj
      linarith
    · have h0 : exMuon ((1 : ℕ) : ZMod 3) = 1 := rfl
      rw [h0, abs_of_pos (by linarith)] at hj
      linarith
    · rfl
  have hbest : ∀ ω : Bool × ZMod 3, ∃ r : ℝ → FitResult 3, ∀ᶠ s in 𝓝[≠] (0 : ℝ), MuonBest (fun _ => 1) (3 / (2 * Real.pi)) 1
      (fun j => exMuon j + s * Device.jolt 3 (Real.sqrt (9 / (2 * Real.pi))) ω j) (r s) := by
    intro ω
    have hev : ∀ᶠ s in 𝓝[≠] (0 : ℝ), ∃ r : FitResult 3, MuonBest (fun _ => 1) (3 / (2 * Real.pi)) 1
        (fun j => exMuon j + s * Device.jolt 3 (Real.sqrt (9 / (2 * Real.pi))) ω j) r := by
      filter_upwards [muonTau_near (fs := 3 / (2 * Real.pi)) exMuon (Device.jolt 3 (Real.sqrt (9 / (2 * Real.pi))) ω),
        (ampscale_tendsto exMuon (Device.jolt 3 (Real.sqrt (9 / (2 * Real.pi))) ω)).eventually_const_lt
          (show 0 < ampscale exMuon by rw [exMuon_amp]; norm_num)] with s hs ha
      obtain ⟨i, hi, ht, hj⟩ := hs
      obtain rfl := hclose i hi hj
      exact exists_muonBest (fun _ => one_pos) one_pos ht (by positivity) ha
    have : Nonempty (FitResult 3) := by
      obtain ⟨s, r, -⟩ := hev.exists
      exact ⟨r⟩
    exact ⟨fun s => Classical.epsilon fun r => MuonBest (fun _ => 1) (3 / (2 * Real.pi)) 1
      (fun j => exMuon j + s * Device.jolt 3 (Real.sqrt (9 / (2 * Real.pi))) ω j) r, hev.mono fun s hs => Classical.epsilon_spec hs⟩
  choose r hr using hbest
  refine ⟨_, r, Device.jolt_stationary 3 _, fun k => ?_, ?_, fun i hi h => ?_, exMuon_exact _, hr⟩
  · unfold fftR
    rw [ZMod.dft_apply, Finset.sum_eq_single 0]
    · have e : Real.sqrt (9 / (2 * Real.pi)) ^ 2 / (3 : ℕ) = 3 / (2 * Real.pi) * (1 / 1) := by
        rw [Real.sq_sqrt (by positivity)]
        push_cast
        field_simp
        norm_num
      simp only [if_true, e, zero_mul, neg_zero, AddChar.map_zero_eq_one, one_smul]
    · intro j _ hj
      simp [hj]
    · simp
  · rw [exMuon_amp, div_lt_iff₀ (by positivity)]
    nlinarith
  · obtain rfl := hclose i hi h
    have : ((2 : ℕ) : ℝ) / (3 / (2 * Real.pi)) * 100 = 400 / 3 * Real.pi := by push_cast; field_simp; ring
    rw [this]
    linarith

end Verif.NonLin
