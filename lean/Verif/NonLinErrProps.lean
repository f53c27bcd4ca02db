import Verif.NonLinErrMulti
import Verif.NonLinLimitProps
import Verif.NonLinErrEx

/-!
C152: to first order in the noise, the errors and the covariance matrix which a pulse fit reports are the standard deviations
and covariances of its parameters.
-/

namespace Verif.NonLin

open Verif Verif.Dft MeasureTheory ProbabilityTheory Filter Topology

variable {n : ℕ} [NeZero n] {Ω : Type*} [MeasurableSpace Ω] {μ : Measure Ω} [IsProbabilityMeasure μ] {noise : Ω → ZMod n → ℝ}
  {R : ZMod n → ℝ}

/-- **C152.**  Two poles, for parameters strictly within the default bounds. -/
theorem twopole_fit_errors (hst : OF.Stationary μ noise R) {psd : ZMod n → ℝ} {fs errscale : ℝ} {tmpl : Option (List ℝ)}
    {pulse : ZMod n → ℝ} {tau : Option ℝ} {scale : Bool} {o : Obj n}
    (ho : o = (init psd fs tmpl).prepare pulse 2 errscale tau scale) (hS : StatedNoise R psd fs errscale)
    (hpsd : ∀ k, k ≠ 0 → 0 < psd k) (herr : 0 < errscale) (hfs : 0 < fs) (hn : 60 < n) (hodd : Odd n)
    {A₀ r₀ f₀ t₀ : ℝ} (hA₀ : 0 < A₀) (hr₀ : 0 < r₀) (hf₀ : 0 < f₀) {A τr τf t : ℝ} (hA : A₀ / 100 < A ∧ A < A₀ * 100)
    (hr : r₀ / 10 < τr ∧ τr < r₀ * 10) (hf : f₀ / 10 < τf ∧ τf < f₀ * 10) (ht : t₀ - 30 / fs < t ∧ t < t₀ + 30 / fs)
    (hne : τr ≠ τf) {m : ZMod n → ℂ} (hm : o.twopole A τr τf t = .ok m)
    (hdata : ∀ k, fftR pulse k / (Real.sqrt (fs * n) : ℂ) = m k) {r : Ω → ℝ → FitResult n}
    (hfit : ∀ ω, ∀ᶠ s in 𝓝[≠] 0, BestFit psd fs tmpl 2 errscale [A₀, r₀, f₀, t₀] tau scale
      (fun j => pulse j + s * noise ω j) (r ω s)) :
    Honest μ 4 [A, τr, τf, t] r ((fftR R 0).re = fs * (10 ^ 40 / errscale)) := by
  have hA0 : 0 < A := lt_trans (by positivity) hA.1
  have hr0 : 0 < τr := lt_trans (by positivity) hr.1
  have hf0 : 0 < τf := lt_trans (by positivity) hf.1
  set x₀ : Fin 4 → ℝ := ![A, τr, τf, t] with hx₀
  have hl : [A, τr, τf, t] = List.ofFn x₀ := by simp [hx₀, List.ofFn_succ]
  have hmod : ∀ pulse' (v : Fin 4 → ℝ), ((init psd fs tmpl).prepare pulse' 2 errscale tau scale).model (List.ofFn v) =
      ((init psd fs tmpl).prepare pulse' 2 errscale tau scale).twopole (v 0) (v 1) (v 2) (v 3) := by
    intro pulse' v
    unfold Obj.model
    simp [Obj.prepare, List.ofFn_succ]
  have hcd : ∀ i : Fin 4, ContDiffAt ℝ 1 (fun v : Fin 4 → ℝ => v i) x₀ := fun i => contDiffAt_apply ..
  have hcont : ContDiffAt ℝ 1 (fun v : Fin 4 → ℝ => two n fs scale (v 0) (v 1) (v 2) (v 3)) x₀ :=
    two_contDiff (hcd 0) (hcd 1) (hcd 2) (hcd 3) (by simpa [hx₀] using hr0) (by simpa [hx₀] using hf0) (by simpa [hx₀] using hne)
  have hm' : m = two n fs scale A τr τf t := by
    have h := two_model (psd := psd) (fs := fs) (errscale := errscale) (tmpl := tmpl) (tau := tau) (scale := scale) pulse 2
      (A := A) (t := t) hr0 hf0 hne
    rw [← ho, hm] at h
    exact Except.ok.inj h
  rw [hl]
  refine honest_best (F := fun v => two n fs scale (v 0) (v 1) (v 2) (v 3)) (guess := [A₀, r₀, f₀, t₀]) hpsd herr hfs hcont
    (Eventually.of_forall fun v k => two_herm fs scale hodd _ _ _ _ k) ?_ ?_ ?_ ?_ hst hS hfit ?_
  · intro u hu
    have h1 := line_deriv hcont hu
    simp only [Pi.add_apply, Pi.smul_apply, smul_eq_mul] at h1
    obtain ⟨e0, e1, e2, e3⟩ := two_inj hfs (by omega) (A := A) (τr := τr) (τf := τf) (t := t) hA0.ne' hr0 hf0 hne h1
    funext i
    fin_cases i <;> assumption
  · have h1 : ∀ᶠ v in 𝓝 x₀, 0 < v 1 := ((continuous_apply 1).tendsto x₀).eventually_const_lt (by simpa [hx₀] using hr0)
    have h2 : ∀ᶠ v in 𝓝 x₀, 0 < v 2 := ((continuous_apply 2).tendsto x₀).eventually_const_lt (by simpa [hx₀] using hf0)
    have h3 : ∀ᶠ v in 𝓝 x₀, v 1 - v 2 ≠ 0 := (((continuous_apply 1).sub (continuous_apply 2)).tendsto x₀).eventually_ne
      (by simpa [hx₀, sub_eq_zero] using hne)
    filter_upwards [h1, h2, h3] with v a1 a2 a3 pulse'
    rw [hmod]
    exact two_model pulse' 2 a1 a2 (sub_ne_zero.1 a3)
  · have h := within_ofFn (lo := ![A₀ / 100, r₀ / 10, f₀ / 10, t₀ - 30 / fs]) (hi := ![A₀ * 100, r₀ * 10, f₀ * 10, t₀ + 30 / fs])
      (x₀ := x₀) (by intro i; fin_cases i; exacts [hA, hr, hf, ht])
    filter_upwards [h] with v hv pulse'
    rw [bounds_two rfl]
    simpa [List.ofFn_succ, Obj.prepare, init] using hv
  · intro k
    rw [hdata, hm']
    rfl
  · intro ω ε hε
    obtain ⟨η, hη, hnear⟩ := twopole_fit_stable ho hpsd herr hfs hn hA₀ hr₀ hf₀ (A := A) (τr := τr) (τf := τf) (t := t)
      ⟨hA.1.le, hA.2.le⟩ ⟨hr.1.le, hr.2.le⟩ ⟨hf.1.le, hf.2.le⟩ ⟨ht.1.le, ht.2.le⟩ hne hm hdata hε
    filter_upwards [hfit ω, noisy_near pulse (noise ω) hη] with s hs hp
    obtain ⟨solve, o', hf', hbest, -⟩ := hs
    rw [← hl]
    refine hnear _ hp _ (best_finding (by show 4 < n; omega) hf' hbest ?_)
    have ho' : o' = (init psd fs tmpl).prepare (fun j => pulse j + s * noise ω j) 2 errscale tau scale := by
      unfold Obj.fit at hf'
      exact (Prod.mk.inj hf').1.symm
    rw [ho', bounds_two rfl]
    have h := (within_ofFn (lo := ![A₀ / 100, r₀ / 10, f₀ / 10, t₀ - 30 / fs]) (hi := ![A₀ * 100, r₀ * 10, f₀ * 10, t₀ + 30 / fs])
      (x₀ := x₀) (by intro i; fin_cases i; exacts [hA, hr, hf, ht])).self_of_nhds
    simpa [List.ofFn_succ, Obj.prepare, init, hx₀] using h

/-- Best fits exist for traces of 61 samples with white noise. -/
example : ∃ (pulse : ZMod 61 → ℝ) (m : ZMod 61 → ℂ) (R : ZMod 61 → ℝ) (r : Bool × ZMod 61 → ℝ → FitResult 61),
    OF.Stationary (Device.throws 61) (Device.jolt 61 (Real.sqrt (61 : ℕ))) R ∧ StatedNoise R (fun _ => 10 ^ 40) 1 (10 ^ 40) ∧
    (fftR R 0).re = 1 * (10 ^ 40 / 10 ^ 40) ∧
    ((init (fun _ => 10 ^ 40) 1 none).prepare pulse 2 (10 ^ 40) none true).twopole 2 1 100 7 = .ok m ∧
    (∀ k, fftR pulse k / (Real.sqrt (1 * (61 : ℕ)) : ℂ) = m k) ∧
    ∀ ω s, BestFit (fun _ => 10 ^ 40) 1 none 2 (10 ^ 40) [1, 1, 200, 5] none true
      (fun j => pulse j + s * Device.jolt 61 (Real.sqrt (61 : ℕ)) ω j) (r ω s) := by
  obtain ⟨m, hm⟩ := twopole_defined (o := (init (fun _ : ZMod 61 => 10 ^ 40) 1 none).prepare 0 2 (10 ^ 40) none true) (A := 2)
    (τr := 1) (τf := 100) (t := 7) (by norm_num) (by norm_num) (by norm_num)
  obtain ⟨pulse, hp⟩ := exact_trace (by decide) (show (0 : ℝ) < 1 from one_pos) one_pos (by norm_num) hm
  have hbest : ∀ pulse', ∃ r : FitResult 61, BestFit (fun _ => 10 ^ 40) 1 none 2 (10 ^ 40) [1, 1, 200, 5] none true pulse' r := by
    intro pulse'
    have hb : ((init (fun _ : ZMod 61 => (10 : ℝ) ^ 40) 1 none).prepare pulse' 2 (10 ^ 40) none true).defaultBounds [1, 1, 200, 5] =
        ((List.ofFn ![(1 : ℝ) / 100, 1 / 10, 200 / 10, 5 - 30 / 1]).map ((↑) : ℝ → EReal), (List.ofFn ![(1 : ℝ) * 100, 1 * 10, 200 * 10, 5 + 30 / 1]).map ((↑) : ℝ → EReal)) := by
      rw [bounds_two rfl]
      simp [List.ofFn_succ, Obj.prepare, init]
    have hpos : ∀ v ∈ Set.Icc ![(1 : ℝ) / 100, 1 / 10, 200 / 10, 5 - 30 / 1] ![1 * 100, 1 * 10, 200 * 10, 5 + 30 / 1],
        0 < v 1 ∧ 0 < v 2 ∧ v 1 < v 2 := by
      intro v hv
      have a1 := hv.1 1
      have a2 := hv.1 2
      have a3 := hv.2 1
      simp at a1 a2 a3
      exact ⟨by linarith, by linarith, by linarith⟩
    obtain ⟨r, hr, -⟩ := exists_bestFit (n := 61) (psd := fun _ => (10 : ℝ) ^ 40) (fs := 1) (errscale := 10 ^ 40) (tmpl := none) (npole := 2)
      (guess := [1, 1, 200, 5]) (tau := none) (scale := true) pulse' (fun _ _ => by positivity) (by positivity)
      (F := fun v => two 61 1 true (v 0) (v 1) (v 2) (v 3))
      (by intro i; fin_cases i <;> norm_num) hb
      (fun v hv => two_contDiff (contDiffAt_apply ..) (contDiffAt_apply ..) (contDiffAt_apply ..) (contDiffAt_apply ..) (hpos v hv).1
        (hpos v hv).2.1 (hpos v hv).2.2.ne)
      (fun v hv => by
        have e1 : ∀ᶠ w in 𝓝 v, 0 < w 1 := ((continuous_apply 1).tendsto v).eventually_const_lt (hpos v hv).1
        have e2 : ∀ᶠ w in 𝓝 v, 0 < w 2 := ((continuous_apply 2).tendsto v).eventually_const_lt (hpos v hv).2.1
        have e3 : ∀ᶠ w in 𝓝 v, w 1 - w 2 ≠ 0 := (((continuous_apply 1).sub (continuous_apply 2)).tendsto v).eventually_ne
          (sub_ne_zero.2 (hpos v hv).2.2.ne)
        filter_upwards [e1, e2, e3] with w a1 a2 a3
        rw [← two_model (psd := fun _ => (10 : ℝ) ^ 40) (errscale := 10 ^ 40) (tmpl := none) (tau := none) pulse' 2 a1 a2 (sub_ne_zero.1 a3)]
        unfold Obj.model
        simp [Obj.prepare, List.ofFn_succ])
      (by simp) (by show 4 < 61; omega) (by unfold Obj.start; simp [Obj.prepare])
      (by
        rw [bounds_two rfl]
        refine lsqValid_of rfl rfl ?_ ?_ (by simp) <;>
        · simp only [List.zip_cons_cons, List.zip_nil_right, List.forall_mem_cons, EReal.coe_lt_coe_iff]
          norm_num [Obj.prepare, init])
      (by
        rw [bounds_two rfl]
        simp only [Within, List.forall₂_cons, List.forall₂_nil_left_iff, EReal.coe_le_coe_iff]
        norm_num [Obj.prepare, init])
    exact ⟨r, hr⟩
  choose r hr using hbest
  exact ⟨pulse, m, _, fun ω s => r _, Device.jolt_stationary 61 _, jolt_stated.1, jolt_stated.2, hm, hp, fun ω s => hr _⟩

/-- **C152.**  One pole with a given rise time. -/
theorem onepole_fit_errors (hst : OF.Stationary μ noise R) {psd : ZMod n → ℝ} {fs errscale : ℝ} {tmpl : Option (List ℝ)}
    {pulse : ZMod n → ℝ} {τr : ℝ} {scale : Bool} {o : Obj n}
    (ho : o = (init psd fs tmpl).prepare pulse 1 errscale (some τr) scale) (hS : StatedNoise R psd fs errscale)
    (hpsd : ∀ k, k ≠ 0 → 0 < psd k) (herr : 0 < errscale) (hfs : 0 < fs) (hn : 60 < n) (hodd : Odd n) (hr : 0 < τr)
    {A₀ f₀ t₀ : ℝ} (hA₀ : 0 < A₀) (hf₀ : 0 < f₀) {A τf t : ℝ} (hA : A₀ / 100 < A ∧ A < A₀ * 100)
    (hf : f₀ / 10 < τf ∧ τf < f₀ * 10) (ht : t₀ - 30 / fs < t ∧ t < t₀ + 30 / fs)
    (hne : τr ≠ τf) {m : ZMod n → ℂ} (hm : o.twopole A τr τf t = .ok m)
    (hdata : ∀ k, fftR pulse k / (Real.sqrt (fs * n) : ℂ) = m k) {r : Ω → ℝ → FitResult n}
    (hfit : ∀ ω, ∀ᶠ s in 𝓝[≠] 0, BestFit psd fs tmpl 1 errscale [A₀, f₀, t₀] (some τr) scale
      (fun j => pulse j + s * noise ω j) (r ω s)) :
    Honest μ 3 [A, τf, t] r ((fftR R 0).re = fs * (10 ^ 40 / errscale)) := by
  have hA0 : 0 < A := lt_trans (by positivity) hA.1
  have hf0 : 0 < τf := lt_trans (by positivity) hf.1
  set x₀ : Fin 3 → ℝ := ![A, τf, t] with hx₀
  have hl : [A, τf, t] = List.ofFn x₀ := by simp [hx₀, List.ofFn_succ]
  have hmod : ∀ pulse' (v : Fin 3 → ℝ), ((init psd fs tmpl).prepare pulse' 1 errscale (some τr) scale).model (List.ofFn v) =
      ((init psd fs tmpl).prepare pulse' 1 errscale (some τr) scale).twopole (v 0) τr (v 1) (v 2) := by
    intro pulse' v
    have htau : ((init psd fs tmpl).prepare pulse' 1 errscale (some τr) scale).taurise = some τr := by simp [Obj.prepare]
    rw [← onepole_eq htau]
    unfold Obj.model
    simp [Obj.prepare, List.ofFn_succ]
  have hcd : ∀ i : Fin 3, ContDiffAt ℝ 1 (fun v : Fin 3 → ℝ => v i) x₀ := fun i => contDiffAt_apply ..
  have hcont : ContDiffAt ℝ 1 (fun v : Fin 3 → ℝ => two n fs scale (v 0) τr (v 1) (v 2)) x₀ :=
    two_contDiff (hcd 0) contDiffAt_const (hcd 1) (hcd 2) hr (by simpa [hx₀] using hf0) (by simpa [hx₀] using hne)
  have hm' : m = two n fs scale A τr τf t := by
    have h := two_model (psd := psd) (fs := fs) (errscale := errscale) (tmpl := tmpl) (tau := some τr) (scale := scale) pulse 1
      (A := A) (t := t) hr hf0 hne
    rw [← ho, hm] at h
    exact Except.ok.inj h
  have hbx := within_ofFn (lo := ![A₀ / 100, f₀ / 10, t₀ - 30 / fs]) (hi := ![A₀ * 100, f₀ * 10, t₀ + 30 / fs])
      (x₀ := x₀) (by intro i; fin_cases i; exacts [hA, hf, ht])
  rw [hl]
  refine honest_best (F := fun v => two n fs scale (v 0) τr (v 1) (v 2)) (guess := [A₀, f₀, t₀]) hpsd herr hfs hcont
    (Eventually.of_forall fun v k => two_herm fs scale hodd _ _ _ _ k) ?_ ?_ ?_ ?_ hst hS hfit ?_
  · intro u hu
    have h1 := line_deriv hcont hu
    simp only [Pi.add_apply, Pi.smul_apply, smul_eq_mul] at h1
    obtain ⟨e0, -, e2, e3⟩ := two_inj (n := n) (scale := scale) hfs (by omega) (A := A) (τr := τr) (τf := τf) (t := t) (u0 := u 0)
      (u1 := 0) (u2 := u 1) (u3 := u 2) hA0.ne' hr hf0 hne (by simp only [mul_zero, add_zero]; exact h1)
    funext i
    fin_cases i <;> assumption
  · have h2 : ∀ᶠ v in 𝓝 x₀, 0 < v 1 := ((continuous_apply 1).tendsto x₀).eventually_const_lt (by simpa [hx₀] using hf0)
    have h3 : ∀ᶠ v in 𝓝 x₀, τr - v 1 ≠ 0 := ((continuous_const.sub (continuous_apply 1)).tendsto x₀).eventually_ne
      (by simpa [hx₀, sub_eq_zero] using hne)
    filter_upwards [h2, h3] with v a2 a3 pulse'
    rw [hmod]
    exact two_model pulse' 1 hr a2 (sub_ne_zero.1 a3)
  · filter_upwards [hbx] with v hv pulse'
    rw [bounds_one rfl]
    simpa [List.ofFn_succ, Obj.prepare, init] using hv
  · intro k
    rw [hdata, hm']
    rfl
  · intro ω ε hε
    obtain ⟨η, hη, hnear⟩ := onepole_fit_stable ho hpsd herr hfs hn hr hA₀ hf₀ (A := A) (τf := τf) (t := t)
      ⟨hA.1.le, hA.2.le⟩ ⟨hf.1.le, hf.2.le⟩ ⟨ht.1.le, ht.2.le⟩ hne hm hdata hε
    filter_upwards [hfit ω, noisy_near pulse (noise ω) hη] with s hs hp
    obtain ⟨solve, o', hf', hbest, -⟩ := hs
    rw [← hl]
    refine hnear _ hp _ (best_finding (by show 3 < n; omega) hf' hbest ?_)
    have ho' : o' = (init psd fs tmpl).prepare (fun j => pulse j + s * noise ω j) 1 errscale (some τr) scale := by
      unfold Obj.fit at hf'
      exact (Prod.mk.inj hf').1.symm
    rw [ho', bounds_one rfl]
    simpa [List.ofFn_succ, Obj.prepare, init, hx₀] using hbx.self_of_nhds

/-- The same with a given rise time. -/
example : ∃ (pulse : ZMod 61 → ℝ) (m : ZMod 61 → ℂ) (R : ZMod 61 → ℝ) (r : Bool × ZMod 61 → ℝ → FitResult 61),
    OF.Stationary (Device.throws 61) (Device.jolt 61 (Real.sqrt (61 : ℕ))) R ∧ StatedNoise R (fun _ => 10 ^ 40) 1 (10 ^ 40) ∧
    (fftR R 0).re = 1 * (10 ^ 40 / 10 ^ 40) ∧
    ((init (fun _ => 10 ^ 40) 1 none).prepare pulse 1 (10 ^ 40) (some 1) true).twopole 2 1 100 7 = .ok m ∧
    (∀ k, fftR pulse k / (Real.sqrt (1 * (61 : ℕ)) : ℂ) = m k) ∧
    ∀ ω s, BestFit (fun _ => 10 ^ 40) 1 none 1 (10 ^ 40) [1, 200, 5] (some 1) true
      (fun j => pulse j + s * Device.jolt 61 (Real.sqrt (61 : ℕ)) ω j) (r ω s) := by
  obtain ⟨m, hm⟩ := twopole_defined (o := (init (fun _ : ZMod 61 => 10 ^ 40) 1 none).prepare 0 1 (10 ^ 40) (some 1) true) (A := 2)
    (τr := 1) (τf := 100) (t := 7) (by norm_num) (by norm_num) (by norm_num)
  obtain ⟨pulse, hp⟩ := exact_trace (by decide) (show (0 : ℝ) < 1 from one_pos) one_pos (by norm_num) hm
  have hbest : ∀ pulse', ∃ r : FitResult 61, BestFit (fun _ => 10 ^ 40) 1 none 1 (10 ^ 40) [1, 200, 5] (some 1) true pulse' r := by
    intro pulse'
    have hb : ((init (fun _ : ZMod 61 => (10 : ℝ) ^ 40) 1 none).prepare pulse' 1 (10 ^ 40) (some 1) true).defaultBounds [1, 200, 5] =
        ((List.ofFn ![(1 : ℝ) / 100, 200 / 10, 5 - 30 / 1]).map ((↑) : ℝ → EReal), (List.ofFn ![(1 : ℝ) * 100, 200 * 10, 5 + 30 / 1]).map ((↑) : ℝ → EReal)) := by
      rw [bounds_one rfl]
      simp [List.ofFn_succ, Obj.prepare, init]
    have hpos : ∀ v ∈ Set.Icc ![(1 : ℝ) / 100, 200 / 10, 5 - 30 / 1] ![1 * 100, 200 * 10, 5 + 30 / 1],
        1 < v 1 := by
      intro v hv
      have a1 := hv.1 1
      simp at a1
      linarith
    obtain ⟨r, hr, -⟩ := exists_bestFit (n := 61) (psd := fun _ => (10 : ℝ) ^ 40) (fs := 1) (errscale := 10 ^ 40) (tmpl := none) (npole := 1)
      (guess := [1, 200, 5]) (tau := some 1) (scale := true) pulse' (fun _ _ => by positivity) (by positivity)
      (F := fun v => two 61 1 true (v 0) 1 (v 1) (v 2))
      (by intro i; fin_cases i <;> norm_num) hb
      (fun v hv => two_contDiff (contDiffAt_apply ..) contDiffAt_const (contDiffAt_apply ..) (contDiffAt_apply ..) one_pos
        (one_pos.trans (hpos v hv)) (hpos v hv).ne)
      (fun v hv => by
        have e1 : ∀ᶠ w in 𝓝 v, 1 < w 1 := ((continuous_apply 1).tendsto v).eventually_const_lt (hpos v hv)
        filter_upwards [e1] with w a1
        rw [← two_model (psd := fun _ => (10 : ℝ) ^ 40) (errscale := 10 ^ 40) (tmpl := none) (tau := some 1) pulse' 1 one_pos
          (one_pos.trans a1) a1.ne, ← onepole_eq (by simp [Obj.prepare])]
        unfold Obj.model
        simp [Obj.prepare, List.ofFn_succ])
      (by simp) (by show 3 < 61; omega) (by unfold Obj.start; simp [Obj.prepare])
      (by
        rw [bounds_one rfl]
        refine lsqValid_of rfl rfl ?_ ?_ (by simp) <;>
        · simp only [List.zip_cons_cons, List.zip_nil_right, List.forall_mem_cons, EReal.coe_lt_coe_iff]
          norm_num [Obj.prepare, init])
      (by
        rw [bounds_one rfl]
        simp only [Within, List.forall₂_cons, List.forall₂_nil_left_iff, EReal.coe_le_coe_iff]
        norm_num [Obj.prepare, init])
    exact ⟨r, hr⟩
  choose r hr using hbest
  exact ⟨pulse, m, _, fun ω s => r _, Device.jolt_stationary 61 _, jolt_stated.1, jolt_stated.2, hm, hp, fun ω s => hr _⟩

/-- **C152.**  Three poles: for fits which list the fall times in increasing order, and pulses with a slope at their start. -/
theorem threepole_fit_errors (hst : OF.Stationary μ noise R) {psd : ZMod n → ℝ} {fs errscale : ℝ} {tmpl : Option (List ℝ)}
    {pulse : ZMod n → ℝ} {tau : Option ℝ} {scale : Bool} {o : Obj n}
    (ho : o = (init psd fs tmpl).prepare pulse 3 errscale tau scale) (hS : StatedNoise R psd fs errscale)
    (hpsd : ∀ k, k ≠ 0 → 0 < psd k) (herr : 0 < errscale) (hfs : 0 < fs) (hn : 60 < n) (hodd : Odd n)
    {A₀ B₀ r₀ f₁ f₂ t₀ : ℝ} (hA₀ : 0 < A₀) (hB₀ : 0 < B₀) (hr₀ : 0 < r₀) (hf₁ : 0 < f₁) (hf₂ : 0 < f₂)
    {A B τr τ1 τ2 t : ℝ} (hA : A₀ / 100 < A ∧ A < A₀ * 100) (hB : B₀ / 100 < B ∧ B < B₀ * 100)
    (hr : r₀ / 10 < τr ∧ τr < r₀ * 10) (h1 : f₁ / 10 < τ1 ∧ τ1 < f₁ * 10) (h2 : f₂ / 10 < τ2 ∧ τ2 < f₂ * 10)
    (ht : t₀ - 30 / fs < t ∧ t < t₀ + 30 / fs) (h12 : τ1 < τ2) (hr1 : τr ≠ τ1) (hr2 : τr ≠ τ2)
    (hslope : A / τ1 + B / τ2 ≠ (A + B) / τr)
    (hdata : ∀ k, fftR pulse k / (Real.sqrt (fs * n) : ℂ) = o.threepole A B τr τ1 τ2 t k) {r : Ω → ℝ → FitResult n}
    (hfit : ∀ ω, ∀ᶠ s in 𝓝[≠] 0, BestFit psd fs tmpl 3 errscale [A₀, B₀, r₀, f₁, f₂, t₀] tau scale
      (fun j => pulse j + s * noise ω j) (r ω s))
    (hord : ∀ ω, ∀ᶠ s in 𝓝[≠] 0, (r ω s).lsq.x.getD 3 0 < (r ω s).lsq.x.getD 4 0) :
    Honest μ 6 [A, B, τr, τ1, τ2, t] r ((fftR R 0).re = fs * (10 ^ 40 / errscale)) := by
  have hA0 : 0 < A := lt_trans (by positivity) hA.1
  have hB0 : 0 < B := lt_trans (by positivity) hB.1
  have hr0 : 0 < τr := lt_trans (by positivity) hr.1
  have h10 : 0 < τ1 := lt_trans (by positivity) h1.1
  have h20 : 0 < τ2 := lt_trans (by positivity) h2.1
  have hnd : [τ1, τ2, τr].Nodup := by simp [h12.ne, hr1.symm, hr2.symm]
  set x₀ : Fin 6 → ℝ := ![A, B, τr, τ1, τ2, t] with hx₀
  have hl : [A, B, τr, τ1, τ2, t] = List.ofFn x₀ := by simp [hx₀, List.ofFn_succ]
  have hmod : ∀ pulse' (v : Fin 6 → ℝ), ((init psd fs tmpl).prepare pulse' 3 errscale tau scale).model (List.ofFn v) =
      .ok (multi n fs ![v 0, v 1, -(v 0 + v 1)] ![v 3, v 4, v 2] (v 5)) := by
    intro pulse' v
    rw [← three_model (psd := psd) (errscale := errscale) (tmpl := tmpl) (tau := tau) (scale := scale) pulse' 3]
    unfold Obj.model
    simp only [List.ofFn_succ, List.ofFn_zero]
    simp [Obj.prepare]
  have hcd : ∀ i : Fin 6, ContDiffAt ℝ 1 (fun v : Fin 6 → ℝ => v i) x₀ := fun i => contDiffAt_apply ..
  have hcont : ContDiffAt ℝ 1 (fun v : Fin 6 → ℝ => multi n fs ![v 0, v 1, -(v 0 + v 1)] ![v 3, v 4, v 2] (v 5)) x₀ :=
    multi_contDiff (by intro i; fin_cases i; exacts [hcd 0, hcd 1, ((hcd 0).add (hcd 1)).neg])
      (by intro i; fin_cases i; exacts [hcd 3, hcd 4, hcd 2]) (hcd 5)
  have hbx := within_ofFn (lo := ![A₀ / 100, B₀ / 100, r₀ / 10, f₁ / 10, f₂ / 10, t₀ - 30 / fs])
      (hi := ![A₀ * 100, B₀ * 100, r₀ * 10, f₁ * 10, f₂ * 10, t₀ + 30 / fs])
      (x₀ := x₀) (by intro i; fin_cases i; exacts [hA, hB, hr, h1, h2, ht])
  rw [hl]
  refine honest_best (F := fun v => multi n fs ![v 0, v 1, -(v 0 + v 1)] ![v 3, v 4, v 2] (v 5)) (guess := [A₀, B₀, r₀, f₁, f₂, t₀])
    hpsd herr hfs hcont (Eventually.of_forall fun v k => multi_herm fs hodd _ _ _ k) ?_ ?_ ?_ ?_ hst hS hfit ?_
  · intro u hu
    have h := line_deriv hcont hu
    simp only [Pi.add_apply, Pi.smul_apply, smul_eq_mul] at h
    obtain ⟨e0, e1, e2, e3, e4, e5⟩ := three_inj hfs hn (A := A) (B := B) (τr := τr) (τ1 := τ1) (τ2 := τ2) (t := t) hA0 hB0 hr0 h10 h20
      hnd hslope h
    funext i
    fin_cases i <;> assumption
  · exact Eventually.of_forall fun v pulse' => hmod pulse' v
  · filter_upwards [hbx] with v hv pulse'
    rw [bounds_three rfl]
    simpa [List.ofFn_succ, Obj.prepare, init] using hv
  · intro k
    rw [hdata, ho, three_model]
    rfl
  · intro ω ε hε
    have hgap : 0 < (τ2 - τ1) / 2 := by linarith
    obtain ⟨η, hη, hnear⟩ := threepole_fit_stable ho hpsd herr hfs hn hA₀ hB₀ hr₀ hf₁ hf₂ (A := A) (B := B) (τr := τr) (τ1 := τ1)
      (τ2 := τ2) (t := t) ⟨hA.1.le, hA.2.le⟩ ⟨hB.1.le, hB.2.le⟩ ⟨hr.1.le, hr.2.le⟩ ⟨h1.1.le, h1.2.le⟩ ⟨h2.1.le, h2.2.le⟩
      ⟨ht.1.le, ht.2.le⟩ hnd hdata (lt_min hε hgap)
    filter_upwards [hfit ω, noisy_near pulse (noise ω) hη, hord ω] with s hs hp hxo
    obtain ⟨solve, o', hf', hbest, -⟩ := hs
    rw [← hl]
    obtain ⟨a, b, c, d, hperm, hclose⟩ := hnear _ hp _ (best_finding (by show 6 < n; omega) hf' hbest (by
      have ho' : o' = (init psd fs tmpl).prepare (fun j => pulse j + s * noise ω j) 3 errscale tau scale := by
        unfold Obj.fit at hf'
        exact (Prod.mk.inj hf').1.symm
      rw [ho', bounds_three rfl]
      simpa [List.ofFn_succ, Obj.prepare, init, hx₀] using hbx.self_of_nhds))
    generalize (r ω s).lsq.x = x at hclose hxo
    unfold Close at hclose
    rcases hclose with _ | ⟨q0, _ | ⟨q1, _ | ⟨q2, _ | ⟨q3, _ | ⟨q4, _ | ⟨q5, _ | _⟩⟩⟩⟩⟩⟩
    obtain ⟨rfl, rfl, rfl, rfl⟩ := order_two (δ := (τ2 - τ1) / 2) (by linarith) hperm hxo (min_le_right _ _) hgap q3 q4
    have hle := min_le_left ε ((d - c) / 2)
    exact .cons (q0.trans_le hle) (.cons (q1.trans_le hle) (.cons (q2.trans_le hle) (.cons (q3.trans_le hle)
      (.cons (q4.trans_le hle) (.cons (q5.trans_le hle) .nil)))))

/-- The same for three poles; the order follows from the bounds. -/
example : ∃ (pulse : ZMod 61 → ℝ) (R : ZMod 61 → ℝ) (r : Bool × ZMod 61 → ℝ → FitResult 61),
    OF.Stationary (Device.throws 61) (Device.jolt 61 (Real.sqrt (61 : ℕ))) R ∧ StatedNoise R (fun _ => 10 ^ 40) 1 (10 ^ 40) ∧
    (fftR R 0).re = 1 * (10 ^ 40 / 10 ^ 40) ∧ (2 : ℝ) / 3 + 1 / 100 ≠ (2 + 1) / 1 ∧
    (∀ k, fftR pulse k / (Real.sqrt (1 * (61 : ℕ)) : ℂ) =
      ((init (fun _ => 10 ^ 40) 1 none).prepare pulse 3 (10 ^ 40) none true).threepole 2 1 1 3 100 7 k) ∧
    ∀ ω s, BestFit (fun _ => 10 ^ 40) 1 none 3 (10 ^ 40) [1, 1, 2, 1, 200, 5] none true
      (fun j => pulse j + s * Device.jolt 61 (Real.sqrt (61 : ℕ)) ω j) (r ω s) ∧ (r ω s).lsq.x.getD 3 0 < (r ω s).lsq.x.getD 4 0 := by
  obtain ⟨pulse, hp⟩ := trace_of_herm (show (0 : ℝ) < 1 from one_pos) (threepole_herm
    (o := (init (fun _ : ZMod 61 => 10 ^ 40) 1 none).prepare 0 3 (10 ^ 40) none true) (by decide) 2 1 1 3 100 7)
  have hbest : ∀ pulse', ∃ r : FitResult 61, BestFit (fun _ => 10 ^ 40) 1 none 3 (10 ^ 40) [1, 1, 2, 1, 200, 5] none true pulse' r ∧
      r.lsq.x.getD 3 0 < r.lsq.x.getD 4 0 := by
    intro pulse'
    have hb : ((init (fun _ : ZMod 61 => (10 : ℝ) ^ 40) 1 none).prepare pulse' 3 (10 ^ 40) none true).defaultBounds [1, 1, 2, 1, 200, 5] =
        ((List.ofFn ![(1 : ℝ) / 100, 1 / 100, 2 / 10, 1 / 10, 200 / 10, 5 - 30 / 1]).map ((↑) : ℝ → EReal),
          (List.ofFn ![(1 : ℝ) * 100, 1 * 100, 2 * 10, 1 * 10, 200 * 10, 5 + 30 / 1]).map ((↑) : ℝ → EReal)) := by
      rw [bounds_three rfl]
      simp [List.ofFn_succ, Obj.prepare, init]
    obtain ⟨r, hr, v, hv, hx⟩ := exists_bestFit (n := 61) (psd := fun _ => (10 : ℝ) ^ 40) (fs := 1) (errscale := 10 ^ 40)
      (tmpl := none) (npole := 3) (guess := [1, 1, 2, 1, 200, 5]) (tau := none) (scale := true) pulse' (fun _ _ => by positivity) (by positivity)
      (F := fun v => multi 61 1 ![v 0, v 1, -(v 0 + v 1)] ![v 3, v 4, v 2] (v 5))
      (by intro i; fin_cases i <;> norm_num) hb
      (fun v hv => multi_contDiff (by intro i; fin_cases i; exacts [contDiffAt_apply .., contDiffAt_apply .., ((contDiffAt_apply ..).add (contDiffAt_apply ..)).neg])
        (by intro i; fin_cases i; exacts [contDiffAt_apply .., contDiffAt_apply .., contDiffAt_apply ..]) (contDiffAt_apply ..))
      (fun v hv => Eventually.of_forall fun w => by
        rw [← three_model (psd := fun _ => (10 : ℝ) ^ 40) (errscale := 10 ^ 40) (tmpl := none) (tau := none) (scale := true)
          pulse' 3]
        unfold Obj.model
        simp only [List.ofFn_succ, List.ofFn_zero]
        simp [Obj.prepare])
      (by simp) (by show 6 < 61; omega) (by unfold Obj.start; simp [Obj.prepare])
      (by
        rw [bounds_three rfl]
        refine lsqValid_of rfl rfl ?_ ?_ (by simp) <;>
        · simp only [List.zip_cons_cons, List.zip_nil_right, List.forall_mem_cons, EReal.coe_lt_coe_iff]
          norm_num [Obj.prepare, init])
      (by
        rw [bounds_three rfl]
        simp only [Within, List.forall₂_cons, List.forall₂_nil_left_iff, EReal.coe_le_coe_iff]
        norm_num [Obj.prepare, init])
    refine ⟨r, hr, ?_⟩
    rw [hx]
    simp only [List.ofFn_succ, List.ofFn_zero]
    have a1 := hv.2 3
    have a2 := hv.1 4
    simp at a1 a2
    show v 3 < v 4
    linarith
  choose r hr using hbest
  exact ⟨pulse, _, fun ω s => r _, Device.jolt_stationary 61 _, jolt_stated.1, jolt_stated.2, by norm_num, hp, fun ω s => hr _⟩

/-- **C152.**  Four poles: for fits which list the fall times in increasing order, and pulses with a slope at their start. -/
theorem fourpole_fit_errors (hst : OF.Stationary μ noise R) {psd : ZMod n → ℝ} {fs errscale : ℝ} {tmpl : Option (List ℝ)}
    {pulse : ZMod n → ℝ} {tau : Option ℝ} {scale : Bool} {o : Obj n}
    (ho : o = (init psd fs tmpl).prepare pulse 4 errscale tau scale) (hS : StatedNoise R psd fs errscale)
    (hpsd : ∀ k, k ≠ 0 → 0 < psd k) (herr : 0 < errscale) (hfs : 0 < fs) (hn : 60 < n) (hodd : Odd n)
    {A₀ B₀ C₀ r₀ f₁ f₂ f₃ t₀ : ℝ} (hA₀ : 0 < A₀) (hB₀ : 0 < B₀) (hC₀ : 0 < C₀) (hr₀ : 0 < r₀) (hf₁ : 0 < f₁) (hf₂ : 0 < f₂)
    (hf₃ : 0 < f₃) {A B C τr τ1 τ2 τ3 t : ℝ} (hA : A₀ / 100 < A ∧ A < A₀ * 100) (hB : B₀ / 100 < B ∧ B < B₀ * 100)
    (hC : C₀ / 100 < C ∧ C < C₀ * 100)
    (hr : r₀ / 10 < τr ∧ τr < r₀ * 10) (h1 : f₁ / 10 < τ1 ∧ τ1 < f₁ * 10) (h2 : f₂ / 10 < τ2 ∧ τ2 < f₂ * 10)
    (h3 : f₃ / 10 < τ3 ∧ τ3 < f₃ * 10) (ht : t₀ - 30 / fs < t ∧ t < t₀ + 30 / fs) (h12 : τ1 < τ2) (h23 : τ2 < τ3)
    (hr1 : τr ≠ τ1) (hr2 : τr ≠ τ2) (hr3 : τr ≠ τ3) (hslope : A / τ1 + B / τ2 + C / τ3 ≠ (A + B + C) / τr)
    (hdata : ∀ k, fftR pulse k / (Real.sqrt (fs * n) : ℂ) = o.fourpole A B C τr τ1 τ2 τ3 t k) {r : Ω → ℝ → FitResult n}
    (hfit : ∀ ω, ∀ᶠ s in 𝓝[≠] 0, BestFit psd fs tmpl 4 errscale [A₀, B₀, C₀, r₀, f₁, f₂, f₃, t₀] tau scale
      (fun j => pulse j + s * noise ω j) (r ω s))
    (hord : ∀ ω, ∀ᶠ s in 𝓝[≠] 0, (r ω s).lsq.x.getD 4 0 < (r ω s).lsq.x.getD 5 0 ∧
      (r ω s).lsq.x.getD 5 0 < (r ω s).lsq.x.getD 6 0) :
    Honest μ 8 [A, B, C, τr, τ1, τ2, τ3, t] r ((fftR R 0).re = fs * (10 ^ 40 / errscale)) := by
  have hA0 : 0 < A := lt_trans (by positivity) hA.1
  have hB0 : 0 < B := lt_trans (by positivity) hB.1
  have hC0 : 0 < C := lt_trans (by positivity) hC.1
  have hr0 : 0 < τr := lt_trans (by positivity) hr.1
  have h10 : 0 < τ1 := lt_trans (by positivity) h1.1
  have h20 : 0 < τ2 := lt_trans (by positivity) h2.1
  have h30 : 0 < τ3 := lt_trans (by positivity) h3.1
  have hnd : [τ1, τ2, τ3, τr].Nodup := by simp [h12.ne, h23.ne, (h12.trans h23).ne, hr1.symm, hr2.symm, hr3.symm]
  set x₀ : Fin 8 → ℝ := ![A, B, C, τr, τ1, τ2, τ3, t] with hx₀
  have hl : [A, B, C, τr, τ1, τ2, τ3, t] = List.ofFn x₀ := by simp [hx₀, List.ofFn_succ]
  have hmod : ∀ pulse' (v : Fin 8 → ℝ), ((init psd fs tmpl).prepare pulse' 4 errscale tau scale).model (List.ofFn v) =
      .ok (multi n fs ![v 0, v 1, v 2, -(v 0 + v 1 + v 2)] ![v 4, v 5, v 6, v 3] (v 7)) := by
    intro pulse' v
    rw [← four_model (psd := psd) (errscale := errscale) (tmpl := tmpl) (tau := tau) (scale := scale) pulse' 4]
    unfold Obj.model
    simp only [List.ofFn_succ, List.ofFn_zero]
    simp [Obj.prepare]
  have hcd : ∀ i : Fin 8, ContDiffAt ℝ 1 (fun v : Fin 8 → ℝ => v i) x₀ := fun i => contDiffAt_apply ..
  have hcont : ContDiffAt ℝ 1 (fun v : Fin 8 → ℝ => multi n fs ![v 0, v 1, v 2, -(v 0 + v 1 + v 2)] ![v 4, v 5, v 6, v 3] (v 7)) x₀ :=
    multi_contDiff (by intro i; fin_cases i; exacts [hcd 0, hcd 1, hcd 2, (((hcd 0).add (hcd 1)).add (hcd 2)).neg])
      (by intro i; fin_cases i; exacts [hcd 4, hcd 5, hcd 6, hcd 3]) (hcd 7)
  have hbx := within_ofFn (lo := ![A₀ / 100, B₀ / 100, C₀ / 100, r₀ / 10, f₁ / 10, f₂ / 10, f₃ / 10, t₀ - 30 / fs])
      (hi := ![A₀ * 100, B₀ * 100, C₀ * 100, r₀ * 10, f₁ * 10, f₂ * 10, f₃ * 10, t₀ + 30 / fs])
      (x₀ := x₀) (by intro i; fin_cases i; exacts [hA, hB, hC, hr, h1, h2, h3, ht])
  rw [hl]
  refine honest_best (F := fun v => multi n fs ![v 0, v 1, v 2, -(v 0 + v 1 + v 2)] ![v 4, v 5, v 6, v 3] (v 7))
    (guess := [A₀, B₀, C₀, r₀, f₁, f₂, f₃, t₀])
    hpsd herr hfs hcont (Eventually.of_forall fun v k => multi_herm fs hodd _ _ _ k) ?_ ?_ ?_ ?_ hst hS hfit ?_
  · intro u hu
    have h := line_deriv hcont hu
    simp only [Pi.add_apply, Pi.smul_apply, smul_eq_mul] at h
    obtain ⟨e0, e1, e2, e3, e4, e5, e6, e7⟩ := four_inj hfs hn (A := A) (B := B) (C := C) (τr := τr) (τ1 := τ1) (τ2 := τ2) (τ3 := τ3)
      (t := t) hA0 hB0 hC0 hr0 h10 h20 h30 hnd hslope h
    funext i
    fin_cases i <;> assumption
  · exact Eventually.of_forall fun v pulse' => hmod pulse' v
  · filter_upwards [hbx] with v hv pulse'
    rw [bounds_four rfl]
    simpa [List.ofFn_succ, Obj.prepare, init] using hv
  · intro k
    rw [hdata, ho, four_model]
    rfl
  · intro ω ε hε
    have hgap : 0 < min ((τ2 - τ1) / 2) ((τ3 - τ2) / 2) := lt_min (by linarith) (by linarith)
    obtain ⟨η, hη, hnear⟩ := fourpole_fit_stable ho hpsd herr hfs hn hA₀ hB₀ hC₀ hr₀ hf₁ hf₂ hf₃ (A := A) (B := B) (C := C) (τr := τr)
      (τ1 := τ1) (τ2 := τ2) (τ3 := τ3) (t := t) ⟨hA.1.le, hA.2.le⟩ ⟨hB.1.le, hB.2.le⟩ ⟨hC.1.le, hC.2.le⟩ ⟨hr.1.le, hr.2.le⟩
      ⟨h1.1.le, h1.2.le⟩ ⟨h2.1.le, h2.2.le⟩ ⟨h3.1.le, h3.2.le⟩ ⟨ht.1.le, ht.2.le⟩ hnd hdata (lt_min hε hgap)
    filter_upwards [hfit ω, noisy_near pulse (noise ω) hη, hord ω] with s hs hp hxo
    obtain ⟨solve, o', hf', hbest, -⟩ := hs
    rw [← hl]
    obtain ⟨a, b, c, d, e, f, hperm, hclose⟩ := hnear _ hp _ (best_finding (by show 8 < n; omega) hf' hbest (by
      have ho' : o' = (init psd fs tmpl).prepare (fun j => pulse j + s * noise ω j) 4 errscale tau scale := by
        unfold Obj.fit at hf'
        exact (Prod.mk.inj hf').1.symm
      rw [ho', bounds_four rfl]
      simpa [List.ofFn_succ, Obj.prepare, init, hx₀] using hbx.self_of_nhds))
    generalize (r ω s).lsq.x = x at hclose hxo
    unfold Close at hclose
    have hg1 := min_le_left ((τ2 - τ1) / 2) ((τ3 - τ2) / 2)
    have hg2 := min_le_right ((τ2 - τ1) / 2) ((τ3 - τ2) / 2)
    generalize min ((τ2 - τ1) / 2) ((τ3 - τ2) / 2) = g at *
    have hle := min_le_left ε g
    have hle' := min_le_right ε g
    generalize min ε g = δ at *
    rcases hclose with _ | ⟨q0, _ | ⟨q1, _ | ⟨q2, _ | ⟨q3, _ | ⟨q4, _ | ⟨q5, _ | ⟨q6, _ | ⟨q7, _ | _⟩⟩⟩⟩⟩⟩⟩⟩
    obtain ⟨rfl, rfl, rfl, rfl, rfl, rfl⟩ := order_three (δ := g) (by linarith) (by linarith) hperm hxo.1 hxo.2 hle' hgap q4 q5 q6
    exact .cons (q0.trans_le hle) (.cons (q1.trans_le hle) (.cons (q2.trans_le hle) (.cons (q3.trans_le hle)
      (.cons (q4.trans_le hle) (.cons (q5.trans_le hle) (.cons (q6.trans_le hle) (.cons (q7.trans_le hle) .nil)))))))

/-- The same for four poles. -/
example : ∃ (pulse : ZMod 61 → ℝ) (R : ZMod 61 → ℝ) (r : Bool × ZMod 61 → ℝ → FitResult 61),
    OF.Stationary (Device.throws 61) (Device.jolt 61 (Real.sqrt (61 : ℕ))) R ∧ StatedNoise R (fun _ => 10 ^ 40) 1 (10 ^ 40) ∧
    (fftR R 0).re = 1 * (10 ^ 40 / 10 ^ 40) ∧ (2 : ℝ) / 3 + 1 / 100 + 1 / 5000 ≠ (2 + 1 + 1) / 1 ∧
    (∀ k, fftR pulse k / (Real.sqrt (1 * (61 : ℕ)) : ℂ) =
      ((init (fun _ => 10 ^ 40) 1 none).prepare pulse 4 (10 ^ 40) none true).fourpole 2 1 1 1 3 100 5000 7 k) ∧
    ∀ ω s, BestFit (fun _ => 10 ^ 40) 1 none 4 (10 ^ 40) [1, 1, 1, 2, 1, 200, 40000, 5] none true
      (fun j => pulse j + s * Device.jolt 61 (Real.sqrt (61 : ℕ)) ω j) (r ω s) ∧ (r ω s).lsq.x.getD 4 0 < (r ω s).lsq.x.getD 5 0 ∧ (r ω s).lsq.x.getD 5 0 < (r ω s).lsq.x.getD 6 0 := by
  obtain ⟨pulse, hp⟩ := trace_of_herm (show (0 : ℝ) < 1 from one_pos) (fourpole_herm
    (o := (init (fun _ : ZMod 61 => 10 ^ 40) 1 none).prepare 0 4 (10 ^ 40) none true) (by decide) 2 1 1 1 3 100 5000 7)
  have hbest : ∀ pulse', ∃ r : FitResult 61, BestFit (fun _ => 10 ^ 40) 1 none 4 (10 ^ 40) [1, 1, 1, 2, 1, 200, 40000, 5] none true pulse' r ∧
      r.lsq.x.getD 4 0 < r.lsq.x.getD 5 0 ∧ r.lsq.x.getD 5 0 < r.lsq.x.getD 6 0 := by
    intro pulse'
    have hb : ((init (fun _ : ZMod 61 => (10 : ℝ) ^ 40) 1 none).prepare pulse' 4 (10 ^ 40) none true).defaultBounds [1, 1, 1, 2, 1, 200, 40000, 5] =
        ((List.ofFn ![(1 : ℝ) / 100, 1 / 100, 1 / 100, 2 / 10, 1 / 10, 200 / 10, 40000 / 10, 5 - 30 / 1]).map ((↑) : ℝ → EReal),
          (List.ofFn ![(1 : ℝ) * 100, 1 * 100, 1 * 100, 2 * 10, 1 * 10, 200 * 10, 40000 * 10, 5 + 30 / 1]).map ((↑) : ℝ → EReal)) := by
      rw [bounds_four rfl]
      simp [List.ofFn_succ, Obj.prepare, init]
    obtain ⟨r, hr, v, hv, hx⟩ := exists_bestFit (n := 61) (psd := fun _ => (10 : ℝ) ^ 40) (fs := 1) (errscale := 10 ^ 40)
      (tmpl := none) (npole := 4) (guess := [1, 1, 1, 2, 1, 200, 40000, 5]) (tau := none) (scale := true) pulse' (fun _ _ => by positivity) (by positivity)
      (F := fun v => multi 61 1 ![v 0, v 1, v 2, -(v 0 + v 1 + v 2)] ![v 4, v 5, v 6, v 3] (v 7))
      (by intro i; fin_cases i <;> norm_num) hb
      (fun v hv => multi_contDiff (by intro i; fin_cases i; exacts [contDiffAt_apply .., contDiffAt_apply .., contDiffAt_apply .., (((contDiffAt_apply ..).add (contDiffAt_apply ..)).add (contDiffAt_apply ..)).neg])
        (by intro i; fin_cases i; exacts [contDiffAt_apply .., contDiffAt_apply .., contDiffAt_apply .., contDiffAt_apply ..]) (contDiffAt_apply ..))
      (fun v hv => Eventually.of_forall fun w => by
        rw [← four_model (psd := fun _ => (10 : ℝ) ^ 40) (errscale := 10 ^ 40) (tmpl := none) (tau := none) (scale := true)
          pulse' 4]
        unfold Obj.model
        simp only [List.ofFn_succ, List.ofFn_zero]
        simp [Obj.prepare])
      (by simp) (by show 8 < 61; omega) (by unfold Obj.start; simp [Obj.prepare])
      (by
        rw [bounds_four rfl]
        refine lsqValid_of rfl rfl ?_ ?_ (by simp) <;>
        · simp only [List.zip_cons_cons, List.zip_nil_right, List.forall_mem_cons, EReal.coe_lt_coe_iff]
          norm_num [Obj.prepare, init])
      (by
        rw [bounds_four rfl]
        simp only [Within, List.forall₂_cons, List.forall₂_nil_left_iff, EReal.coe_le_coe_iff]
        norm_num [Obj.prepare, init])
    refine ⟨r, hr, ?_⟩
    rw [hx]
    simp only [List.ofFn_succ, List.ofFn_zero]
    have a1 := hv.2 4
    have a2 := hv.1 5
    have a3 := hv.2 5
    have a4 := hv.1 6
    simp at a1 a2 a3 a4
    show v 4 < v 5 ∧ v 5 < v 6
    constructor <;> linarith
  choose r hr using hbest
  exact ⟨pulse, _, fun ω s => r _, Device.jolt_stationary 61 _, jolt_stated.1, jolt_stated.2, by norm_num, hp, fun ω s => hr _⟩

end Verif.NonLin
