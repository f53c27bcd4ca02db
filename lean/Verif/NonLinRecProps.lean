import Verif.NonLinRecLemmas

/-!
C134: a pulse fit of noise-free data returns the pulse, if the optimiser finds the best point within the default
bounds.  Also the part of C117 about the start time of three- and four-pole pulses.
-/

namespace Verif.NonLin

open Verif Verif.Dft Spec

variable {n : ℕ} [NeZero n]

/-- **C117.**  Four-pole spectra of at least 33 samples which agree in every bin but the first: the start times differ
by whole lengths of the trace, the rise times agree, and so do the amplitudes and fall times up to their order.  The
times of the second pulse need not be distinct. -/
theorem fourpole_shift {o : Obj n} (hfs : 0 < o.fs) (hn : 33 ≤ n)
    {A B C τr τ1 τ2 τ3 t A' B' C' τr' τ1' τ2' τ3' t' : ℝ} (hr : 0 < τr) (h1 : 0 < τ1) (h2 : 0 < τ2) (h3 : 0 < τ3)
    (hr' : 0 < τr') (h1' : 0 < τ1') (h2' : 0 < τ2') (h3' : 0 < τ3') (hA : 0 < A) (hB : 0 < B) (hC : 0 < C)
    (hA' : 0 < A') (hB' : 0 < B') (hC' : 0 < C') (hd : [τ1, τ2, τ3, τr].Nodup)
    (h : ∀ k, k ≠ 0 → o.fourpole A B C τr τ1 τ2 τ3 t k = o.fourpole A' B' C' τr' τ1' τ2' τ3' t' k) :
    τr = τr' ∧ [(A, τ1), (B, τ2), (C, τ3)].Perm [(A', τ1'), (B', τ2'), (C', τ3')] ∧
      ∃ j : ℤ, t' = t + j * (n / o.fs) := by
  have n0 : ∀ p ∈ [(A, τ1), (B, τ2), (C, τ3), (-(A + B + C), τr)], p.1 ≠ 0 := by
    simp; refine ⟨hA.ne', hB.ne', hC.ne', by linarith⟩
  have n0' : ∀ p ∈ [(A', τ1'), (B', τ2'), (C', τ3'), (-(A' + B' + C'), τr')], p.1 ≠ 0 := by
    simp; refine ⟨hA'.ne', hB'.ne', hC'.ne', by linarith⟩
  have hc := spec_shift (l := [(A, τ1), (B, τ2), (C, τ3), (-(A + B + C), τr)])
    (m := [(A', τ1'), (B', τ2'), (C', τ3'), (-(A' + B' + C'), τr')]) (t := t) (t' := t') hfs
    (by simp; exact ⟨h1.ne', h2.ne', h3.ne', hr.ne'⟩) (by simp; exact ⟨h1'.ne', h2'.ne', h3'.ne', hr'.ne'⟩)
    (by simp; omega) (coef_ne hd n0 (by simp)) fun k hk => by
      have e := h k hk
      unfold Obj.fourpole at e
      refine mul_right_cancel₀ (df_sqrt_ne hfs) ?_
      simp only [spec, List.map_cons, List.map_nil, List.sum_cons, List.sum_nil]
      push_cast
      linear_combination e
  have hd' := nodup_of_coef (l := [(A, τ1), (B, τ2), (C, τ3), (-(A + B + C), τr)]) hd n0 (by simp) hc.1
  obtain ⟨e1, e2⟩ := falls_perm (F := [(A, τ1), (B, τ2), (C, τ3)]) (F' := [(A', τ1'), (B', τ2'), (C', τ3')])
    (by simp [hA', hB', hC']) (by positivity) (perm_of_coef hd hd' n0 n0' hc.1)
  exact ⟨e1, e2, hc.2⟩

/-- The hypotheses are met with another order and a start time one trace later. -/
example (k : ZMod 33) : [(2 : ℝ), 3, 4, 1].Nodup ∧
    (init (fun _ : ZMod 33 => 1) 33 none).fourpole 1 2 3 1 2 3 4 0 k =
      (init (fun _ : ZMod 33 => 1) 33 none).fourpole 3 2 1 1 4 3 2 1 k := by
  refine ⟨by norm_num, ?_⟩
  have e : Complex.exp (-Complex.I * ((init (fun _ : ZMod 33 => (1 : ℝ)) 33 none).omega k : ℂ) * ((1 : ℝ) : ℂ)) =
      Complex.exp (-Complex.I * ((init (fun _ : ZMod 33 => (1 : ℝ)) 33 none).omega k : ℂ) * ((0 : ℝ) : ℂ)) := by
    rw [Complex.exp_eq_exp_iff_exists_int]
    refine ⟨-freqIdx k, ?_⟩
    simp only [Obj.omega, init, fftfreq]
    push_cast
    ring
  unfold Obj.fourpole
  rw [e]
  push_cast
  ring

/-- **C117.**  Three-pole spectra of at least 25 samples. -/
theorem threepole_shift {o : Obj n} (hfs : 0 < o.fs) (hn : 25 ≤ n) {A B τr τ1 τ2 t A' B' τr' τ1' τ2' t' : ℝ}
    (hr : 0 < τr) (h1 : 0 < τ1) (h2 : 0 < τ2) (hr' : 0 < τr') (h1' : 0 < τ1') (h2' : 0 < τ2')
    (hA : 0 < A) (hB : 0 < B) (hA' : 0 < A') (hB' : 0 < B') (hd : [τ1, τ2, τr].Nodup)
    (h : ∀ k, k ≠ 0 → o.threepole A B τr τ1 τ2 t k = o.threepole A' B' τr' τ1' τ2' t' k) :
    τr = τr' ∧ [(A, τ1), (B, τ2)].Perm [(A', τ1'), (B', τ2')] ∧ ∃ j : ℤ, t' = t + j * (n / o.fs) := by
  have n0 : ∀ p ∈ [(A, τ1), (B, τ2), (-(A + B), τr)], p.1 ≠ 0 := by
    simp; refine ⟨hA.ne', hB.ne', by linarith⟩
  have n0' : ∀ p ∈ [(A', τ1'), (B', τ2'), (-(A' + B'), τr')], p.1 ≠ 0 := by
    simp; refine ⟨hA'.ne', hB'.ne', by linarith⟩
  have hc := spec_shift (l := [(A, τ1), (B, τ2), (-(A + B), τr)])
    (m := [(A', τ1'), (B', τ2'), (-(A' + B'), τr')]) (t := t) (t' := t') hfs
    (by simp; exact ⟨h1.ne', h2.ne', hr.ne'⟩) (by simp; exact ⟨h1'.ne', h2'.ne', hr'.ne'⟩)
    (by simp; omega) (coef_ne hd n0 (by simp)) fun k hk => by
      have e := h k hk
      unfold Obj.threepole at e
      refine mul_right_cancel₀ (df_sqrt_ne hfs) ?_
      simp only [spec, List.map_cons, List.map_nil, List.sum_cons, List.sum_nil]
      push_cast
      linear_combination e
  have hd' := nodup_of_coef (l := [(A, τ1), (B, τ2), (-(A + B), τr)]) hd n0 (by simp) hc.1
  obtain ⟨e1, e2⟩ := falls_perm (F := [(A, τ1), (B, τ2)]) (F' := [(A', τ1'), (B', τ2')])
    (by simp [hA', hB']) (by positivity) (perm_of_coef hd hd' n0 n0' hc.1)
  exact ⟨e1, e2, hc.2⟩

/-- The hypotheses are met with another order and a start time one trace later. -/
example (k : ZMod 25) : [(2 : ℝ), 3, 1].Nodup ∧ (init (fun _ : ZMod 25 => 1) 25 none).threepole 1 2 1 2 3 0 k =
    (init (fun _ : ZMod 25 => 1) 25 none).threepole 2 1 1 3 2 1 k := by
  refine ⟨by norm_num, ?_⟩
  have e : Complex.exp (-Complex.I * ((init (fun _ : ZMod 25 => (1 : ℝ)) 25 none).omega k : ℂ) * ((1 : ℝ) : ℂ)) =
      Complex.exp (-Complex.I * ((init (fun _ : ZMod 25 => (1 : ℝ)) 25 none).omega k : ℂ) * ((0 : ℝ) : ℂ)) := by
    rw [Complex.exp_eq_exp_iff_exists_int]
    refine ⟨-freqIdx k, ?_⟩
    simp only [Obj.omega, init, fftfreq]
    push_cast
    ring
  unfold Obj.threepole
  rw [e]
  push_cast
  ring

/-! ### The fits -/

/-- **C134.**  The two-pole fit of a trace of more than 60 samples whose data are exactly a two-pole pulse, from a
positive guess within a factor 100 of the amplitude, a factor 10 of the times and 30 samples of the start time, succeeds
and returns the pulse with `chi2 = 0`. -/
theorem twopole_fit_recovers {psd : ZMod n → ℝ} {fs errscale : ℝ} {tmpl : Option (List ℝ)} {pulse : ZMod n → ℝ}
    {tau : Option ℝ} {scale : Bool} {solve : List ℝ → List EReal × List EReal → Lsq n} {o : Obj n}
    (ho : o = (init psd fs tmpl).prepare pulse 2 errscale tau scale)
    (hpsd : ∀ k, k ≠ 0 → 0 < psd k) (herr : 0 < errscale) (hfs : 0 < fs) (hn : 60 < n)
    {A₀ r₀ f₀ t₀ : ℝ} (hA₀ : 0 < A₀) (hr₀ : 0 < r₀) (hf₀ : 0 < f₀) (ht₀ : 0 < t₀) (hne₀ : r₀ ≠ f₀)
    {A τr τf t : ℝ} (hA : Near 100 A₀ A) (hr : Near 10 r₀ τr) (hf : Near 10 f₀ τf) (ht : NearTime fs t₀ t)
    (hne : τr ≠ τf) {m : ZMod n → ℂ} (hm : o.twopole A τr τf t = .ok m)
    (hdata : ∀ k, fftR pulse k / (Real.sqrt (fs * n) : ℂ) = m k) (hsolve : Finds o.residuals solve) :
    ∃ r, (init psd fs tmpl).fit pulse 2 errscale (some [A₀, r₀, f₀, t₀]) none tau scale solve = (o, .ok r) ∧
      r.lsq.x = [A, τr, τf, t] ∧ r.chi2 = 0 := by
  have herrs : ∀ k, 0 < o.error k := fun k => by subst ho; exact error_pos tmpl pulse 2 tau scale hpsd herr k
  have hnp : o.npole = 2 := by subst ho; rfl
  have hofs : o.fs = fs := by subst ho; rfl
  have hmod : ∀ a b c d, o.model [a, b, c, d] = o.twopole a b c d := by
    intro a b c d
    unfold Obj.model
    rw [hnp]
    simp
  have hstart : o.start pulse (some [A₀, r₀, f₀, t₀]) = .ok [A₀, r₀, f₀, t₀] := by
    unfold Obj.start
    simp [hnp]
  have hb : o.defaultBounds [A₀, r₀, f₀, t₀] = ([((A₀ / 100 : ℝ) : EReal), (r₀ / 10 : ℝ), (f₀ / 10 : ℝ),
      (t₀ - 30 / fs : ℝ)], [((A₀ * 100 : ℝ) : EReal), (r₀ * 10 : ℝ), (f₀ * 10 : ℝ), (t₀ + 30 / fs : ℝ)]) := by
    unfold Obj.defaultBounds
    simp [hnp, hofs]
  have h30 : 0 < 30 / fs := by positivity
  have hm0 : ∃ m0, o.twopole A₀ r₀ f₀ t₀ = .ok m0 := twopole_defined hr₀ hf₀ hne₀
  obtain ⟨m0, hm0⟩ := hm0
  obtain ⟨r, hrun, hchi, hw, m', hm', hd⟩ := run_exact (bounds := none) (tau := tau) (pulse := pulse) herrs hsolve
    (by simp [hnp]) (by rw [hnp]; show 4 < n; omega) hstart
    (by
      rw [Option.getD_none, hb]
      refine lsqValid_of rfl rfl ?_ ?_ ?_
      · simp only [List.zip_cons_cons, List.zip_nil_right, List.forall_mem_cons, EReal.coe_lt_coe_iff]
        exact ⟨by linarith, by linarith, by linarith, by linarith, by simp⟩
      · simp only [List.zip_cons_cons, List.zip_nil_right, List.forall_mem_cons, EReal.coe_lt_coe_iff]
        exact ⟨by linarith, by linarith, by linarith, by linarith, by simp⟩
      · simp [hA₀, hr₀, hf₀, ht₀])
    (by rw [hmod]; exact hm0) (x := [A, τr, τf, t])
    (by
      rw [Option.getD_none, hb]
      simp only [Within, List.forall₂_cons, List.forall₂_nil_left_iff, EReal.coe_le_coe_iff]
      exact ⟨⟨hA.1, hr.1, hf.1, ht.1, trivial⟩, hA.2, hr.2, hf.2, ht.2, trivial⟩)
    (by rw [hmod]; exact hm) (fun k => by subst ho; exact hdata k)
  rw [Option.getD_none, hb] at hw
  obtain ⟨a, b, c, d, hx, ha, hb', hc, hd'⟩ := within_four hw
  rw [hx, hmod] at hm'
  have hAp : 0 < A := lt_of_lt_of_le (by positivity) hA.1
  have hrp : 0 < τr := lt_of_lt_of_le (by positivity) hr.1
  have hfp : 0 < τf := lt_of_lt_of_le (by positivity) hf.1
  obtain ⟨rfl, rfl, rfl, j, hj⟩ := (twopole_params (hofs ▸ hfs) (by omega) hAp (lt_of_lt_of_le (by positivity) ha.1)
    hrp hfp (lt_of_lt_of_le (by positivity) hb'.1) (lt_of_lt_of_le (by positivity) hc.1) hne hm hm').1 fun k _ => by
      rw [← hd k, ← hdata k]; subst ho; rfl
  rw [hofs] at hj
  have := time_eq hfs hn hj hd'.1 hd'.2 ht.1 ht.2
  subst this
  refine ⟨r, ?_, hx, hchi⟩
  unfold Obj.fit
  rw [Prod.mk.injEq]
  exact ⟨ho.symm, by rw [← ho]; exact hrun⟩

/-- A trace of 61 samples which meets the hypotheses, and an optimiser, for the scaled model. -/
example : ∃ (pulse : ZMod 61 → ℝ) (m : ZMod 61 → ℂ) (solve : List ℝ → List EReal × List EReal → Lsq 61),
    ((init (fun _ => 1) 1 none).prepare pulse 2 1 none true).twopole 2 1 3 7 = .ok m ∧
    (∀ k, fftR pulse k / (Real.sqrt (1 * (61 : ℕ)) : ℂ) = m k) ∧
    Finds ((init (fun _ => 1) 1 none).prepare pulse 2 1 none true).residuals solve ∧
    Near 100 1 2 ∧ Near 10 2 1 ∧ Near 10 4 3 ∧ NearTime 1 5 7 := by
  obtain ⟨m, hm⟩ := twopole_defined (o := (init (fun _ : ZMod 61 => 1) 1 none).prepare 0 2 1 none true) (A := 2)
    (τr := 1) (τf := 3) (t := 7) (by norm_num) (by norm_num) (by norm_num)
  obtain ⟨pulse, hp⟩ := exact_trace (by decide) (show (0 : ℝ) < 1 from one_pos) one_pos (by norm_num) hm
  obtain ⟨solve, hs⟩ := exists_finds (n := 61) ((init (fun _ => 1) 1 none).prepare pulse 2 1 none true).residuals
  exact ⟨pulse, m, solve, hm, hp, hs, by norm_num [Near], by norm_num [Near], by norm_num [Near], by norm_num [NearTime]⟩

/-- **C134.**  The one-pole fit, given the true rise time. -/
theorem onepole_fit_recovers {psd : ZMod n → ℝ} {fs errscale : ℝ} {tmpl : Option (List ℝ)} {pulse : ZMod n → ℝ}
    {τr : ℝ} {scale : Bool} {solve : List ℝ → List EReal × List EReal → Lsq n} {o : Obj n}
    (ho : o = (init psd fs tmpl).prepare pulse 1 errscale (some τr) scale)
    (hpsd : ∀ k, k ≠ 0 → 0 < psd k) (herr : 0 < errscale) (hfs : 0 < fs) (hn : 60 < n) (hr : 0 < τr)
    {A₀ f₀ t₀ : ℝ} (hA₀ : 0 < A₀) (hf₀ : 0 < f₀) (ht₀ : 0 < t₀) (hne₀ : τr ≠ f₀)
    {A τf t : ℝ} (hA : Near 100 A₀ A) (hf : Near 10 f₀ τf) (ht : NearTime fs t₀ t)
    (hne : τr ≠ τf) {m : ZMod n → ℂ} (hm : o.twopole A τr τf t = .ok m)
    (hdata : ∀ k, fftR pulse k / (Real.sqrt (fs * n) : ℂ) = m k) (hsolve : Finds o.residuals solve) :
    ∃ r, (init psd fs tmpl).fit pulse 1 errscale (some [A₀, f₀, t₀]) none (some τr) scale solve = (o, .ok r) ∧
      r.lsq.x = [A, τf, t] ∧ r.chi2 = 0 := by
  have herrs : ∀ k, 0 < o.error k := fun k => by subst ho; exact error_pos tmpl pulse 1 (some τr) scale hpsd herr k
  have hnp : o.npole = 1 := by subst ho; rfl
  have hofs : o.fs = fs := by subst ho; rfl
  have htau : o.taurise = some τr := by subst ho; simp [Obj.prepare]
  have hmod : ∀ a b c, o.model [a, b, c] = o.twopole a τr b c := by
    intro a b c
    unfold Obj.model
    rw [hnp]
    simp [onepole_eq htau]
  have hstart : o.start pulse (some [A₀, f₀, t₀]) = .ok [A₀, f₀, t₀] := by
    unfold Obj.start
    simp [hnp]
  have hb : o.defaultBounds [A₀, f₀, t₀] = ([((A₀ / 100 : ℝ) : EReal), (f₀ / 10 : ℝ), (t₀ - 30 / fs : ℝ)],
      [((A₀ * 100 : ℝ) : EReal), (f₀ * 10 : ℝ), (t₀ + 30 / fs : ℝ)]) := by
    unfold Obj.defaultBounds
    simp [hnp, hofs]
  have h30 : 0 < 30 / fs := by positivity
  have hm0 : ∃ m0, o.twopole A₀ τr f₀ t₀ = .ok m0 := twopole_defined hr hf₀ hne₀
  obtain ⟨m0, hm0⟩ := hm0
  obtain ⟨r, hrun, hchi, hw, m', hm', hd⟩ := run_exact (bounds := none) (tau := some τr) (pulse := pulse) herrs hsolve
    (by simp) (by rw [hnp]; show 3 < n; omega) hstart
    (by
      rw [Option.getD_none, hb]
      refine lsqValid_of rfl rfl ?_ ?_ ?_
      · simp only [List.zip_cons_cons, List.zip_nil_right, List.forall_mem_cons, EReal.coe_lt_coe_iff]
        exact ⟨by linarith, by linarith, by linarith, by simp⟩
      · simp only [List.zip_cons_cons, List.zip_nil_right, List.forall_mem_cons, EReal.coe_lt_coe_iff]
        exact ⟨by linarith, by linarith, by linarith, by simp⟩
      · simp [hA₀, hf₀, ht₀])
    (by rw [hmod]; exact hm0) (x := [A, τf, t])
    (by
      rw [Option.getD_none, hb]
      simp only [Within, List.forall₂_cons, List.forall₂_nil_left_iff, EReal.coe_le_coe_iff]
      exact ⟨⟨hA.1, hf.1, ht.1, trivial⟩, hA.2, hf.2, ht.2, trivial⟩)
    (by rw [hmod]; exact hm) (fun k => by subst ho; exact hdata k)
  rw [Option.getD_none, hb] at hw
  obtain ⟨a, c, d, hx, ha, hc, hd'⟩ := within_three hw
  rw [hx, hmod] at hm'
  obtain ⟨rfl, -, rfl, j, hj⟩ := (twopole_params (hofs ▸ hfs) (by omega) (lt_of_lt_of_le (by positivity) hA.1)
    (lt_of_lt_of_le (by positivity) ha.1) hr (lt_of_lt_of_le (by positivity) hf.1) hr
    (lt_of_lt_of_le (by positivity) hc.1) hne hm hm').1 fun k _ => by
      rw [← hd k, ← hdata k]; subst ho; rfl
  rw [hofs] at hj
  have := time_eq hfs hn hj hd'.1 hd'.2 ht.1 ht.2
  subst this
  refine ⟨r, ?_, hx, hchi⟩
  unfold Obj.fit
  rw [Prod.mk.injEq]
  exact ⟨ho.symm, by rw [← ho]; exact hrun⟩

/-- A trace of 61 samples which meets the hypotheses, and an optimiser. -/
example : ∃ (pulse : ZMod 61 → ℝ) (m : ZMod 61 → ℂ) (solve : List ℝ → List EReal × List EReal → Lsq 61),
    ((init (fun _ => 1) 1 none).prepare pulse 1 1 (some 1) true).twopole 2 1 3 7 = .ok m ∧
    (∀ k, fftR pulse k / (Real.sqrt (1 * (61 : ℕ)) : ℂ) = m k) ∧
    Finds ((init (fun _ => 1) 1 none).prepare pulse 1 1 (some 1) true).residuals solve ∧
    Near 100 1 2 ∧ Near 10 4 3 ∧ NearTime 1 5 7 := by
  obtain ⟨m, hm⟩ := twopole_defined (o := (init (fun _ : ZMod 61 => 1) 1 none).prepare 0 1 1 (some 1) true) (A := 2)
    (τr := 1) (τf := 3) (t := 7) (by norm_num) (by norm_num) (by norm_num)
  obtain ⟨pulse, hp⟩ := exact_trace (by decide) (show (0 : ℝ) < 1 from one_pos) one_pos (by norm_num) hm
  obtain ⟨solve, hs⟩ := exists_finds (n := 61) ((init (fun _ => 1) 1 none).prepare pulse 1 1 (some 1) true).residuals
  exact ⟨pulse, m, solve, hm, hp, hs, by norm_num [Near], by norm_num [Near], by norm_num [NearTime]⟩

/-- **C134.**  The three-pole fit: the terms are returned in some order. -/
theorem threepole_fit_recovers {psd : ZMod n → ℝ} {fs errscale : ℝ} {tmpl : Option (List ℝ)} {pulse : ZMod n → ℝ}
    {tau : Option ℝ} {scale : Bool} {solve : List ℝ → List EReal × List EReal → Lsq n} {o : Obj n}
    (ho : o = (init psd fs tmpl).prepare pulse 3 errscale tau scale)
    (hpsd : ∀ k, k ≠ 0 → 0 < psd k) (herr : 0 < errscale) (hfs : 0 < fs) (hn : 60 < n)
    {A₀ B₀ r₀ f₁ f₂ t₀ : ℝ} (hA₀ : 0 < A₀) (hB₀ : 0 < B₀) (hr₀ : 0 < r₀) (hf₁ : 0 < f₁) (hf₂ : 0 < f₂) (ht₀ : 0 < t₀)
    {A B τr τ1 τ2 t : ℝ} (hA : Near 100 A₀ A) (hB : Near 100 B₀ B) (hr : Near 10 r₀ τr) (h1 : Near 10 f₁ τ1)
    (h2 : Near 10 f₂ τ2) (ht : NearTime fs t₀ t) (hd : [τ1, τ2, τr].Nodup)
    (hdata : ∀ k, fftR pulse k / (Real.sqrt (fs * n) : ℂ) = o.threepole A B τr τ1 τ2 t k)
    (hsolve : Finds o.residuals solve) :
    ∃ r A' B' τ1' τ2', (init psd fs tmpl).fit pulse 3 errscale (some [A₀, B₀, r₀, f₁, f₂, t₀]) none tau scale solve =
        (o, .ok r) ∧ r.lsq.x = [A', B', τr, τ1', τ2', t] ∧ [(A', τ1'), (B', τ2')].Perm [(A, τ1), (B, τ2)] ∧
      r.chi2 = 0 := by
  have herrs : ∀ k, 0 < o.error k := fun k => by subst ho; exact error_pos tmpl pulse 3 tau scale hpsd herr k
  have hnp : o.npole = 3 := by subst ho; rfl
  have hofs : o.fs = fs := by subst ho; rfl
  have hmod : ∀ a b c d e f, o.model [a, b, c, d, e, f] = .ok (o.threepole a b c d e f) := by
    intro a b c d e f
    unfold Obj.model
    rw [hnp]
    simp
  have hstart : o.start pulse (some [A₀, B₀, r₀, f₁, f₂, t₀]) = .ok [A₀, B₀, r₀, f₁, f₂, t₀] := by
    unfold Obj.start
    simp [hnp]
  have hb : o.defaultBounds [A₀, B₀, r₀, f₁, f₂, t₀] = ([((A₀ / 100 : ℝ) : EReal), (B₀ / 100 : ℝ), (r₀ / 10 : ℝ),
      (f₁ / 10 : ℝ), (f₂ / 10 : ℝ), (t₀ - 30 / fs : ℝ)], [((A₀ * 100 : ℝ) : EReal), (B₀ * 100 : ℝ), (r₀ * 10 : ℝ),
      (f₁ * 10 : ℝ), (f₂ * 10 : ℝ), (t₀ + 30 / fs : ℝ)]) := by
    unfold Obj.defaultBounds
    simp [hnp, hofs]
  have h30 : 0 < 30 / fs := by positivity
  obtain ⟨r, hrun, hchi, hw, m', hm', hd'⟩ := run_exact (bounds := none) (tau := tau) (pulse := pulse) herrs hsolve
    (by simp [hnp]) (by rw [hnp]; show 6 < n; omega) hstart
    (by
      rw [Option.getD_none, hb]
      refine lsqValid_of rfl rfl ?_ ?_ ?_
      · simp only [List.zip_cons_cons, List.zip_nil_right, List.forall_mem_cons, EReal.coe_lt_coe_iff]
        exact ⟨by linarith, by linarith, by linarith, by linarith, by linarith, by linarith, by simp⟩
      · simp only [List.zip_cons_cons, List.zip_nil_right, List.forall_mem_cons, EReal.coe_lt_coe_iff]
        exact ⟨by linarith, by linarith, by linarith, by linarith, by linarith, by linarith, by simp⟩
      · simp [hA₀, hB₀, hr₀, hf₁, hf₂, ht₀])
    (hmod _ _ _ _ _ _) (x := [A, B, τr, τ1, τ2, t])
    (by
      rw [Option.getD_none, hb]
      simp only [Within, List.forall₂_cons, List.forall₂_nil_left_iff, EReal.coe_le_coe_iff]
      exact ⟨⟨hA.1, hB.1, hr.1, h1.1, h2.1, ht.1, trivial⟩, hA.2, hB.2, hr.2, h1.2, h2.2, ht.2, trivial⟩)
    (hmod _ _ _ _ _ _) (fun k => by rw [← hdata k]; subst ho; rfl)
  rw [Option.getD_none, hb] at hw
  obtain ⟨A', B', τr', τ1', τ2', t', hx, hA', hB', hr', h1', h2', ht'⟩ := within_six hw
  rw [hx, hmod] at hm'
  cases hm'
  obtain ⟨rfl, hp, j, hj⟩ := threepole_shift (hofs ▸ hfs) (by omega) (lt_of_lt_of_le (by positivity) hr.1)
    (lt_of_lt_of_le (by positivity) h1.1) (lt_of_lt_of_le (by positivity) h2.1)
    (lt_of_lt_of_le (by positivity) hr'.1) (lt_of_lt_of_le (by positivity) h1'.1)
    (lt_of_lt_of_le (by positivity) h2'.1) (lt_of_lt_of_le (by positivity) hA.1)
    (lt_of_lt_of_le (by positivity) hB.1) (lt_of_lt_of_le (by positivity) hA'.1)
    (lt_of_lt_of_le (by positivity) hB'.1) hd fun k _ => by
      rw [← hd' k, ← hdata k]; subst ho; rfl
  rw [hofs] at hj
  have := time_eq hfs hn hj ht.1 ht.2 ht'.1 ht'.2
  subst this
  refine ⟨r, A', B', τ1', τ2', ?_, hx, hp.symm, hchi⟩
  unfold Obj.fit
  rw [Prod.mk.injEq]
  exact ⟨ho.symm, by rw [← ho]; exact hrun⟩

/-- A trace of 61 samples which meets the hypotheses, and an optimiser. -/
example : ∃ (pulse : ZMod 61 → ℝ) (solve : List ℝ → List EReal × List EReal → Lsq 61),
    (∀ k, fftR pulse k / (Real.sqrt (1 * (61 : ℕ)) : ℂ) =
      ((init (fun _ => 1) 1 none).prepare pulse 3 1 none true).threepole 2 1 1 3 4 7 k) ∧
    Finds ((init (fun _ => 1) 1 none).prepare pulse 3 1 none true).residuals solve ∧ [(3 : ℝ), 4, 1].Nodup ∧
    Near 100 1 2 ∧ Near 100 1 1 ∧ Near 10 2 1 ∧ Near 10 4 3 ∧ Near 10 5 4 ∧ NearTime 1 5 7 := by
  obtain ⟨pulse, hp⟩ := trace_of_herm (show (0 : ℝ) < 1 from one_pos) (threepole_herm
    (o := (init (fun _ : ZMod 61 => 1) 1 none).prepare 0 3 1 none true) (by decide) 2 1 1 3 4 7)
  obtain ⟨solve, hs⟩ := exists_finds (n := 61) ((init (fun _ => 1) 1 none).prepare pulse 3 1 none true).residuals
  refine ⟨pulse, solve, hp, hs, by norm_num, ?_⟩
  norm_num [Near, NearTime]

/-- **C134.**  The four-pole fit: the terms are returned in some order. -/
theorem fourpole_fit_recovers {psd : ZMod n → ℝ} {fs errscale : ℝ} {tmpl : Option (List ℝ)} {pulse : ZMod n → ℝ}
    {tau : Option ℝ} {scale : Bool} {solve : List ℝ → List EReal × List EReal → Lsq n} {o : Obj n}
    (ho : o = (init psd fs tmpl).prepare pulse 4 errscale tau scale)
    (hpsd : ∀ k, k ≠ 0 → 0 < psd k) (herr : 0 < errscale) (hfs : 0 < fs) (hn : 60 < n)
    {A₀ B₀ C₀ r₀ f₁ f₂ f₃ t₀ : ℝ} (hA₀ : 0 < A₀) (hB₀ : 0 < B₀) (hC₀ : 0 < C₀) (hr₀ : 0 < r₀) (hf₁ : 0 < f₁)
    (hf₂ : 0 < f₂) (hf₃ : 0 < f₃) (ht₀ : 0 < t₀) {A B C τr τ1 τ2 τ3 t : ℝ} (hA : Near 100 A₀ A) (hB : Near 100 B₀ B)
    (hC : Near 100 C₀ C) (hr : Near 10 r₀ τr) (h1 : Near 10 f₁ τ1) (h2 : Near 10 f₂ τ2) (h3 : Near 10 f₃ τ3)
    (ht : NearTime fs t₀ t) (hd : [τ1, τ2, τ3, τr].Nodup)
    (hdata : ∀ k, fftR pulse k / (Real.sqrt (fs * n) : ℂ) = o.fourpole A B C τr τ1 τ2 τ3 t k)
    (hsolve : Finds o.residuals solve) :
    ∃ r A' B' C' τ1' τ2' τ3', (init psd fs tmpl).fit pulse 4 errscale (some [A₀, B₀, C₀, r₀, f₁, f₂, f₃, t₀]) none tau
        scale solve = (o, .ok r) ∧ r.lsq.x = [A', B', C', τr, τ1', τ2', τ3', t] ∧
      [(A', τ1'), (B', τ2'), (C', τ3')].Perm [(A, τ1), (B, τ2), (C, τ3)] ∧ r.chi2 = 0 := by
  have herrs : ∀ k, 0 < o.error k := fun k => by subst ho; exact error_pos tmpl pulse 4 tau scale hpsd herr k
  have hnp : o.npole = 4 := by subst ho; rfl
  have hofs : o.fs = fs := by subst ho; rfl
  have hmod : ∀ a b c d e f g i, o.model [a, b, c, d, e, f, g, i] = .ok (o.fourpole a b c d e f g i) := by
    intro a b c d e f g i
    unfold Obj.model
    rw [hnp]
    simp
  have hstart : o.start pulse (some [A₀, B₀, C₀, r₀, f₁, f₂, f₃, t₀]) = .ok [A₀, B₀, C₀, r₀, f₁, f₂, f₃, t₀] := by
    unfold Obj.start
    simp [hnp]
  have hb : o.defaultBounds [A₀, B₀, C₀, r₀, f₁, f₂, f₃, t₀] = ([((A₀ / 100 : ℝ) : EReal), (B₀ / 100 : ℝ),
      (C₀ / 100 : ℝ), (r₀ / 10 : ℝ), (f₁ / 10 : ℝ), (f₂ / 10 : ℝ), (f₃ / 10 : ℝ), (t₀ - 30 / fs : ℝ)],
      [((A₀ * 100 : ℝ) : EReal), (B₀ * 100 : ℝ), (C₀ * 100 : ℝ), (r₀ * 10 : ℝ), (f₁ * 10 : ℝ), (f₂ * 10 : ℝ),
      (f₃ * 10 : ℝ), (t₀ + 30 / fs : ℝ)]) := by
    unfold Obj.defaultBounds
    simp [hnp, hofs]
  have h30 : 0 < 30 / fs := by positivity
  obtain ⟨r, hrun, hchi, hw, m', hm', hd'⟩ := run_exact (bounds := none) (tau := tau) (pulse := pulse) herrs hsolve
    (by simp [hnp]) (by rw [hnp]; show 8 < n; omega) hstart
    (by
      rw [Option.getD_none, hb]
      refine lsqValid_of rfl rfl ?_ ?_ ?_
      · simp only [List.zip_cons_cons, List.zip_nil_right, List.forall_mem_cons, EReal.coe_lt_coe_iff]
        exact ⟨by linarith, by linarith, by linarith, by linarith, by linarith, by linarith, by linarith, by linarith,
          by simp⟩
      · simp only [List.zip_cons_cons, List.zip_nil_right, List.forall_mem_cons, EReal.coe_lt_coe_iff]
        exact ⟨by linarith, by linarith, by linarith, by linarith, by linarith, by linarith, by linarith, by linarith,
          by simp⟩
      · simp [hA₀, hB₀, hC₀, hr₀, hf₁, hf₂, hf₃, ht₀])
    (hmod _ _ _ _ _ _ _ _) (x := [A, B, C, τr, τ1, τ2, τ3, t])
    (by
      rw [Option.getD_none, hb]
      simp only [Within, List.forall₂_cons, List.forall₂_nil_left_iff, EReal.coe_le_coe_iff]
      exact ⟨⟨hA.1, hB.1, hC.1, hr.1, h1.1, h2.1, h3.1, ht.1, trivial⟩, hA.2, hB.2, hC.2, hr.2, h1.2, h2.2, h3.2, ht.2,
        trivial⟩)
    (hmod _ _ _ _ _ _ _ _) (fun k => by rw [← hdata k]; subst ho; rfl)
  rw [Option.getD_none, hb] at hw
  obtain ⟨A', B', C', τr', τ1', τ2', τ3', t', hx, hA', hB', hC', hr', h1', h2', h3', ht'⟩ := within_eight hw
  rw [hx, hmod] at hm'
  cases hm'
  obtain ⟨rfl, hp, j, hj⟩ := fourpole_shift (hofs ▸ hfs) (by omega) (lt_of_lt_of_le (by positivity) hr.1)
    (lt_of_lt_of_le (by positivity) h1.1) (lt_of_lt_of_le (by positivity) h2.1) (lt_of_lt_of_le (by positivity) h3.1)
    (lt_of_lt_of_le (by positivity) hr'.1) (lt_of_lt_of_le (by positivity) h1'.1)
    (lt_of_lt_of_le (by positivity) h2'.1) (lt_of_lt_of_le (by positivity) h3'.1)
    (lt_of_lt_of_le (by positivity) hA.1) (lt_of_lt_of_le (by positivity) hB.1) (lt_of_lt_of_le (by positivity) hC.1)
    (lt_of_lt_of_le (by positivity) hA'.1) (lt_of_lt_of_le (by positivity) hB'.1)
    (lt_of_lt_of_le (by positivity) hC'.1) hd fun k _ => by
      rw [← hd' k, ← hdata k]; subst ho; rfl
  rw [hofs] at hj
  have := time_eq hfs hn hj ht.1 ht.2 ht'.1 ht'.2
  subst this
  refine ⟨r, A', B', C', τ1', τ2', τ3', ?_, hx, hp.symm, hchi⟩
  unfold Obj.fit
  rw [Prod.mk.injEq]
  exact ⟨ho.symm, by rw [← ho]; exact hrun⟩

/-- A trace of 61 samples which meets the hypotheses, and an optimiser. -/
example : ∃ (pulse : ZMod 61 → ℝ) (solve : List ℝ → List EReal × List EReal → Lsq 61),
    (∀ k, fftR pulse k / (Real.sqrt (1 * (61 : ℕ)) : ℂ) =
      ((init (fun _ => 1) 1 none).prepare pulse 4 1 none true).fourpole 2 1 3 1 3 4 5 7 k) ∧
    Finds ((init (fun _ => 1) 1 none).prepare pulse 4 1 none true).residuals solve ∧ [(3 : ℝ), 4, 5, 1].Nodup ∧
    Near 100 1 2 ∧ Near 100 1 1 ∧ Near 100 1 3 ∧ Near 10 2 1 ∧ Near 10 4 3 ∧ Near 10 5 4 ∧ Near 10 5 5 ∧
      NearTime 1 5 7 := by
  obtain ⟨pulse, hp⟩ := trace_of_herm (show (0 : ℝ) < 1 from one_pos) (fourpole_herm
    (o := (init (fun _ : ZMod 61 => 1) 1 none).prepare 0 4 1 none true) (by decide) 2 1 3 1 3 4 5 7)
  obtain ⟨solve, hs⟩ := exists_finds (n := 61) ((init (fun _ => 1) 1 none).prepare pulse 4 1 none true).residuals
  refine ⟨pulse, solve, hp, hs, by norm_num, ?_⟩
  norm_num [Near, NearTime]

/-! ### The muon tail -/

/-- **C134.**  `fitmuontail` on data which are exactly a muon tail, whose amplitude and decay time are at most 100 times
the values guessed from the trace (the height of the trace, and the time of the sample closest to `1/e` of it), succeeds
and returns amplitude and decay time with `chi2 = 0`. -/
theorem muon_fit_recovers {psd : ZMod n → ℝ} {fs errscale : ℝ} {signal : ZMod n → ℝ}
    {solve : List ℝ → List EReal × List EReal → Lsq n} (hpsd : ∀ k, 0 < psd k) (herr : 0 < errscale) (hfs : 0 < fs)
    (hn : 2 ≤ n) {A τ tau : ℝ} (hA : 0 < A) (hτ : 0 < τ) (hA' : A ≤ ampscale signal * 100)
    (htau : muonTau fs signal = .ok tau) (hτ' : τ ≤ tau * 100)
    (hdata : ∀ k, fftR signal k / (Real.sqrt (fs * n) : ℂ) = (Muon.prepare psd fs signal errscale).fcn A τ k)
    (hsolve : Finds (muonRes (Muon.prepare psd fs signal errscale)) solve) :
    ∃ r, muonFit psd fs signal errscale solve = .ok r ∧ r.lsq.x = [A, τ] ∧ r.chi2 = 0 := by
  set o := Muon.prepare psd fs signal errscale with ho
  have herrs : ∀ k, 0 < o.error k := fun k => Real.sqrt_pos.2 (div_pos (hpsd k) herr)
  have hamp : 0 < ampscale signal := by linarith
  have htp : 0 < tau := by linarith
  have hd : ∀ k, o.data k = o.fcn A τ k := hdata
  set b : List EReal × List EReal :=
    ([((0 : ℝ) : EReal), (0 : ℝ)], [((ampscale signal * 100 : ℝ) : EReal), (tau * 100 : ℝ)]) with hb
  have hbest : IsBest (muonRes o) b [A, τ] := by
    refine ⟨?_, _, rfl, fun x' r' _ _ => ?_⟩
    · simp only [hb, Within, List.forall₂_cons, List.forall₂_nil_left_iff, EReal.coe_le_coe_iff, and_true]
      exact ⟨⟨hA.le, hτ.le⟩, hA', hτ'⟩
    · rw [Muon.residuals, (sq_zero_iff herrs).2 hd]
      exact sq_sum_nonneg r'
  obtain ⟨hw, r, hr, hmin⟩ := hsolve [ampscale signal, tau] b ⟨_, hbest⟩
  obtain ⟨A', τ', hx, hA1, hτ1⟩ : ∃ A' τ', (solve [ampscale signal, tau] b).x = [A', τ'] ∧ 0 ≤ A' ∧ 0 ≤ τ' := by
    have hl := hw.1.length_eq
    match hx : (solve [ampscale signal, tau] b).x, hl with
    | [a, c], _ =>
      rw [hx] at hw
      simp only [hb, Within, List.forall₂_cons, List.forall₂_nil_left_iff, EReal.coe_le_coe_iff, and_true] at hw
      exact ⟨a, c, rfl, hw.1⟩
  rw [hx] at hr
  cases hr
  have hd' : ∀ k, o.data k = o.fcn A' τ' k := by
    refine (sq_zero_iff herrs).1 (le_antisymm ?_ (sq_sum_nonneg _))
    refine (hmin [A, τ] _ hbest.1 rfl).trans ?_
    rw [Muon.residuals, (sq_zero_iff herrs).2 hd]
  have hk : ((1 : ℕ) : ZMod n) ≠ 0 := bin_ne le_rfl (by omega)
  have h1 : o.fcn A τ ((1 : ℕ) : ZMod n) = o.fcn A' τ' ((1 : ℕ) : ZMod n) := by rw [← hd, hd']
  have hτ2 : 0 < τ' := by
    rcases hτ1.lt_or_eq with h | h
    · exact h
    · exfalso
      rw [← h] at h1
      have hn0 : (0 : ℝ) < n := by exact_mod_cast NeZero.pos n
      have hs : ((Real.sqrt (fs / n) : ℝ) : ℂ) ≠ 0 := by exact_mod_cast (Real.sqrt_pos.2 (by positivity)).ne'
      unfold Muon.fcn at h1
      rw [Complex.ofReal_zero, mul_zero, zero_div, zero_mul] at h1
      refine mul_ne_zero (div_ne_zero (mul_ne_zero ?_ ?_) (one_add_I_ne' _ τ)) hs h1
      · exact_mod_cast hA.ne'
      · exact_mod_cast hτ.ne'
  obtain ⟨rfl, rfl⟩ := muon_params (o := o) hfs hA.ne' hτ hτ2 hk h1
  have hchi : o.calcchi2 (o.fcn A τ) = 0 := by
    unfold Muon.calcchi2
    exact Finset.sum_eq_zero fun k _ => by rw [hd k]; simp
  unfold muonFit
  simp only
  rw [htau]
  simp only
  rw [← ho]
  rw [show (([0, 0], [((ampscale signal * 100 : ℝ) : EReal), ((tau * 100 : ℝ) : EReal)]) : List EReal × List EReal) = b
    from rfl]
  rw [if_neg, if_neg]
  · split
    · rename_i A' τ' hx'
      have := hx.symm.trans hx'
      simp only [List.cons.injEq, and_true] at this
      obtain ⟨rfl, rfl⟩ := this
      exact ⟨_, rfl, hx, hchi⟩
    · rename_i hne
      exact absurd hx (hne A τ)
  · rintro ⟨k, hk⟩
    exact absurd hk (not_le.2 (herrs k))
  · rw [not_not]
    refine ⟨rfl, rfl, ?_, ?_, ?_, ?_⟩ <;>
      simp only [hb, List.zip_cons_cons, List.zip_nil_right, List.forall_mem_cons, EReal.coe_lt_coe_iff,
        EReal.coe_le_coe_iff]
    · exact ⟨by linarith, by linarith, by simp⟩
    · exact ⟨hamp.le, htp.le, by simp⟩
    · exact ⟨by linarith, by linarith, by simp⟩
    · exact ⟨abs_pos.2 hamp.ne', abs_pos.2 htp.ne', by simp⟩

/-- A trace of three samples which meets the hypotheses, and an optimiser. -/
theorem exMuon_fit : ∃ (tau : ℝ) (solve : List ℝ → List EReal × List EReal → Lsq 3),
    4 * Real.pi / (3 * Real.sqrt 3) ≤ ampscale exMuon * 100 ∧ muonTau (3 / (2 * Real.pi)) exMuon = .ok tau ∧
    Real.sqrt 3 ≤ tau * 100 ∧ (∀ k, fftR exMuon k / (Real.sqrt (3 / (2 * Real.pi) * (3 : ℕ)) : ℂ) =
      (Muon.prepare (fun _ => 1) (3 / (2 * Real.pi)) exMuon 1).fcn (4 * Real.pi / (3 * Real.sqrt 3)) (Real.sqrt 3) k) ∧
    Finds (muonRes (Muon.prepare (fun _ => 1) (3 / (2 * Real.pi)) exMuon 1)) solve := by
  have hpi := Real.two_le_pi
  have hpi4 := Real.pi_le_four
  have h3 : 1 ≤ Real.sqrt 3 := Real.one_le_sqrt.2 (by norm_num)
  have h3' : Real.sqrt 3 ≤ 2 := Real.sqrt_le_iff.2 ⟨by norm_num, by norm_num⟩
  have he : 2 < Real.exp 1 := by
    have := Real.add_one_lt_exp (one_ne_zero (α := ℝ))
    linarith
  have hc : 1 / Real.exp 1 < 1 / 2 := one_div_lt_one_div_of_lt (by norm_num) he
  have hc0 : 0 < 1 / Real.exp 1 := by positivity
  obtain ⟨tau, ht, ht1⟩ := muonTau_pos (fs := 3 / (2 * Real.pi)) (signal := exMuon) (j := 2) (by positivity) (by
    have h2 : exMuon 2 = 0 := by simp [exMuon]
    have h0 : exMuon 0 = 1 := rfl
    rw [exMuon_amp, h2, h0, zero_sub, abs_neg, abs_of_pos hc0, abs_of_pos (by linarith)]
    linarith)
  obtain ⟨solve, hs⟩ := exists_finds (n := 3) (muonRes (Muon.prepare (fun _ => 1) (3 / (2 * Real.pi)) exMuon 1))
  refine ⟨tau, solve, ?_, ht, ?_, exMuon_exact _, hs⟩
  · rw [exMuon_amp, div_le_iff₀ (by positivity)]
    nlinarith
  · have : (1 : ℝ) / (3 / (2 * Real.pi)) = 2 * Real.pi / 3 := by field_simp
    linarith

/-! ### Even numbers of samples -/

/-- **C134.**  Exact data need an odd number of samples: with an even number of samples, no trace has the data of a
two-pole pulse which starts on a sample. -/
theorem even_not_exact {o : Obj n} {a : ℕ} (ha : n = 2 * a) (hfs : 0 < o.fs) {A τr τf t : ℝ} (hA : A ≠ 0) (hr : 0 < τr)
    (hf : 0 < τf) (hne : τr ≠ τf) {s : ℤ} (ht : t * o.fs = s) {m : ZMod n → ℂ} (hm : o.twopole A τr τf t = .ok m) :
    ¬ ∃ pulse : ZMod n → ℝ, ∀ k, fftR pulse k / (Real.sqrt (o.fs * n) : ℂ) = m k := by
  rintro ⟨pulse, h⟩
  have hn0 : 0 < n := NeZero.pos n
  have ha0 : 0 < a := by omega
  have hk := h ((a : ℕ) : ZMod n)
  have him : (m ((a : ℕ) : ZMod n)).im = 0 := by
    rw [← hk, Complex.div_ofReal_im, nyquist_real ha, zero_div]
  have hw : o.omega ((a : ℕ) : ZMod n) = -(Real.pi * o.fs) := by
    unfold Obj.omega fftfreq freqIdx
    have hn' : (n : ℝ) = 2 * a := by exact_mod_cast ha
    have : (a : ℝ) ≠ 0 := by exact_mod_cast ha0.ne'
    rw [ZMod.val_cast_of_lt (by omega), if_neg (by omega)]
    push_cast
    rw [hn']
    field_simp
    ring
  rw [twopole_spec hr hf hm, hw] at him
  have hD : A * weight o.scale τr τf ≠ 0 := mul_ne_zero hA (by
    rcases lt_or_gt_of_ne hne with h | h
    · exact (weight_pos _ hr h).ne'
    · exact (weight_neg _ hf h).ne)
  have hdf : Real.sqrt o.df ≠ 0 := by exact_mod_cast df_sqrt_ne hfs
  have hpi := Real.pi_pos
  have hexp : ∃ c : ℝ, c ≠ 0 ∧ Complex.exp (-((-(Real.pi * o.fs) : ℝ) : ℂ) * t * Complex.I) = c := by
    have e : -((-(Real.pi * o.fs) : ℝ) : ℂ) * t * Complex.I = ((s : ℝ) * Real.pi : ℝ) * Complex.I := by
      rw [← ht]; push_cast; ring
    refine ⟨Real.cos (s * Real.pi), ?_, ?_⟩
    · intro h0
      have := Real.cos_sq_add_sin_sq (s * Real.pi)
      rw [h0, Real.sin_int_mul_pi] at this
      norm_num at this
    · rw [e, Complex.exp_mul_I, ← Complex.ofReal_cos, ← Complex.ofReal_sin, Real.sin_int_mul_pi]
      simp
  obtain ⟨c, hc0, hc⟩ := hexp
  unfold twoSpec at him
  rw [hc] at him
  set W := -(Real.pi * o.fs) with hW
  have hW0 : W ≠ 0 := by rw [hW]; exact neg_ne_zero.2 (by positivity)
  have hf1 := one_add_I_ne' W τf
  have hr1 := one_add_I_ne' W τr
  rw [Complex.im_mul_ofReal, Complex.im_mul_ofReal] at him
  have him := ((mul_eq_zero.1 him).resolve_right hdf |> mul_eq_zero.1).resolve_right hc0
  set z : ℂ := ((A * weight o.scale τr τf : ℝ) : ℂ) / (1 + W * τf * Complex.I) / (1 + W * τr * Complex.I) with hz
  have hzr : (z.re : ℂ) = z := Complex.ext rfl (by simpa using him.symm)
  have hmul : (z.re : ℂ) * ((1 + W * τr * Complex.I) * (1 + W * τf * Complex.I)) =
      ((A * weight o.scale τr τf : ℝ) : ℂ) := by
    rw [hzr, hz]
    generalize (1 + (W : ℂ) * τr * Complex.I) = p at hr1
    generalize (1 + (W : ℂ) * τf * Complex.I) = q at hf1
    field_simp
  have h1 := congrArg Complex.im hmul
  have h2 := congrArg Complex.re hmul
  rw [Complex.re_ofReal_mul, Complex.ofReal_re] at h2
  rw [Complex.im_ofReal_mul, Complex.ofReal_im] at h1
  have h0 : z.re ≠ 0 := by
    intro h0
    rw [h0, zero_mul] at h2
    exact hD h2.symm
  have := (mul_eq_zero.1 h1).resolve_left h0
  simp at this
  have h4 : W * (τr + τf) = 0 := by linear_combination this
  rcases mul_eq_zero.1 h4 with h | h
  · exact hW0 h
  · linarith

/-- A pulse of eight samples. -/
example : ∃ m, (8 : ℕ) = 2 * 4 ∧ (2 : ℝ) * (init (fun _ : ZMod 8 => 1) 1 none).fs = (2 : ℤ) ∧
    (init (fun _ : ZMod 8 => 1) 1 none).twopole 1 1 2 2 = .ok m := by
  obtain ⟨m, hm⟩ := twopole_defined (o := init (fun _ : ZMod 8 => 1) 1 none) (A := 1) (τr := 1) (τf := 2) (t := 2)
    one_pos two_pos (by norm_num)
  exact ⟨m, rfl, by simp [init], hm⟩

end Verif.NonLin
