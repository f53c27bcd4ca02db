import Verif.NonLinProps
import Verif.NonLinFitLemmas
import Verif.NonLinIdentLemmas

/-!
C117: the data determine the parameters of the pulse fits.

The spectra are compared in the bins other than the zero-frequency bin, which is the information the
fits use (that bin has weight `1e-40`).
-/

namespace Verif.NonLin

open Verif Verif.Dft Spec

variable {n : ℕ} [NeZero n]

/-- **C117.**  Four-pole spectra (with the same start time) of at least 9 samples which agree in every
bin but the first belong to the same pulse. -/
theorem fourpole_pulse {o : Obj n} (hfs : 0 < o.fs) (hn : 9 ≤ n) {A B C τr τ1 τ2 τ3 A' B' C' τr' τ1' τ2' τ3' : ℝ}
    (t0 : ℝ) (hr : 0 < τr) (h1 : 0 < τ1) (h2 : 0 < τ2) (h3 : 0 < τ3)
    (hr' : 0 < τr') (h1' : 0 < τ1') (h2' : 0 < τ2') (h3' : 0 < τ3')
    (h : ∀ k, k ≠ 0 → o.fourpole A B C τr τ1 τ2 τ3 t0 k = o.fourpole A' B' C' τr' τ1' τ2' τ3' t0 k) (t : ℝ) :
    pulse4 A B C τr τ1 τ2 τ3 t = pulse4 A' B' C' τr' τ1' τ2' τ3' t := by
  have hc := fourpole_coef hfs hn t0 hr h1 h2 h3 hr' h1' h2' h3' h
  have := decay_eq hc t
  simp only [decay, List.map_cons, List.map_nil, List.sum_cons, List.sum_nil] at this
  unfold pulse4
  linear_combination this

/-- **C117.**  With positive amplitudes and distinct times the rise time is determined, and the amplitudes
and fall times are determined up to the order of the three terms. -/
theorem fourpole_params {o : Obj n} (hfs : 0 < o.fs) (hn : 9 ≤ n) {A B C τr τ1 τ2 τ3 A' B' C' τr' τ1' τ2' τ3' : ℝ}
    (t0 : ℝ) (hr : 0 < τr) (h1 : 0 < τ1) (h2 : 0 < τ2) (h3 : 0 < τ3)
    (hr' : 0 < τr') (h1' : 0 < τ1') (h2' : 0 < τ2') (h3' : 0 < τ3')
    (hA : 0 < A) (hB : 0 < B) (hC : 0 < C) (hA' : 0 < A') (hB' : 0 < B') (hC' : 0 < C')
    (hd : [τ1, τ2, τ3, τr].Nodup) (hd' : [τ1', τ2', τ3', τr'].Nodup)
    (h : ∀ k, k ≠ 0 → o.fourpole A B C τr τ1 τ2 τ3 t0 k = o.fourpole A' B' C' τr' τ1' τ2' τ3' t0 k) :
    τr = τr' ∧ [(A, τ1), (B, τ2), (C, τ3)].Perm [(A', τ1'), (B', τ2'), (C', τ3')] := by
  have hc := fourpole_coef hfs hn t0 hr h1 h2 h3 hr' h1' h2' h3' h
  have hp := perm_of_coef (l := [(A, τ1), (B, τ2), (C, τ3), (-(A + B + C), τr)])
    (m := [(A', τ1'), (B', τ2'), (C', τ3'), (-(A' + B' + C'), τr')]) hd hd'
    (by simp; refine ⟨hA.ne', hB.ne', hC.ne', by linarith⟩)
    (by simp; refine ⟨hA'.ne', hB'.ne', hC'.ne', by linarith⟩) hc
  exact falls_perm (F := [(A, τ1), (B, τ2), (C, τ3)]) (F' := [(A', τ1'), (B', τ2'), (C', τ3')])
    (by simp [hA', hB', hC']) (by positivity) hp

/-- The hypotheses are met with the terms in another order. -/
example (k : ZMod 9) : [(4 : ℝ), 3, 2, 1].Nodup ∧ (init (fun _ : ZMod 9 => 1) 1 none).fourpole 1 2 3 1 2 3 4 0 k =
    (init (fun _ : ZMod 9 => 1) 1 none).fourpole 3 2 1 1 4 3 2 0 k := by
  refine ⟨by norm_num, ?_⟩
  unfold Obj.fourpole
  push_cast
  ring

/-- **C117.**  Three-pole spectra of at least 7 samples. -/
theorem threepole_pulse {o : Obj n} (hfs : 0 < o.fs) (hn : 7 ≤ n) {A B τr τ1 τ2 A' B' τr' τ1' τ2' : ℝ}
    (t0 : ℝ) (hr : 0 < τr) (h1 : 0 < τ1) (h2 : 0 < τ2) (hr' : 0 < τr') (h1' : 0 < τ1') (h2' : 0 < τ2')
    (h : ∀ k, k ≠ 0 → o.threepole A B τr τ1 τ2 t0 k = o.threepole A' B' τr' τ1' τ2' t0 k) (t : ℝ) :
    pulse3 A B τr τ1 τ2 t = pulse3 A' B' τr' τ1' τ2' t := by
  have hc := threepole_coef hfs hn t0 hr h1 h2 hr' h1' h2' h
  have := decay_eq hc t
  simp only [decay, List.map_cons, List.map_nil, List.sum_cons, List.sum_nil] at this
  unfold pulse3
  linear_combination this

/-- **C117.**  Their parameters. -/
theorem threepole_params {o : Obj n} (hfs : 0 < o.fs) (hn : 7 ≤ n) {A B τr τ1 τ2 A' B' τr' τ1' τ2' : ℝ}
    (t0 : ℝ) (hr : 0 < τr) (h1 : 0 < τ1) (h2 : 0 < τ2) (hr' : 0 < τr') (h1' : 0 < τ1') (h2' : 0 < τ2')
    (hA : 0 < A) (hB : 0 < B) (hA' : 0 < A') (hB' : 0 < B')
    (hd : [τ1, τ2, τr].Nodup) (hd' : [τ1', τ2', τr'].Nodup)
    (h : ∀ k, k ≠ 0 → o.threepole A B τr τ1 τ2 t0 k = o.threepole A' B' τr' τ1' τ2' t0 k) :
    τr = τr' ∧ [(A, τ1), (B, τ2)].Perm [(A', τ1'), (B', τ2')] := by
  have hc := threepole_coef hfs hn t0 hr h1 h2 hr' h1' h2' h
  have hp := perm_of_coef (l := [(A, τ1), (B, τ2), (-(A + B), τr)])
    (m := [(A', τ1'), (B', τ2'), (-(A' + B'), τr')]) hd hd'
    (by simp; refine ⟨hA.ne', hB.ne', by linarith⟩)
    (by simp; refine ⟨hA'.ne', hB'.ne', by linarith⟩) hc
  exact falls_perm (F := [(A, τ1), (B, τ2)]) (F' := [(A', τ1'), (B', τ2')])
    (by simp [hA', hB']) (by positivity) hp

/-- The hypotheses are met with the terms in the other order. -/
example (k : ZMod 7) : [(2 : ℝ), 3, 1].Nodup ∧ (init (fun _ : ZMod 7 => 1) 1 none).threepole 1 2 1 2 3 0 k =
    (init (fun _ : ZMod 7 => 1) 1 none).threepole 2 1 1 3 2 0 k := by
  refine ⟨by norm_num, ?_⟩
  unfold Obj.threepole
  push_cast
  ring

/-- **C117.**  Two-pole spectra of at least 7 samples, with or without scaling: amplitude, rise and fall time
are determined, the start time up to whole lengths of the trace. -/
theorem twopole_params {o : Obj n} (hfs : 0 < o.fs) (hn : 7 ≤ n) {A τr τf t A' τr' τf' t' : ℝ} {m m' : ZMod n → ℂ}
    (hA : 0 < A) (hA' : 0 < A') (hr : 0 < τr) (hf : 0 < τf) (hr' : 0 < τr') (hf' : 0 < τf') (hne : τr ≠ τf)
    (hm : o.twopole A τr τf t = .ok m) (hm' : o.twopole A' τr' τf' t' = .ok m') :
    (∀ k, k ≠ 0 → m k = m' k) ↔ A = A' ∧ τr = τr' ∧ τf = τf' ∧ ∃ j : ℤ, t = t' + j * (n / o.fs) := by
  refine ⟨twopole_inj hfs hn hA hA' hr hf hr' hf' hne hm hm', ?_⟩
  rintro ⟨rfl, rfl, rfl, j, rfl⟩ k -
  rw [twopole_period hfs, hm'] at hm
  cases hm
  rfl

/-- The model is defined for positive distinct times, here with the default scaling. -/
example : ∃ m, (init (fun _ : ZMod 7 => 1) 1 none).twopole 1 1 2 0 = .ok m := by
  obtain ⟨amp, ha⟩ := scaledAmp_defined 1 (τr := 1) (τf := 2) one_pos two_pos (by norm_num)
  obtain ⟨m, hm, -⟩ := twopole_scaled (o := init (fun _ : ZMod 7 => 1) 1 none) rfl 0 one_pos two_pos ha
  exact ⟨m, hm⟩

omit [NeZero n] in
/-- **C117.**  Positive amplitudes are needed: without scaling the same spectrum is obtained from the opposite
amplitude and exchanged times. -/
theorem twopole_exchange {o : Obj n} (hs : o.scale = false) (A τr τf t : ℝ) :
    o.twopole (-A) τf τr t = o.twopole A τr τf t := by
  unfold Obj.twopole
  rw [hs, if_neg (by simp), if_neg (by simp)]
  congr 1
  funext k
  push_cast
  ring

/-- **C117.**  The single-pole fit, whose rise time is given. -/
theorem onepole_params {o : Obj n} (hfs : 0 < o.fs) (hn : 7 ≤ n) {τr : ℝ} (htau : o.taurise = some τr)
    {A τf t A' τf' t' : ℝ} {m m' : ZMod n → ℂ} (hA : 0 < A) (hA' : 0 < A') (hr : 0 < τr) (hf : 0 < τf)
    (hf' : 0 < τf') (hne : τr ≠ τf) (hm : o.onepole A τf t = .ok m) (hm' : o.onepole A' τf' t' = .ok m')
    (h : ∀ k, k ≠ 0 → m k = m' k) : A = A' ∧ τf = τf' ∧ ∃ j : ℤ, t = t' + j * (n / o.fs) := by
  rw [onepole_eq htau] at hm hm'
  obtain ⟨a, -, b, c⟩ := (twopole_params hfs hn hA hA' hr hf hr hf' hne hm hm').1 h
  exact ⟨a, b, c⟩

/-- **C117.**  The muon tail: one bin other than the first determines amplitude and decay time. -/
theorem muon_params {o : Muon n} (hfs : 0 < o.fs) {A τ A' τ' : ℝ} (hA : A ≠ 0) (hτ : 0 < τ)
    (hτ' : 0 < τ') {k : ZMod n} (hk : k ≠ 0) (h : o.fcn A τ k = o.fcn A' τ' k) : A = A' ∧ τ = τ' := by
  have hn : (0 : ℝ) < n := by exact_mod_cast NeZero.pos n
  have hs : ((Real.sqrt (o.fs / n) : ℝ) : ℂ) ≠ 0 := by
    exact_mod_cast (Real.sqrt_pos.2 (by positivity)).ne'
  have hw : 2 * Real.pi * fftfreq o.fs k ≠ 0 := by
    have := Real.pi_ne_zero
    unfold fftfreq
    have h1 : freqIdx k ≠ 0 := fun e => hk (Didv.freqIdx_inj (by rw [e]; simp [freqIdx]))
    have h2 : ((freqIdx k : ℤ) : ℝ) ≠ 0 := by exact_mod_cast h1
    have := hfs.ne'
    positivity
  unfold Muon.fcn at h
  have h := mul_right_cancel₀ hs h
  generalize 2 * Real.pi * fftfreq o.fs k = w at h hw
  rw [div_eq_div_iff (one_add_I_ne' w τ) (one_add_I_ne' w τ')] at h
  have hre := congrArg Complex.re h
  have him := congrArg Complex.im h
  simp at hre him
  have e1 : A * τ = A' * τ' := hre
  rw [e1] at him
  have hne : A' * τ' * w ≠ 0 := by rw [← e1]; exact mul_ne_zero (mul_ne_zero hA hτ.ne') hw
  have e2 : τ = τ' := mul_left_cancel₀ hne (by linear_combination -him)
  subst e2
  exact ⟨mul_right_cancel₀ hτ.ne' e1, rfl⟩

/-- **C117.**  With an odd number of samples there is a trace whose data are exactly a given two-pole model. -/
theorem exact_trace {o : Obj n} (hodd : Odd n) (hfs : 0 < o.fs) {A τr τf t : ℝ} {m : ZMod n → ℂ} (hr : 0 < τr)
    (hf : 0 < τf) (hm : o.twopole A τr τf t = .ok m) :
    ∃ pulse : ZMod n → ℝ, ∀ k, fftR pulse k / (Real.sqrt (o.fs * n) : ℂ) = m k := by
  have hn : (0 : ℝ) < n := by exact_mod_cast NeZero.pos n
  have hs : ((Real.sqrt (o.fs * n) : ℝ) : ℂ) ≠ 0 := by
    exact_mod_cast (Real.sqrt_pos.2 (by positivity)).ne'
  obtain ⟨x, hx⟩ := exists_real (fun k => m k * (Real.sqrt (o.fs * n) : ℂ)) fun k => by
    rw [map_mul, Complex.conj_ofReal, twopole_herm hodd hr hf hm]
  exact ⟨x, fun k => by rw [hx, mul_div_cancel_right₀ _ hs]⟩

/-- **C117.**  If the data are exactly a two-pole pulse, `chi2` is defined for every other pulse, never negative,
and zero only for that pulse: the least squares fit has no other global minimum with positive amplitude. -/
theorem chi2_unique {psd : ZMod n → ℝ} {fs errscale : ℝ} {tmpl : Option (List ℝ)} {pulse : ZMod n → ℝ}
    {npole : ℤ} {tau : Option ℝ} {scale : Bool} {o : Obj n}
    (ho : o = (init psd fs tmpl).prepare pulse npole errscale tau scale)
    (hpsd : ∀ k, k ≠ 0 → 0 < psd k) (herr : 0 < errscale) (hfs : 0 < fs) (hn : 7 ≤ n)
    {A τr τf t A' τr' τf' t' : ℝ} {m m' : ZMod n → ℂ} (hA : 0 < A) (hA' : 0 < A') (hr : 0 < τr) (hf : 0 < τf)
    (hr' : 0 < τr') (hf' : 0 < τf') (hne : τr ≠ τf)
    (hm : o.twopole A τr τf t = .ok m) (hm' : o.twopole A' τr' τf' t' = .ok m')
    (hdata : ∀ k, fftR pulse k / (Real.sqrt (fs * n) : ℂ) = m k) :
    o.calcchi2 m 4 = .ok 0 ∧ ∃ c, o.calcchi2 m' 4 = .ok c ∧ 0 ≤ c ∧
      (c = 0 ↔ A' = A ∧ τr' = τr ∧ τf' = τf ∧ ∃ j : ℤ, t' = t + j * (n / fs)) := by
  have herrs : ∀ k, 0 < o.error k := by
    intro k
    subst ho
    refine Real.sqrt_pos.2 (div_pos ?_ herr)
    by_cases hk : k = 0
    · subst hk
      simp [init]
    · simp [init, Function.update_of_ne hk, hpsd k hk]
  have hd : ∀ k, o.data k = m k := by
    intro k
    subst ho
    exact hdata k
  have hofs : o.fs = fs := by subst ho; rfl
  obtain ⟨c0, hc0, -, hz⟩ := chi2_zero herrs (show 4 < n by omega) m
  rw [hz.2 hd] at hc0
  refine ⟨hc0, ?_⟩
  obtain ⟨c, hc, hc1, hc2⟩ := chi2_zero herrs (show 4 < n by omega) m'
  refine ⟨c, hc, hc1, hc2.trans ?_⟩
  constructor
  · intro h
    have := twopole_inj (hofs ▸ hfs) hn hA hA' hr hf hr' hf' hne hm hm' fun k _ => by rw [← hd, h]
    obtain ⟨rfl, rfl, rfl, j, hj⟩ := this
    refine ⟨rfl, rfl, rfl, -j, ?_⟩
    rw [hofs] at hj
    rw [hj]
    push_cast
    ring
  · rintro ⟨rfl, rfl, rfl, j, rfl⟩ k
    rw [← hofs, twopole_period (hofs ▸ hfs), hm] at hm'
    cases hm'
    exact hd k

/-- **C117.**  Hence a two-pole fit which reports `chi2 = 0` on such data has returned the true parameters
(positive amplitude and times; start time up to whole lengths of the trace). -/
theorem fit_recovers {psd : ZMod n → ℝ} {fs errscale : ℝ} {tmpl : Option (List ℝ)} {pulse : ZMod n → ℝ}
    {guess : Option (List ℝ)} {bounds : Option (List EReal × List EReal)} {tau : Option ℝ} {scale : Bool}
    {solve : List ℝ → List EReal × List EReal → Lsq n} {o : Obj n} {r : FitResult n}
    (hfit : (init psd fs tmpl).fit pulse 2 errscale guess bounds tau scale solve = (o, .ok r))
    (hpsd : ∀ k, k ≠ 0 → 0 < psd k) (herr : 0 < errscale) (hfs : 0 < fs) (hn : 7 ≤ n)
    {A τr τf t A' τr' τf' t' : ℝ} {m : ZMod n → ℂ} (hA : 0 < A) (hA' : 0 < A') (hr : 0 < τr) (hf : 0 < τf)
    (hr' : 0 < τr') (hf' : 0 < τf') (hne : τr ≠ τf) (hm : o.twopole A τr τf t = .ok m)
    (hdata : ∀ k, fftR pulse k / (Real.sqrt (fs * n) : ℂ) = m k)
    (hx : r.lsq.x = [A', τr', τf', t']) (hchi : r.chi2 = 0) :
    A' = A ∧ τr' = τr ∧ τf' = τf ∧ ∃ j : ℤ, t' = t + j * (n / fs) := by
  unfold Obj.fit at hfit
  simp only [Prod.mk.injEq] at hfit
  obtain ⟨ho, hrun⟩ := hfit
  rw [ho] at hrun
  have hnp : o.npole = 2 := by rw [← ho]; rfl
  obtain ⟨-, p0, m', res, -, -, -, -, hmod, hcc, -, -⟩ := run_ok hrun
  rw [hx] at hmod
  rw [hchi, hnp] at hcc
  have hmod' : o.twopole A' τr' τf' t' = .ok m' := by
    unfold Obj.model at hmod
    rw [hnp] at hmod
    simpa using hmod
  obtain ⟨-, c, hc, -, hiff⟩ := chi2_unique ho.symm hpsd herr hfs hn hA hA' hr hf hr' hf' hne hm hmod' hdata
  rw [show dofOf 2 = 4 from rfl, hc] at hcc
  cases hcc
  exact hiff.1 rfl

/-- A fit with all these hypotheses: 7 samples of an exact pulse, and an optimiser which stays at the guess. -/
example : ∃ (pulse : ZMod 7 → ℝ) (solve : List ℝ → List EReal × List EReal → Lsq 7) (o : Obj 7) (r : FitResult 7)
    (m : ZMod 7 → ℂ),
    (init (fun _ => 1) 1 none).fit pulse 2 1 (some [1, 1, 2, 1])
      (some ([0, 0, 0, 0], [⊤, ⊤, ⊤, ⊤])) none false solve = (o, .ok r) ∧
    o.twopole 1 1 2 1 = .ok m ∧ (∀ k, fftR pulse k / (Real.sqrt (1 * (7 : ℕ)) : ℂ) = m k) ∧
    r.lsq.x = [1, 1, 2, 1] ∧ r.chi2 = 0 := by
  have hm0 : ∃ m, ({ init (fun _ : ZMod 7 => 1) 1 none with scale := false }).twopole 1 1 2 1 = .ok m := by
    unfold Obj.twopole
    exact ⟨_, if_neg (by simp)⟩
  obtain ⟨m, hm⟩ := hm0
  obtain ⟨pulse, hp⟩ := exact_trace (by decide) (show (0 : ℝ) < 1 from one_pos) one_pos two_pos hm
  set o : Obj 7 := (init (fun _ => 1) 1 none).prepare pulse 2 1 none false with ho
  have hm' : o.twopole 1 1 2 1 = .ok m := hm
  have hchi := (chi2_unique ho (fun _ _ => one_pos) one_pos one_pos (by norm_num) one_pos one_pos one_pos two_pos
    one_pos two_pos (by norm_num) hm' hm' hp).1
  let q : Lsq 7 := ⟨[1, 1, 2, 1], 0, true⟩
  refine ⟨pulse, fun p0 _ => ⟨p0, 0, true⟩, o, ⟨q, fun i => Real.sqrt (pinv (q.jac.transpose * q.jac) i i),
    pinv (q.jac.transpose * q.jac), 0⟩, m, ?_, hm', hp, rfl, rfl⟩
  unfold Obj.fit
  rw [Prod.mk.injEq]
  refine ⟨rfl, ?_⟩
  rw [← ho]
  have hmod : o.model [1, 1, 2, 1] = .ok m := by
    unfold Obj.model
    rw [if_neg (by simp [ho, Obj.prepare]), if_neg (by simp [ho, Obj.prepare]), if_pos (by simp [ho, Obj.prepare])]
    exact hm'
  have herrs : ¬ ∃ k, o.error k ≤ 0 := by
    rintro ⟨k, hk⟩
    have : 0 < o.error k := by
      refine Real.sqrt_pos.2 (div_pos ?_ one_pos)
      by_cases hk : k = 0
      · subst hk
        simp [init]
      · simp [init, Function.update_of_ne hk]
    linarith
  have hres : o.residuals [1, 1, 2, 1] = .ok (flatten (fun k => o.data k - m k) o.error) := by
    unfold Obj.residuals
    rw [hmod]
    exact if_neg herrs
  unfold Obj.run
  rw [if_neg (by simp [ho, Obj.prepare])]
  have hstart : o.start pulse (some [1, 1, 2, 1]) = .ok [1, 1, 2, 1] := by
    unfold Obj.start
    simp [ho, Obj.prepare]
  rw [hstart]
  simp only [Option.getD_some]
  have hv : LsqValid [1, 1, 2, 1] ([0, 0, 0, 0], [⊤, ⊤, ⊤, ⊤]) [1, 1, 2, 1] := by
    refine ⟨rfl, rfl, ?_, ?_, ?_, ?_⟩ <;> simp
  rw [if_neg (not_not.2 hv), hres]
  simp only
  rw [hmod]
  simp only
  have hd : dofOf o.npole = 4 := rfl
  rw [hd, hchi]

end Verif.NonLin
