import Verif.NonLinLemmas

/-!
Properties of `OFnonlin` and `MuonTailFit` (C41, C42, C82-C85).
`Spec.transform f t0 ω` is the Fourier transform of the pulse `f` started at `t0`.  The data of the
fit are `fft(pulse)/sqrt(fs*n)`, an approximation of `sqrt(df)` times the transform.
-/

namespace Verif.NonLin

open Verif Verif.Dft Verif.NonLin.Spec

variable {n : ℕ} [NeZero n]

/-! ### C41: frequency-domain models are the transforms of the time-domain pulses -/

omit [NeZero n] in
/-- **C41.**  Four poles. -/
theorem fourpole_transform (o : Obj n) (A B C : ℝ) {τr τ1 τ2 τ3 : ℝ} (t0 : ℝ) (hr : 0 < τr)
    (h1 : 0 < τ1) (h2 : 0 < τ2) (h3 : 0 < τ3) (k : ZMod n) :
    o.fourpole A B C τr τ1 τ2 τ3 t0 k =
      Real.sqrt (o.fs / n) * transform (pulse4 A B C τr τ1 τ2 τ3) t0 (2 * Real.pi * fftfreq o.fs k) := by
  have e : pulse4 A B C τr τ1 τ2 τ3 = fun t => ∑ i, ![A, B, C, -(A + B + C)] i *
      Real.exp (-t / ![τ1, τ2, τ3, τr] i) := by
    funext t
    rw [pulse4, Fin.sum_univ_four]
    simp only [Matrix.cons_val]
    ring
  rw [e, transform_sum _ _ (by intro i; fin_cases i <;> simpa)]
  rw [Fin.sum_univ_four]
  simp only [Matrix.cons_val]
  unfold Obj.fourpole Obj.omega Obj.df
  push_cast
  ring

omit [NeZero n] in
/-- **C41.**  Three poles. -/
theorem threepole_transform (o : Obj n) (A B : ℝ) {τr τ1 τ2 : ℝ} (t0 : ℝ) (hr : 0 < τr)
    (h1 : 0 < τ1) (h2 : 0 < τ2) (k : ZMod n) :
    o.threepole A B τr τ1 τ2 t0 k =
      Real.sqrt (o.fs / n) * transform (pulse3 A B τr τ1 τ2) t0 (2 * Real.pi * fftfreq o.fs k) := by
  have e : pulse3 A B τr τ1 τ2 = fun t => ∑ i, ![A, B, -(A + B)] i *
      Real.exp (-t / ![τ1, τ2, τr] i) := by
    funext t
    rw [pulse3, Fin.sum_univ_three]
    simp only [Matrix.cons_val]
    ring
  rw [e, transform_sum _ _ (by intro i; fin_cases i <;> simpa)]
  rw [Fin.sum_univ_three]
  simp only [Matrix.cons_val]
  unfold Obj.threepole Obj.omega Obj.df
  push_cast
  ring

omit [NeZero n] in
/-- **C41.**  Two poles, the amplitude taken as a factor (`scale_amplitude=False`). -/
theorem twopole_transform {o : Obj n} (hs : o.scale = false) (A : ℝ) {τr τf : ℝ} (t0 : ℝ)
    (hr : 0 < τr) (hf : 0 < τf) : ∃ m, o.twopole A τr τf t0 = .ok m ∧ ∀ k, m k =
      Real.sqrt (o.fs / n) * transform (pulse2 A τr τf) t0 (2 * Real.pi * fftfreq o.fs k) := by
  unfold Obj.twopole
  rw [hs, if_neg (by simp)]
  refine ⟨_, rfl, fun k => ?_⟩
  rw [transform_pulse2 _ _ _ hr hf]
  unfold Obj.omega Obj.df
  rw [show -((2 * Real.pi * fftfreq o.fs k : ℝ) : ℂ) * t0 * Complex.I =
    -Complex.I * ((2 * Real.pi * fftfreq o.fs k : ℝ) : ℂ) * t0 by ring]
  ring

/-- The factor makes the pulse height `A`. -/
theorem pulse2_height {A amp τr τf : ℝ} (hr : 0 < τr) (hf : 0 < τf) (hA : 0 < A)
    (ha : scaledAmp A τr τf = .ok amp) : IsHeight (pulse2 amp τr τf) A := by
  obtain ⟨-, ⟨hlt, rfl⟩ | ⟨hgt, rfl⟩⟩ := scaledAmp_ok hr hf ha
  · obtain ⟨⟨t, ht, he⟩, hle⟩ := diff_exp_height hr hlt
    have hH := diff_exp_pos hr hlt
    simp only at he
    refine ⟨⟨t, ht, ?_⟩, fun t ht => ?_⟩
    · rw [pulse2, he, div_mul_cancel₀ _ hH.ne']
    · rw [pulse2, div_mul_eq_mul_div, div_le_iff₀ hH]
      exact mul_le_mul_of_nonneg_left (hle t ht) hA.le
  · obtain ⟨⟨t, ht, he⟩, hle⟩ := diff_exp_height hf hgt
    have hH := diff_exp_pos hf hgt
    simp only at he
    have e : ∀ t, pulse2 (-(A / ((τf / τr) ^ (τf / (τr - τf)) - (τf / τr) ^ (τr / (τr - τf))))) τr τf t =
        A / ((τf / τr) ^ (τf / (τr - τf)) - (τf / τr) ^ (τr / (τr - τf))) *
          (Real.exp (-t / τr) - Real.exp (-t / τf)) := fun t => by
      rw [pulse2]; ring
    refine ⟨⟨t, ht, ?_⟩, fun t ht => ?_⟩
    · rw [e, he, div_mul_cancel₀ _ hH.ne']
    · rw [e, div_mul_eq_mul_div, div_le_iff₀ hH]
      exact mul_le_mul_of_nonneg_left (hle t ht) hA.le

omit [NeZero n] in
/-- **C41 (partial).**  Two poles with `scale_amplitude=True` and the rise time the shorter one: there
is one pulse `f` of height `A`, zero at its start, such that the frequency model is its transform and
the time model its samples, delayed by whole samples. -/
theorem twopole_scaled_partial {o : Obj n} (hs : o.scale = true) {A τr τf t0 : ℝ} (hA : 0 < A)
    (hr : 0 < τr) (hrf : τr < τf) (ht0 : 0 ≤ t0) (hfs : 0 < o.fs) :
    ∃ f m l, IsHeight f A ∧ f 0 = 0 ∧
      o.twopole A τr τf t0 = .ok m ∧
      (∀ k, m k = Real.sqrt (o.fs / n) * transform f t0 (2 * Real.pi * fftfreq o.fs k)) ∧
      o.twopoletime A τr τf t0 = .ok l ∧ l.length = n ∧
      ∀ i < n, l[i]? = some (if i ≤ ⌊t0 * o.fs⌋₊ then 0
        else f (((i : ℝ) - ⌊t0 * o.fs⌋₊) / o.fs)) := by
  have hf := hr.trans hrf
  obtain ⟨amp, ha⟩ := scaledAmp_defined A hr hf hrf.ne
  obtain ⟨m, hm, hmk⟩ := twopole_scaled hs t0 hr hf ha
  refine ⟨pulse2 amp τr τf, m, _, pulse2_height hr hf hA ha, by simp [pulse2], hm, fun k => ?_,
    twopoletime_scaled hs ha, ?_, fun i hi => ?_⟩
  · rw [hmk, if_pos hrf, one_mul]
  · rw [Utils.shift_int_length, time_length]
  · exact trunc_sample o (pulse2 amp τr τf) (by simp [pulse2]) ht0 hfs hi

example : ∃ m, (init (n := 8) (fun _ => 1) 4 none).twopole 1 1 2 1 = .ok m :=
  let ⟨_, m, _, _, _, h, _⟩ := twopole_scaled_partial (o := init (n := 8) (fun _ => 1) 4 none) rfl
    (A := 1) (τr := 1) (τf := 2) (t0 := 1) one_pos one_pos (by norm_num) (by norm_num)
    (by norm_num [init])
  ⟨m, h⟩

omit [NeZero n] in
/-- **C41 is violated** with `scale_amplitude=True` and the rise time the longer one (the default
bounds of the fit allow it): the time model has height `A`, the frequency model is *minus* its
transform, which is never zero. -/
theorem twopole_swapped_violated {o : Obj n} (hs : o.scale = true) (hn : n ≠ 0) {A τr τf t0 : ℝ}
    (hA : 0 < A) (hf : 0 < τf) (hrf : τf < τr) (ht0 : 0 ≤ t0) (hfs : 0 < o.fs) :
    ∃ f m l, IsHeight f A ∧
      o.twopoletime A τr τf t0 = .ok l ∧
      (∀ i < n, l[i]? = some (if i ≤ ⌊t0 * o.fs⌋₊ then 0
        else f (((i : ℝ) - ⌊t0 * o.fs⌋₊) / o.fs))) ∧
      o.twopole A τr τf t0 = .ok m ∧
      ∀ k, m k = -(Real.sqrt (o.fs / n) * transform f t0 (2 * Real.pi * fftfreq o.fs k)) ∧
        m k ≠ Real.sqrt (o.fs / n) * transform f t0 (2 * Real.pi * fftfreq o.fs k) := by
  have hr := hf.trans hrf
  obtain ⟨amp, ha⟩ := scaledAmp_defined A hr hf hrf.ne'
  obtain ⟨m, hm, hmk⟩ := twopole_scaled hs t0 hr hf ha
  refine ⟨pulse2 amp τr τf, m, _, pulse2_height hr hf hA ha, twopoletime_scaled hs ha,
    fun i hi => trunc_sample o (pulse2 amp τr τf) (by simp [pulse2]) ht0 hfs hi, hm, fun k => ?_⟩
  have hneg : m k = -(Real.sqrt (o.fs / n) *
      transform (pulse2 amp τr τf) t0 (2 * Real.pi * fftfreq o.fs k)) := by
    rw [hmk, if_neg (not_lt.2 hrf.le), neg_one_mul]
  refine ⟨hneg, fun he => ?_⟩
  rw [hneg] at he
  have h0 := self_eq_neg.1 he.symm
  have hn0 : (0 : ℝ) < n := by exact_mod_cast Nat.pos_of_ne_zero hn
  have hsq : (Real.sqrt (o.fs / n) : ℂ) ≠ 0 := by
    exact_mod_cast (Real.sqrt_pos.2 (div_pos hfs hn0)).ne'
  rw [transform_pulse2 _ _ _ hr hf, ← mul_sub, pole_sub] at h0
  have hamp : amp ≠ 0 := by
    rintro rfl
    obtain ⟨⟨t, -, ht⟩, -⟩ := pulse2_height hr hf hA ha
    rw [pulse2, zero_mul] at ht
    exact hA.ne ht
  have hd : ((τf - τr : ℝ) : ℂ) ≠ 0 := by
    exact_mod_cast (by linarith : τf - τr ≠ 0)
  refine absurd h0 (mul_ne_zero hsq (mul_ne_zero (mul_ne_zero (by exact_mod_cast hamp)
    (div_ne_zero (div_ne_zero hd (one_add_I_ne' _ _)) (one_add_I_ne' _ _))) (Complex.exp_ne_zero _)))

omit [NeZero n] in
/-- **C41.**  The time-domain pulses of the four- and three-pole models: zero up to and including the
start sample, then the samples of the pulse. -/
theorem multipole_time (o : Obj n) (A B C τr τ1 τ2 τ3 : ℝ) {t0 : ℝ} (ht0 : 0 ≤ t0) (hfs : 0 < o.fs)
    (i : ℕ) (hi : i < n) :
    (o.fourpoletime A B C τr τ1 τ2 τ3 t0)[i]? = some (if i ≤ ⌊t0 * o.fs⌋₊ then 0
      else pulse4 A B C τr τ1 τ2 τ3 (((i : ℝ) - ⌊t0 * o.fs⌋₊) / o.fs)) ∧
    (o.threepoletime A B τr τ1 τ2 t0)[i]? = some (if i ≤ ⌊t0 * o.fs⌋₊ then 0
      else pulse3 A B τr τ1 τ2 (((i : ℝ) - ⌊t0 * o.fs⌋₊) / o.fs)) :=
  ⟨trunc_sample o (pulse4 A B C τr τ1 τ2 τ3) (by simp [pulse4]) ht0 hfs hi,
    trunc_sample o (pulse3 A B τr τ1 τ2) (by simp [pulse3]) ht0 hfs hi⟩

omit [NeZero n] in
/-- **C41.**  The two-pole pulse without amplitude scaling in the time domain. -/
theorem twopole_time {o : Obj n} (hs : o.scale = false) (A τr τf : ℝ) {t0 : ℝ} (ht0 : 0 ≤ t0)
    (hfs : 0 < o.fs) : ∃ l, o.twopoletime A τr τf t0 = .ok l ∧ l.length = n ∧
      ∀ i < n, l[i]? = some (if i ≤ ⌊t0 * o.fs⌋₊ then 0
        else pulse2 A τr τf (((i : ℝ) - ⌊t0 * o.fs⌋₊) / o.fs)) := by
  unfold Obj.twopoletime
  rw [hs, if_neg (by simp)]
  refine ⟨_, rfl, by rw [Utils.shift_int_length, time_length], fun i hi => ?_⟩
  rw [trunc_sample o _ (by simp) ht0 hfs hi]
  simp only [pulse2, mul_sub]

omit [NeZero n] in
/-- **C41.**  The one-pole model is the two-pole model with the rise time given by the caller. -/
theorem onepole_eq {o : Obj n} {τr : ℝ} (h : o.taurise = some τr) (A τf t0 : ℝ) :
    o.onepole A τf t0 = o.twopole A τr τf t0 := by
  unfold Obj.onepole
  rw [h]

/-- **C41.**  The sum of the squared residuals is `chi2 * (n - dof)`, and the chi2 is the
noise-weighted distance between data and model (`psd > 0`, `errscale > 0`; the zero-frequency bin has
weight `1e-40`). -/
theorem residuals_chi2 {psd : ZMod n → ℝ} {fs : ℝ} {tmpl : Option (List ℝ)} {pulse : ZMod n → ℝ}
    {npole : ℤ} {errscale : ℝ} {tau : Option ℝ} {scale : Bool} {o : Obj n}
    (ho : o = (init psd fs tmpl).prepare pulse npole errscale tau scale)
    (hpsd : ∀ k, k ≠ 0 → 0 < psd k) (herr : 0 < errscale)
    {params r : List ℝ} {m : ZMod n → ℂ} {chi2 : ℝ} {dof : ℕ} (hr : o.residuals params = .ok r)
    (hm : o.model params = .ok m) (hc : o.calcchi2 m dof = .ok chi2) :
    r.length = 2 * n ∧ (r.map (· ^ 2)).sum = chi2 * ((n : ℝ) - dof) ∧
    (r.map (· ^ 2)).sum = errscale * (‖fftR pulse 0 / (Real.sqrt (fs * n) : ℂ) - m 0‖ ^ 2 / 10 ^ 40 +
      ∑ k ∈ Finset.univ.erase 0, ‖fftR pulse k / (Real.sqrt (fs * n) : ℂ) - m k‖ ^ 2 / psd k) := by
  unfold Obj.residuals at hr
  rw [hm] at hr
  simp only at hr
  split_ifs at hr
  cases hr
  unfold Obj.calcchi2 at hc
  split_ifs at hc with hd
  cases hc
  have hd' : (((n : ℤ) - dof : ℤ) : ℝ) ≠ 0 := by exact_mod_cast hd
  refine ⟨flatten_length _ _, ?_, ?_⟩
  · rw [flatten_sq]
    push_cast at hd' ⊢
    rw [div_mul_cancel₀ _ hd']
  · rw [flatten_sq, ← Finset.add_sum_erase _ _ (Finset.mem_univ (0 : ZMod n)), mul_add, Finset.mul_sum]
    subst ho
    congr 1
    · simp only [Obj.prepare, init, Function.update_self]
      rw [Real.sq_sqrt (by positivity)]
      field_simp
    · refine Finset.sum_congr rfl fun k hk => ?_
      have hk0 := Finset.ne_of_mem_erase hk
      simp only [Obj.prepare, init, Function.update_of_ne hk0]
      rw [Real.sq_sqrt (div_nonneg (hpsd k hk0).le herr.le)]
      have := (hpsd k hk0).ne'
      field_simp

omit [NeZero n] in
/-- **C83.**  The muon tail model is the transform of an exponential decay. -/
theorem muon_transform (o : Muon n) (A : ℝ) {τ : ℝ} (hτ : 0 < τ) (k : ZMod n) :
    o.fcn A τ k = Real.sqrt (o.fs / n) *
      transform (fun t => A * Real.exp (-t / τ)) 0 (2 * Real.pi * fftfreq o.fs k) := by
  have e : (fun t => A * Real.exp (-t / τ)) = fun t => ∑ i, ![A] i * Real.exp (-t / ![τ] i) := by
    funext t
    simp
  rw [e, transform_sum _ _ (by intro i; fin_cases i; simpa)]
  simp only [Finset.univ_unique, Fin.default_eq_zero, Finset.sum_singleton, Matrix.cons_val,
    Complex.ofReal_zero, mul_zero, Complex.exp_zero]
  unfold Muon.fcn pole
  ring

end Verif.NonLin
