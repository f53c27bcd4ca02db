import Verif.NonLinErrMulti
import Verif.NonLinFitLemmas
import Verif.NonLinErrEx

import Mathlib.Topology.Order.Lattice

/-! C152: the muon tail. -/

namespace Verif.NonLin

open Verif Verif.Dft MeasureTheory Filter Topology

variable {n : ℕ} [NeZero n]

/-- The model of `fitmuontail` as a sum of one pole. -/
theorem muon_multi {psd : ZMod n → ℝ} {fs errscale : ℝ} (signal : ZMod n → ℝ) (A τ : ℝ) :
    (Muon.prepare psd fs signal errscale).fcn A τ = multi n fs ![A] ![τ] 0 := by
  funext k
  simp only [Muon.fcn, Muon.prepare, multi, pole, Finset.univ_unique, Finset.sum_singleton, Fin.default_eq_zero, Matrix.cons_val_fin_one]
  rw [Complex.ofReal_zero, mul_zero, Complex.exp_zero, mul_one]
  ring

theorem muon_inj {fs : ℝ} (hfs : 0 < fs) (hn : 2 < n) {A τ u0 u1 : ℝ} (hA : 0 < A) (hτ : 0 < τ)
    (h : HasDerivAt (fun s => multi n fs ![A + s * u0] ![τ + s * u1] 0) 0 0) : u0 = 0 ∧ u1 = 0 := by
  have hn0 : (0 : ℝ) < n := by exact_mod_cast NeZero.pos n
  have hpi := Real.pi_pos
  have ea : ∀ s, ![A + s * u0] = fun i => ![A] i + s * ![u0] i := fun s => by funext i; fin_cases i; rfl
  have et : ∀ s, ![τ + s * u1] = fun i => ![τ] i + s * ![u1] i := fun s => by funext i; fin_cases i; rfl
  have h' : HasDerivAt (fun s => multi n fs (fun i => ![A] i + s * ![u0] i) (fun i => ![τ] i + s * ![u1] i) (0 + s * 0)) 0 0 := by
    simpa only [← ea, ← et, mul_zero, add_zero] using h
  have k0 := multi_bin hfs h' 0 0 (by simp [fftfreq, freqIdx])
  set w := 2 * Real.pi * fs / n with hw
  have hw0 : 0 < w := by positivity
  have k1 := multi_bin hfs h' ((1 : ℕ) : ZMod n) w (by
    unfold fftfreq freqIdx
    rw [ZMod.val_cast_of_lt (by omega), if_pos (by omega)]
    push_cast
    ring)
  simp only [Finset.univ_unique, Finset.sum_singleton, Fin.default_eq_zero, Matrix.cons_val_fin_one, zero_mul, add_zero, neg_zero,
    Complex.ofReal_zero, zero_add, mul_zero, div_one, one_pow] at k0 k1
  have e := one_add_ne w τ
  rw [show (1 + (w : ℂ) * τ * Complex.I) = 1 + τ * (w * Complex.I) by ring] at e
  have k2 : ((u0 * τ : ℝ) : ℂ) * (1 + τ * (w * Complex.I)) + ((A * u1 : ℝ) : ℂ) = 0 := by
    generalize (1 + (τ : ℂ) * (w * Complex.I)) = E at *
    field_simp at k1
    linear_combination k1
  have i1 := congrArg Complex.im k2
  simp at i1
  have hu0 : u0 = 0 := by
    rcases i1 with (h | h) | h | h
    · exact h
    · exact absurd h hτ.ne'
    · exact absurd h hτ.ne'
    · exact absurd h hw0.ne'
  subst hu0
  have r0 : A * u1 = 0 := by
    have := congrArg Complex.re k0
    simpa using this
  exact ⟨rfl, (mul_eq_zero.1 r0).resolve_left hA.ne'⟩

/-- The height of a trace with a little noise. -/
theorem ampscale_tendsto (signal noise : ZMod n → ℝ) :
    Tendsto (fun s : ℝ => ampscale fun j => signal j + s * noise j) (𝓝[≠] 0) (𝓝 (ampscale signal)) := by
  have h1 : Continuous fun s : ℝ => ampscale fun j => signal j + s * noise j := by
    unfold ampscale
    refine Continuous.sub ?_ ?_
    · exact Continuous.finset_sup'_apply Finset.univ_nonempty fun j _ => by fun_prop
    · exact Continuous.finset_inf'_apply Finset.univ_nonempty fun j _ => by fun_prop
  have := h1.tendsto 0
  simp only [zero_mul, add_zero] at this
  exact this.mono_left nhdsWithin_le_nhds

/-- The guess of the decay time from a trace with a little noise is that of one of the samples which are closest. -/
theorem muonTau_near {fs : ℝ} (signal noise : ZMod n → ℝ) : ∀ᶠ s in 𝓝[≠] (0 : ℝ), ∃ i : ℕ, i < n ∧
    muonTau fs (fun j => signal j + s * noise j) = .ok (i / fs) ∧
    ∀ j, |signal (i : ZMod n) - ampscale signal / Real.exp 1| ≤ |signal j - ampscale signal / Real.exp 1| := by
  have hd : ∀ j, Tendsto (fun s : ℝ => |signal j + s * noise j - (ampscale fun j => signal j + s * noise j) / Real.exp 1|) (𝓝[≠] 0)
      (𝓝 |signal j - ampscale signal / Real.exp 1|) := by
    intro j
    have h1 : Tendsto (fun s : ℝ => signal j + s * noise j) (𝓝[≠] 0) (𝓝 (signal j)) := by
      have : ContinuousAt (fun s : ℝ => signal j + s * noise j) 0 := by fun_prop
      have h2 := this.tendsto
      simp only [zero_mul, add_zero] at h2
      exact h2.mono_left nhdsWithin_le_nhds
    exact (h1.sub ((ampscale_tendsto signal noise).div_const _)).abs
  have hev : ∀ᶠ s in 𝓝[≠] (0 : ℝ), ∀ a b, |signal a - ampscale signal / Real.exp 1| < |signal b - ampscale signal / Real.exp 1| →
      |signal a + s * noise a - (ampscale fun j => signal j + s * noise j) / Real.exp 1| <
      |signal b + s * noise b - (ampscale fun j => signal j + s * noise j) / Real.exp 1| := by
    refine eventually_all.2 fun a => eventually_all.2 fun b => ?_
    by_cases hab : |signal a - ampscale signal / Real.exp 1| < |signal b - ampscale signal / Real.exp 1|
    · filter_upwards [(hd a).eventually_lt (hd b) hab] with s hs _
      exact hs
    · exact Eventually.of_forall fun s h => absurd h hab
  filter_upwards [hev] with s hs
  set sig : ZMod n → ℝ := fun j => signal j + s * noise j with hsig
  obtain ⟨i, hi⟩ := argmax_defined (l := (toL sig).map fun y => -|y - ampscale sig / Real.exp 1|) (by
    intro h
    have := congrArg List.length h
    rw [List.length_map, toL_length] at this
    exact NeZero.ne n this)
  have hg : ∀ j < n, ((toL sig).map fun y => -|y - ampscale sig / Real.exp 1|).getD j 0 =
      -|sig (j : ZMod n) - ampscale sig / Real.exp 1| := by
    intro j hj
    simp [toL, hj]
  obtain ⟨i0, i1, i2, -⟩ := argmax_ok hi
  rw [List.length_map, toL_length] at i1 i2
  refine ⟨i.toNat, by omega, ?_, fun j => ?_⟩
  · unfold muonTau
    rw [hi]
    have : ((i.toNat : ℕ) : ℝ) = (i : ℝ) := by exact_mod_cast congrArg (Int.cast (R := ℝ)) (Int.toNat_of_nonneg i0)
    rw [this]
  · by_contra hlt
    have h1 := hs j (i.toNat : ZMod n) (not_le.1 hlt)
    have h2 := i2 j.val (ZMod.val_lt j)
    rw [hg _ (ZMod.val_lt j), hg _ (by omega), ZMod.natCast_zmod_val] at h2
    linarith

theorem muon_parts {psd : ZMod n → ℝ} {fs errscale : ℝ} {signal : ZMod n → ℝ} {solve : List ℝ → List EReal × List EReal → Lsq n}
    {r : FitResult n} (h : muonFit psd fs signal errscale solve = .ok r) :
    (∃ A τ, r.lsq.x = [A, τ] ∧ r.chi2 = (Muon.prepare psd fs signal errscale).calcchi2 ((Muon.prepare psd fs signal errscale).fcn A τ)) ∧
    r.cov = pinv (r.lsq.jac.transpose * r.lsq.jac) ∧ ∀ i, r.errors i = Real.sqrt (r.cov i i) := by
  unfold muonFit at h
  simp only at h
  cases htau : muonTau fs signal with
  | error e => rw [htau] at h; cases h
  | ok tau =>
    rw [htau] at h
    simp only at h
    split_ifs at h
    split at h
    · rename_i A τ hx
      cases h
      exact ⟨⟨A, τ, hx, rfl⟩, rfl, fun i => rfl⟩
    · cases h

/-- A trace with a positive height and a positive guess of the decay time has a best fit. -/
theorem exists_muonBest {psd : ZMod n → ℝ} {fs errscale : ℝ} {signal : ZMod n → ℝ} (hpsd : ∀ k, 0 < psd k) (hes : 0 < errscale)
    {tau : ℝ} (htau : muonTau fs signal = .ok tau) (ht0 : 0 < tau) (ha0 : 0 < ampscale signal) :
    ∃ r : FitResult n, MuonBest psd fs errscale signal r := by
  set o := Muon.prepare psd fs signal errscale with ho
  have herr : ∀ k, 0 < o.error k := fun k => Real.sqrt_pos.2 (div_pos (hpsd k) hes)
  set F : (Fin 2 → ℝ) → ZMod n → ℂ := fun v => multi n fs ![v 0] ![v 1] 0 with hFdef
  have hcont : ∀ v, ContDiffAt ℝ 1 F v := fun v =>
    multi_contDiff (by intro i; fin_cases i; exact contDiffAt_apply ..) (by intro i; fin_cases i; exact contDiffAt_apply ..)
      contDiffAt_const
  have hres : ∀ v : Fin 2 → ℝ, muonRes o (List.ofFn v) = .ok (flatten (fun k => o.data k - F v k) o.error) := by
    intro v
    rw [show F v = o.fcn (v 0) (v 1) from (muon_multi signal _ _).symm]
    simp only [List.ofFn_succ, List.ofFn_zero]
    rfl
  set lo : Fin 2 → ℝ := ![0, 0] with hlo
  set hi : Fin 2 → ℝ := ![ampscale signal * 100, tau * 100] with hhi
  have hb : (([0, 0], [((ampscale signal * 100 : ℝ) : EReal), ((tau * 100 : ℝ) : EReal)]) : List EReal × List EReal) =
      ((List.ofFn lo).map (↑), (List.ofFn hi).map (↑)) := by
    simp [hlo, hhi, List.ofFn_succ]
  have hle : lo ≤ hi := by
    intro i
    fin_cases i
    · show (0 : ℝ) ≤ ampscale signal * 100
      linarith
    · show (0 : ℝ) ≤ tau * 100
      linarith
  set g : (Fin 2 → ℝ) → ℝ := fun v => ∑ k, ‖o.data k - F v k‖ ^ 2 / o.error k ^ 2 with hgdef
  have hgc : ContinuousOn g (Set.Icc lo hi) := by
    intro v hv
    have hFc : ∀ k, ContinuousAt (fun w => F w k) v := fun k => (continuous_apply k).continuousAt.comp (hcont v).continuousAt
    refine ContinuousAt.continuousWithinAt ?_
    refine tendsto_finsetSum _ fun k _ => ?_
    exact (((continuousAt_const.sub (hFc k)).norm.pow 2).div_const _)
  obtain ⟨y, hy, hmin⟩ := (isCompact_Icc (a := lo) (b := hi)).exists_isMinOn ⟨lo, le_rfl, hle⟩ hgc
  obtain ⟨l, hl, hjac⟩ := trueJac_exists (hcont y) (Eventually.of_forall hres)
  have hx : l.x = [y 0, y 1] := by rw [hl]; simp [List.ofFn_succ]
  have hrun : ∃ r, muonFit psd fs signal errscale (fun _ _ => l) = .ok r ∧ r.lsq = l := by
    unfold muonFit
    simp only
    rw [htau]
    simp only
    rw [← ho, if_neg, if_neg]
    · split
      · exact ⟨_, rfl, rfl⟩
      · rename_i hne
        exact absurd hx (hne _ _)
    · rintro ⟨k, hk⟩
      exact absurd hk (not_le.2 (herr k))
    · rw [not_not]
      have z : (0 : EReal) = ((0 : ℝ) : EReal) := rfl
      refine ⟨rfl, rfl, ?_, ?_, ?_, ?_⟩ <;>
        simp only [z, List.zip_cons_cons, List.zip_nil_right, List.forall_mem_cons, EReal.coe_lt_coe_iff, EReal.coe_le_coe_iff]
      · exact ⟨by linarith, by linarith, by simp⟩
      · exact ⟨ha0.le, ht0.le, by simp⟩
      · exact ⟨by linarith, by linarith, by simp⟩
      · exact ⟨abs_pos.2 ha0.ne', abs_pos.2 ht0.ne', by simp⟩
  obtain ⟨r, h1, h2⟩ := hrun
  refine ⟨r, fun _ _ => l, tau, h1, htau, ?_, h2 ▸ hjac⟩
  rw [h2, hl, hb]
  refine ⟨box_within hy, _, hres y, fun x' r' hw' hr' => ?_⟩
  obtain ⟨v, hv', rfl⟩ := within_box hw'
  rw [hres v] at hr'
  cases hr'
  rw [flatten_sq, flatten_sq]
  exact hmin hv'

end Verif.NonLin
