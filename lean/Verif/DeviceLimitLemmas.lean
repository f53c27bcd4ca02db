import Verif.DeviceLimitSpec
import Verif.DidvStableLemmas
import Verif.DeviceLemmas
import Verif.DidvLimitProps

/-! Lemmas for property C146. -/

namespace Verif.Device
open Verif Verif.Dft Verif.Didv Filter Topology MeasureTheory

/-- A phase near one belongs to a time shift near whole periods. -/
theorem phase_near {ι : Type*} {F : Filter ι} {f0 : ℝ} {d : ι → ℝ} (h : Tendsto (fun i => phase f0 (d i)) F (𝓝 1))
    {ε : ℝ} (hε : 0 < ε) : ∀ᶠ i in F, ∃ m : ℤ, |f0 * d i - m| < ε := by
  have h1 : Tendsto (fun i => (phase f0 (d i)).arg) F (𝓝 0) := by
    have := (Complex.continuousAt_arg (x := 1) (by simp)).tendsto.comp h
    rwa [Complex.arg_one] at this
  have h2 := (tendsto_order.1 (h1.abs)).2 (2 * Real.pi * ε) (by rw [abs_zero]; positivity)
  filter_upwards [h2] with i hi
  unfold phase at hi
  rw [Complex.arg_exp_mul_I] at hi
  have e := toIocMod_add_toIocDiv_zsmul Real.two_pi_pos (-Real.pi) (-2 * Real.pi * f0 * d i)
  rw [zsmul_eq_mul] at e
  refine ⟨-toIocDiv Real.two_pi_pos (-Real.pi) (-2 * Real.pi * f0 * d i), ?_⟩
  have e2 : f0 * d i - ((-toIocDiv Real.two_pi_pos (-Real.pi) (-2 * Real.pi * f0 * d i) : ℤ) : ℝ) =
      -toIocMod Real.two_pi_pos (-Real.pi) (-2 * Real.pi * f0 * d i) / (2 * Real.pi) := by
    have := Real.pi_pos
    rw [eq_div_iff (by positivity)]
    push_cast
    linear_combination e
  rw [e2, abs_div, abs_neg, abs_of_pos Real.two_pi_pos, div_lt_iff₀ Real.two_pi_pos]
  linarith

theorem near_of {ι : Type*} {F : Filter ι} {x : ι → ℝ} {a ε : ℝ} (h : Tendsto x F (𝓝 a)) (hε : 0 < ε) :
    ∀ᶠ i in F, |x i - a| < ε := by
  have := h.sub_const a
  rw [sub_self] at this
  have := this.abs
  rw [abs_zero] at this
  exact (tendsto_order.1 this).2 ε hε

/-- Two poles: responses close at the harmonics belong to close parameters. -/
theorem two_pole_close {rsh rp r0 beta l L tau0 dt f0 ε : ℝ} (hd : Physical (rsh + rp) r0 beta l L tau0) (hf : f0 ≠ 0)
    (hε : 0 < ε) : ∃ δ > 0, ∀ (q ssp : List ℝ) (y Y : ℕ → ℂ), convertTo q rsh r0 rp = .ok ssp →
      (∃ A B t1 t2 d, q = [A, B, t1, t2, d] ∧ 0 ≤ A) →
      (∀ j : ℕ, j < 8 → (complexadmittance ((2 * j + 1) * f0) (transition rsh rp r0 beta l L tau0)).map (fun y => y *
        Complex.exp (-2 * Complex.I * Real.pi * ((2 * j + 1) * f0 : ℝ) * dt)) = .ok (y j)) →
      (∀ j : ℕ, j < 8 → fitY ((2 * j + 1) * f0) q = .ok (Y j)) → (∀ j < 8, ‖Y j - y j‖ < δ) →
      Found ε f0 dt [rsh, rp, r0, beta, l, L, tau0] ssp := by
  obtain ⟨hA, h2, s1, s2⟩ := signs hd
  have hl' : ¬ (1 - l = 0 ∨ rsh + rp + r0 * (1 + beta) = 0) := not_or.2 ⟨sub_ne_zero.2 hd.hl1.symm, hA.ne'⟩
  have hl1 : 1 - l ≠ 0 := sub_ne_zero.2 hd.hl1.symm
  have hB : r0 * l / (1 - l) * (2 + beta) ≠ 0 ∧ tau0 / (1 - l) ≠ 0 := by
    rcases lt_or_gt_of_ne hd.hl1 with h | h
    · exact ⟨(s2 h).1.ne', (s2 h).2.ne'⟩
    · exact ⟨(s1 h).1.ne, (s1 h).2.ne⟩
  by_contra hcon
  push Not at hcon
  choose q ssp y Y hq hA' hy hY hclose hnot using fun k : ℕ => hcon (1 / ((k : ℝ) + 1)) (by positivity)
  choose A B t1 t2 d hqe hA0 using hA'
  have hyy : ∀ k j, j < 8 → y k j = y 0 j := fun k j hj => Except.ok.inj ((hy k j hj).symm.trans (hy 0 j hj))
  obtain ⟨TA, TB, T1, T2, TP⟩ := two_pole_tendsto (F := atTop) (A' := A) (B' := B) (t1' := t1) (t2' := t2) (dt' := d) hA hB.1
    hB.2 hf (t2 := L / (rsh + rp + r0 * (1 + beta))) (dt := dt) hA0 (y := y 0) (Y := Y)
    (fun j hj => by
      rw [← hy 0 j hj, admittance_two hl']
      rfl)
    (fun k j hj => by rw [← hqe]; exact hY k j hj)
    (fun j hj => by
      rw [tendsto_iff_norm_sub_tendsto_zero]
      refine squeeze_zero (fun _ => norm_nonneg _) (fun k => ?_) tendsto_one_div_add_atTop_nhds_zero_nat
      rw [← hyy k j hj]
      exact (hclose k j hj).le)
  have hr0 := hd.hr0
  have hb : 2 + beta ≠ 0 := by have := hd.hbeta; linarith
  have hden : rsh + rp + r0 * (1 + beta) + r0 * l / (1 - l) * (2 + beta) + r0 - (rsh + rp) ≠ 0 := by
    rw [show rsh + rp + r0 * (1 + beta) + r0 * l / (1 - l) * (2 + beta) + r0 - (rsh + rp) =
      r0 * (2 + beta) / (1 - l) by field_simp; ring]
    exact div_ne_zero (mul_ne_zero hr0.ne' hb) hl1
  have S : Tendsto (fun k => A k + B k + r0 - (rsh + rp)) atTop (𝓝 _) := ((TA.add TB).add_const r0).sub_const (rsh + rp)
  have c1 : Tendsto (fun k => (A k - (rsh + rp)) / r0 - 1) atTop (𝓝 beta) := by
    have := ((TA.sub_const (rsh + rp)).div_const r0).sub_const 1
    rwa [show (rsh + rp + r0 * (1 + beta) - (rsh + rp)) / r0 - 1 = beta by field_simp; ring] at this
  have c2 : Tendsto (fun k => B k / (A k + B k + r0 - (rsh + rp))) atTop (𝓝 l) := by
    have := TB.div S hden
    rwa [show r0 * l / (1 - l) * (2 + beta) / (rsh + rp + r0 * (1 + beta) + r0 * l / (1 - l) * (2 + beta) + r0 -
      (rsh + rp)) = l by
        rw [show rsh + rp + r0 * (1 + beta) + r0 * l / (1 - l) * (2 + beta) + r0 - (rsh + rp) =
          r0 * (2 + beta) / (1 - l) by field_simp; ring]
        field_simp] at this
  have c3 : Tendsto (fun k => A k * t2 k) atTop (𝓝 L) := by
    have := TA.mul T2
    rwa [mul_div_cancel₀ _ hA.ne'] at this
  have c4 : Tendsto (fun k => t1 k * (A k + r0 - (rsh + rp)) / (A k + B k + r0 - (rsh + rp))) atTop (𝓝 tau0) := by
    have := (T1.mul ((TA.add_const r0).sub_const (rsh + rp))).div S hden
    rwa [show tau0 / (1 - l) * (rsh + rp + r0 * (1 + beta) + r0 - (rsh + rp)) / (rsh + rp + r0 * (1 + beta) +
      r0 * l / (1 - l) * (2 + beta) + r0 - (rsh + rp)) = tau0 by
        rw [show rsh + rp + r0 * (1 + beta) + r0 * l / (1 - l) * (2 + beta) + r0 - (rsh + rp) =
          r0 * (2 + beta) / (1 - l) by field_simp; ring]
        field_simp
        ring] at this
  have hall : ∀ᶠ k : ℕ in atTop, Found ε f0 dt [rsh, rp, r0, beta, l, L, tau0] (ssp k) := by
    filter_upwards [near_of c1 hε, near_of c2 hε, near_of c3 hε, near_of c4 hε, phase_near TP hε] with k e1 e2 e3 e4 e5
    have hk := hq k
    rw [hqe] at hk
    simp only [convertTo] at hk
    split_ifs at hk
    refine ⟨[rsh, rp, r0, (A k - (rsh + rp)) / r0 - 1, B k / (A k + B k + r0 - (rsh + rp)), A k * t2 k,
      t1 k * (A k + r0 - (rsh + rp)) / (A k + B k + r0 - (rsh + rp))], d k, (Except.ok.inj hk).symm, ?_, e5⟩
    have z : ∀ a : ℝ, |a - a| < ε := fun a => by rwa [sub_self, abs_zero]
    exact .cons (z _) (.cons (z _) (.cons (z _) (.cons e1 (.cons e2 (.cons e3 (.cons e4 .nil))))))
  obtain ⟨k, hk⟩ := hall.exists
  exact hnot k hk

/-- Three poles: responses close at the harmonics belong to close parameters. -/
theorem three_pole_close {rsh rp r0 beta l L tau0 gratio tau3 dt f0 ε : ℝ} (hd : Physical (rsh + rp) r0 beta l L tau0)
    (hg : 0 < gratio) (h3 : 0 < tau3) (hf : f0 ≠ 0) (hε : 0 < ε) : ∃ δ > 0, ∀ (q ssp : List ℝ) (y Y : ℕ → ℂ), convertTo q rsh r0 rp = .ok ssp →
      (∃ A B K t1 t2 t3 d, q = [A, B, K, t1, t2, t3, d] ∧ 0 ≤ A) →
      (∀ j : ℕ, j < 12 → (complexadmittance ((2 * j + 1) * f0) (twoBodies rsh rp r0 beta l L tau0 gratio tau3)).map
        (fun y => y * Complex.exp (-2 * Complex.I * Real.pi * ((2 * j + 1) * f0 : ℝ) * dt)) = .ok (y j)) →
      (∀ j : ℕ, j < 12 → fitY ((2 * j + 1) * f0) q = .ok (Y j)) → (∀ j < 12, ‖Y j - y j‖ < δ) →
      Found ε f0 dt [rsh, rp, r0, beta, l, L, tau0, gratio, tau3] ssp := by
  obtain ⟨hA, h2, s1, s2⟩ := signs hd
  have hl' : ¬ (1 - l = 0 ∨ rsh + rp + r0 * (1 + beta) = 0) := not_or.2 ⟨sub_ne_zero.2 hd.hl1.symm, hA.ne'⟩
  have hl1 : 1 - l ≠ 0 := sub_ne_zero.2 hd.hl1.symm
  have hB : r0 * l / (1 - l) * (2 + beta) ≠ 0 ∧ tau0 / (1 - l) ≠ 0 := by
    rcases lt_or_gt_of_ne hd.hl1 with h | h
    · exact ⟨(s2 h).1.ne', (s2 h).2.ne'⟩
    · exact ⟨(s1 h).1.ne, (s1 h).2.ne⟩
  by_contra hcon
  push Not at hcon
  choose q ssp y Y hq hA' hy hY hclose hnot using fun k : ℕ => hcon (1 / ((k : ℝ) + 1)) (by positivity)
  choose A B K t1 t2 t3 d hqe hA0 using hA'
  have hK : gratio / (1 - l) ≠ 0 := div_ne_zero hg.ne' hl1
  have hyy : ∀ k j, j < 12 → y k j = y 0 j := fun k j hj => Except.ok.inj ((hy k j hj).symm.trans (hy 0 j hj))
  obtain ⟨TA, TB, TK, T1, T2, T3, TP⟩ := three_pole_tendsto (F := atTop) (A' := A) (B' := B) (K' := K) (t1' := t1)
    (t2' := t2) (t3' := t3) (dt' := d) hA hB.1 hK hB.2 h3.ne' hf (t2 := L / (rsh + rp + r0 * (1 + beta))) (dt := dt) hA0 (y := y 0) (Y := Y)
    (fun j hj => by
      rw [← hy 0 j hj, admittance_three hl']
      rfl)
    (fun k j hj => by rw [← hqe]; exact hY k j hj)
    (fun j hj => by
      rw [tendsto_iff_norm_sub_tendsto_zero]
      refine squeeze_zero (fun _ => norm_nonneg _) (fun k => ?_) tendsto_one_div_add_atTop_nhds_zero_nat
      rw [← hyy k j hj]
      exact (hclose k j hj).le)
  have hr0 := hd.hr0
  have hb : 2 + beta ≠ 0 := by have := hd.hbeta; linarith
  have hden : rsh + rp + r0 * (1 + beta) + r0 * l / (1 - l) * (2 + beta) + r0 - (rsh + rp) ≠ 0 := by
    rw [show rsh + rp + r0 * (1 + beta) + r0 * l / (1 - l) * (2 + beta) + r0 - (rsh + rp) =
      r0 * (2 + beta) / (1 - l) by field_simp; ring]
    exact div_ne_zero (mul_ne_zero hr0.ne' hb) hl1
  have S : Tendsto (fun k => A k + B k + r0 - (rsh + rp)) atTop (𝓝 _) := ((TA.add TB).add_const r0).sub_const (rsh + rp)
  have c1 : Tendsto (fun k => (A k - (rsh + rp)) / r0 - 1) atTop (𝓝 beta) := by
    have := ((TA.sub_const (rsh + rp)).div_const r0).sub_const 1
    rwa [show (rsh + rp + r0 * (1 + beta) - (rsh + rp)) / r0 - 1 = beta by field_simp; ring] at this
  have c2 : Tendsto (fun k => B k / (A k + B k + r0 - (rsh + rp))) atTop (𝓝 l) := by
    have := TB.div S hden
    rwa [show r0 * l / (1 - l) * (2 + beta) / (rsh + rp + r0 * (1 + beta) + r0 * l / (1 - l) * (2 + beta) + r0 -
      (rsh + rp)) = l by
        rw [show rsh + rp + r0 * (1 + beta) + r0 * l / (1 - l) * (2 + beta) + r0 - (rsh + rp) =
          r0 * (2 + beta) / (1 - l) by field_simp; ring]
        field_simp] at this
  have c3 : Tendsto (fun k => A k * t2 k) atTop (𝓝 L) := by
    have := TA.mul T2
    rwa [mul_div_cancel₀ _ hA.ne'] at this
  have c4 : Tendsto (fun k => t1 k * (A k + r0 - (rsh + rp)) / (A k + B k + r0 - (rsh + rp))) atTop (𝓝 tau0) := by
    have := (T1.mul ((TA.add_const r0).sub_const (rsh + rp))).div S hden
    rwa [show tau0 / (1 - l) * (rsh + rp + r0 * (1 + beta) + r0 - (rsh + rp)) / (rsh + rp + r0 * (1 + beta) +
      r0 * l / (1 - l) * (2 + beta) + r0 - (rsh + rp)) = tau0 by
        rw [show rsh + rp + r0 * (1 + beta) + r0 * l / (1 - l) * (2 + beta) + r0 - (rsh + rp) =
          r0 * (2 + beta) / (1 - l) by field_simp; ring]
        field_simp
        ring] at this
  have c5 : Tendsto (fun k => K k * (A k + r0 - (rsh + rp)) / (A k + B k + r0 - (rsh + rp))) atTop (𝓝 gratio) := by
    have := (TK.mul ((TA.add_const r0).sub_const (rsh + rp))).div S hden
    rwa [show gratio / (1 - l) * (rsh + rp + r0 * (1 + beta) + r0 - (rsh + rp)) / (rsh + rp + r0 * (1 + beta) +
      r0 * l / (1 - l) * (2 + beta) + r0 - (rsh + rp)) = gratio by
        rw [show rsh + rp + r0 * (1 + beta) + r0 * l / (1 - l) * (2 + beta) + r0 - (rsh + rp) =
          r0 * (2 + beta) / (1 - l) by field_simp; ring]
        field_simp
        ring] at this
  have hall : ∀ᶠ k : ℕ in atTop, Found ε f0 dt [rsh, rp, r0, beta, l, L, tau0, gratio, tau3] (ssp k) := by
    filter_upwards [near_of c1 hε, near_of c2 hε, near_of c3 hε, near_of c4 hε, near_of c5 hε, near_of T3 hε,
      phase_near TP hε] with k e1 e2 e3 e4 e6 e7 e5
    have hk := hq k
    rw [hqe] at hk
    simp only [convertTo] at hk
    split_ifs at hk
    refine ⟨[rsh, rp, r0, (A k - (rsh + rp)) / r0 - 1, B k / (A k + B k + r0 - (rsh + rp)), A k * t2 k,
      t1 k * (A k + r0 - (rsh + rp)) / (A k + B k + r0 - (rsh + rp)),
      K k * (A k + r0 - (rsh + rp)) / (A k + B k + r0 - (rsh + rp)), t3 k], d k, (Except.ok.inj hk).symm, ?_, e5⟩
    have z : ∀ a : ℝ, |a - a| < ε := fun a => by rwa [sub_self, abs_zero]
    exact .cons (z _) (.cons (z _) (.cons (z _) (.cons e1 (.cons e2 (.cons e3 (.cons e4 (.cons e6 (.cons e7 .nil)))
      )))))
  obtain ⟨k, hk⟩ := hall.exists
  exact hnot k hk

/-- One pole: responses close at the harmonics belong to close parameters. -/
theorem one_pole_close {rsh rp r0 rp0 L dt f0 ε : ℝ} (hR : 0 < rsh + rp) (hf : f0 ≠ 0)
    (hε : 0 < ε) : ∃ δ > 0, ∀ (q ssp : List ℝ) (y Y : ℕ → ℂ), convertTo q rsh r0 rp0 = .ok ssp →
      (∃ A t2 d, q = [A, t2, d] ∧ 0 ≤ A) →
      (∀ j : ℕ, j < 4 → (complexadmittance ((2 * j + 1) * f0) { rsh := some rsh, rp := some rp, L := some L }).map
        (fun y => y * Complex.exp (-2 * Complex.I * Real.pi * ((2 * j + 1) * f0 : ℝ) * dt)) = .ok (y j)) →
      (∀ j : ℕ, j < 4 → fitY ((2 * j + 1) * f0) q = .ok (Y j)) → (∀ j < 4, ‖Y j - y j‖ < δ) →
      Found ε f0 dt [rsh, rp, L] ssp := by
  by_contra hcon
  push Not at hcon
  choose q ssp y Y hq hA' hy hY hclose hnot using fun k : ℕ => hcon (1 / ((k : ℝ) + 1)) (by positivity)
  choose A t2 d hqe hA0 using hA'
  have hyy : ∀ k j, j < 4 → y k j = y 0 j := fun k j hj => Except.ok.inj ((hy k j hj).symm.trans (hy 0 j hj))
  obtain ⟨TA, T2, TP⟩ := one_pole_tendsto (F := atTop) (A' := A) (t2' := t2) (dt' := d) hR
    hf (t2 := L / (rsh + rp)) (dt := dt) hA0 (y := y 0) (Y := Y)
    (fun j hj => by
      rw [← hy 0 j hj, admittance_one hR.ne']
      rfl)
    (fun k j hj => by rw [← hqe]; exact hY k j hj)
    (fun j hj => by
      rw [tendsto_iff_norm_sub_tendsto_zero]
      refine squeeze_zero (fun _ => norm_nonneg _) (fun k => ?_) tendsto_one_div_add_atTop_nhds_zero_nat
      rw [← hyy k j hj]
      exact (hclose k j hj).le)
  have c1 : Tendsto (fun k => A k - rsh) atTop (𝓝 rp) := by
    have := TA.sub_const rsh
    rwa [add_sub_cancel_left] at this
  have c3 : Tendsto (fun k => A k * t2 k) atTop (𝓝 L) := by
    have := TA.mul T2
    rwa [mul_div_cancel₀ _ hR.ne'] at this
  have hall : ∀ᶠ k : ℕ in atTop, Found ε f0 dt [rsh, rp, L] (ssp k) := by
    filter_upwards [near_of c1 hε, near_of c3 hε, phase_near TP hε] with k e1 e3 e5
    have hk := hq k
    rw [hqe] at hk
    exact ⟨[rsh, A k - rsh, A k * t2 k], d k, (Except.ok.inj hk).symm,
      .cons (by rwa [sub_self, abs_zero]) (.cons e1 (.cons e3 .nil)), e5⟩
  obtain ⟨k, hk⟩ := hall.exists
  exact hnot k hk

theorem sound_honest {ls : LS} (h : Sound ls) : Honest ls := fun res p0 b r0 hp hr => by
  obtain ⟨r, -, h1, h2⟩ := h res p0 b r0 hp hr
  exact ⟨r, h1, h2⟩

/-- The parameters found by a sound optimiser are within the bounds. -/
theorem found_in {x : Ext} (hx : Sound x.ls) {o : Obj} {p : Proc} (hp : o.proc = some p) {N : ℕ} {c : Option ℝ}
    (h : (dofit x o N c).1 = .ok ()) {r : Result} (hr : fitresult (dofit x o N c).2 N = .found r) :
    ∃ A0 B0 C0 t1 t2 t3 dt sub1, startGuess o p N = .ok ((A0, B0, C0, t1, t2, t3, dt), sub1) ∧
      List.Forall₂ inB r.params (chosen N A0 B0 C0 t1 t2 t3 dt sub1).2 := by
  obtain ⟨n, r', hk, -, hrun, hfound⟩ := dofit_run hp h
  obtain rfl : N = n := by exact_mod_cast hk
  rw [hr] at hfound
  cases hfound
  obtain ⟨A0, B0, C0, t1, t2, t3, dt, sub1, params, cov, cost, ft, hg, hl, _, hres⟩ := runFit_ok hrun
  obtain ⟨e, -⟩ := fitResult_params hres
  refine ⟨A0, B0, C0, t1, t2, t3, dt, sub1, hg, ?_⟩
  unfold leastSquares at hl
  split_ifs at hl with h1 h2
  split at hl
  · cases hl
  · rename_i r0 hr0
    obtain ⟨rr, hin, -⟩ := hx _ _ _ _ h1 hr0
    rw [Except.ok.inj hl] at hin
    rw [e]
    exact hin

theorem nonneg_of_inB {x : ℝ} (h : inB x (some 0, none)) : 0 ≤ x := h.1 0 rfl

/-- The resistance `A` found by `dofit` is not negative. -/
theorem params_one {x : Ext} (hx : Sound x.ls) {o : Obj} {p : Proc} (hp : o.proc = some p) {c : Option ℝ}
    (h : (dofit x o 1 c).1 = .ok ()) {r : Result} (hr : fitresult (dofit x o 1 c).2 1 = .found r) :
    ∃ A t2 d, r.params = [A, t2, d] ∧ 0 ≤ A := by
  obtain ⟨A0, B0, C0, t1, t2, t3, dt, sub1, hg, hin⟩ := found_in (N := 1) hx hp h hr
  rw [(startGuess_branch hg).1 rfl] at hin
  obtain ⟨a, b, c, e, h1, -⟩ := forall_three (by simpa [chosen, starts] using hin)
  exact ⟨a, b, c, e, nonneg_of_inB h1⟩

theorem params_two {x : Ext} (hx : Sound x.ls) {o : Obj} {p : Proc} (hp : o.proc = some p) {c : Option ℝ}
    (h : (dofit x o 2 c).1 = .ok ()) {r : Result} (hr : fitresult (dofit x o 2 c).2 2 = .found r) :
    ∃ A B t1 t2 d, r.params = [A, B, t1, t2, d] ∧ 0 ≤ A := by
  obtain ⟨A0, B0, C0, t1, t2, t3, dt, sub1, hg, hin⟩ := found_in (N := 2) hx hp h hr
  cases sub1 <;>
  · simp only [chosen, starts] at hin
    obtain ⟨a, b, c, d, e, he, h1⟩ := forall_five hin
    exact ⟨a, b, c, d, e, he, nonneg_of_inB h1⟩

theorem params_three {x : Ext} (hx : Sound x.ls) {o : Obj} {p : Proc} (hp : o.proc = some p) {c : Option ℝ}
    (h : (dofit x o 3 c).1 = .ok ()) {r : Result} (hr : fitresult (dofit x o 3 c).2 3 = .found r) :
    ∃ A B K t1 t2 t3 d, r.params = [A, B, K, t1, t2, t3, d] ∧ 0 ≤ A := by
  obtain ⟨A0, B0, C0, t1, t2, t3, dt, sub1, hg, hin⟩ := found_in (N := 3) hx hp h hr
  cases sub1 <;>
  · simp only [chosen, starts] at hin
    obtain ⟨a, b, c, d, e, f, g, he, h1⟩ := forall_seven hin
    exact ⟨a, b, c, d, e, f, g, he, nonneg_of_inB h1⟩

/-- With enough traces, fits at least as low as the truth are close to it at the harmonics of the drive. -/
theorem harmonics_close {Ω : Type*} [MeasurableSpace Ω] {μ : Measure Ω} [IsProbabilityMeasure μ] {o : Obj} {n : ℕ}
    [NeZero n] {tr : ZMod n → ℝ} {W : ZMod n → ℂ} {trace : ℕ → Ω → ℕ → ℝ} {noise : ℕ → Ω → ZMod n → ℝ} {R : ZMod n → ℝ}
    (h : Campaign μ o tr W trace noise R) {psd : ZMod n → ℝ}
    (hR : OF.HasPsd R o.fs fun k => (psd k : WithTop ℝ)) (hfs : 0 < o.fs) (hpos : ∀ k, drive o k ≠ 0 → 0 < psd k)
    {Y : ℝ → Except Err ℂ} {dt : ℝ} (hW : Delayed o.fs W Y dt) {f0 : ℝ} {N : ℕ} (hh : Driven o n f0 N) {δ : ℝ}
    (hδ : 0 < δ) :
    ∀ᵐ ω ∂μ, ∀ᶠ m in atTop, ∀ (x : Ext) (poles : ℤ) (c : Option ℝ) (p : Proc) (r : Result), Sound x.ls →
      (processtraces (first o (fun i => trace i ω) m)).2.proc = some p →
      (dofit x (processtraces (first o (fun i => trace i ω) m)).2 poles c).1 = .ok () →
      fitresult (dofit x (processtraces (first o (fun i => trace i ω) m)).2 poles c).2 poles = .found r →
      (∀ v ∈ c, (2 * N - 1) * |f0| < v) →
      2 * r.cost ≤ distance (processtraces (first o (fun i => trace i ω) m)).2 p c p.didvmean (fun k => W k) ^ 2 →
      ∀ j : ℕ, j < N → ∃ y V, (Y ((2 * j + 1) * f0)).map (fun y => y *
          Complex.exp (-2 * Complex.I * Real.pi * ((2 * j + 1) * f0 : ℝ) * dt)) = .ok y ∧
        fitY ((2 * j + 1) * f0) r.params = .ok V ∧ ‖V - y‖ < δ := by
  filter_upwards [fit_consistent h hR hfs hpos (U := fun k => W k) (fun k => by simp) hδ, campaign_limit h hR] with ω hω hq
  obtain ⟨q, hq, -⟩ := hq
  filter_upwards [hω, eventually_gt_atTop 0] with m hm hm0 x poles c p r hx hp hd hr hc hcost j hj
  set o' := (processtraces (first o (fun i => trace i ω) m)).2 with ho'
  have hofs : o'.fs = o.fs := (process_keeps (first o (fun i => trace i ω) m)).2.2.1
  obtain ⟨-, hq2, hqn⟩ := hq m hm0
  obtain rfl : q m = p := Option.some.inj (hq2.symm.trans hp)
  obtain ⟨r', V, dt', hr', hlast, hV, -⟩ := cost_is_distance (sound_honest hx) hp hd
  obtain rfl : r = r' := by
    rw [hr] at hr'
    injection hr'
  obtain ⟨k, hk, hf⟩ := hh.2 j hj
  have hkc : ∀ v ∈ c, |fftfreq o.fs k| < v := by
    intro v hv
    refine lt_of_le_of_lt ?_ (hc v hv)
    rw [hf, abs_mul, abs_of_nonneg (by positivity)]
    refine mul_le_mul_of_nonneg_right ?_ (abs_nonneg _)
    have : (j : ℝ) + 1 ≤ N := by exact_mod_cast hj
    linarith
  have hkF : Fitted o' (q m) c ((2 * j + 1) * f0) k.val := by
    refine ⟨by rw [hqn]; exact ZMod.val_lt k, ?_, by rw [← hf]; exact hkc⟩
    rw [hqn, hofs, freqAt_eq, hf]
  have hw := hW k
  rw [hf] at hw
  refine ⟨W k, V k.val, hw, ?_, hm x poles c (q m) r dt' V (sound_honest hx) hp hd hr hlast hV hcost k hk hkc⟩
  obtain ⟨n', r'', hkk, -, hrun, hfound⟩ := dofit_run hp hd
  rw [hr] at hfound
  cases hfound
  obtain ⟨A0, B0, C0, t1, t2, t3, d0, sub1, params, cov, cost, ft, hg, hl, _, hres⟩ := runFit_ok hrun
  obtain ⟨e, ⟨dt'', hlast', hY⟩, -⟩ := result_reproduces_fit hres
  rw [e] at hlast ⊢
  obtain rfl : dt' = dt'' := Option.some.inj (hlast.symm.trans hlast')
  rw [← hY]
  exact hV _ _ hkF

theorem process_resistances (o : Obj) : (processtraces o).2.rsh = o.rsh ∧ (processtraces o).2.rp = o.rp ∧
    (processtraces o).2.r0 = o.r0 := by
  rcases process_cases o with ⟨_, e⟩ | ⟨_, _, e⟩ | ⟨_, _, _, e⟩ | ⟨_, _, _, e⟩ <;> rw [e] <;>
    exact ⟨rfl, rfl, rfl⟩

end Verif.Device
