import Verif.DevicePriorsSpec
import Verif.DeviceLemmas
import Verif.DidvPriorsProps

/-! Lemmas for property C139. -/

namespace Verif.Device
open Verif Verif.Didv Matrix

/-- The points of the fit with priors. -/
theorem mem_fitPtsP {o : Obj} {p : Proc} {c : Option ℝ} {q : Pt} : q ∈ fitPtsP o p c ↔
    ∃ f k, Fitted o p c f k ∧ q = ⟨f, p.didvmean k * o.rsh, p.didvstd k * o.rsh⟩ := by
  unfold fitPtsP
  rw [List.mem_map]
  constructor
  · rintro ⟨q', hq, rfl⟩
    obtain ⟨k, h1, h2, rfl⟩ := mem_fitPts.1 hq
    exact ⟨_, k, ⟨h1, rfl, h2⟩, rfl⟩
  · rintro ⟨f, k, ⟨h1, rfl, h2⟩, rfl⟩
    exact ⟨_, mem_fitPts.2 ⟨k, h1, h2, rfl⟩, rfl⟩

theorem chi2_nonneg (q : Pt) (y : ℂ) : 0 ≤ q.chi2 y := by unfold Pt.chi2; positivity

theorem chi2_zero {q : Pt} {y : ℂ} (hr : q.err.re ≠ 0) (hi : q.err.im ≠ 0) (h : q.chi2 y = 0) : q.y = y := by
  unfold Pt.chi2 at h
  have a := (add_eq_zero_iff_of_nonneg (sq_nonneg _) (sq_nonneg _)).1 h
  have b1 := (div_eq_zero_iff.1 (pow_eq_zero_iff two_ne_zero |>.1 a.1)).resolve_right hr
  have b2 := (div_eq_zero_iff.1 (pow_eq_zero_iff two_ne_zero |>.1 a.2)).resolve_right hi
  exact Complex.ext (sub_eq_zero.1 b1) (sub_eq_zero.1 b2)

/-- A point of no cost: the model goes through all points and agrees with the priors. -/
theorem no_cost {k : ℤ} {pts : List Pt} (hw : Weighted pts) {priors : List ℝ} {n : ℕ} {s : Fin n → ℝ} {params : List ℝ}
    {c : ℝ} (h : nll k pts priors ⟨(independent s).d, pinv (independent s).m⟩ params = .ok c) :
    0 ≤ c ∧ (c = 0 ↔ (∀ q ∈ pts, scaledY q.f params = .ok q.y) ∧ Right s priors params) := by
  obtain ⟨-, -, -, Y, hY, hc, h0⟩ := nll_chi2 h
  refine ⟨h0, ?_⟩
  have hpen : (∑ i : Fin n, ∑ j : Fin n, (priors.getD i 0 - params.getD i 0) *
      (pinv (Matrix.diagonal fun i => s i ^ 2)) i j * (priors.getD j 0 - params.getD j 0)) =
      ∑ i, if s i = 0 then 0 else ((priors.getD i 0 - params.getD i 0) / s i) ^ 2 := by
    rw [← penalty_independent]
    unfold priorForm
    simp only [Matrix.vecMul, dotProduct, Finset.sum_mul]
    exact Finset.sum_comm
  change c = _ + (∑ i : Fin n, ∑ j : Fin n, (priors.getD i 0 - params.getD i 0) *
      (pinv (Matrix.diagonal fun i => s i ^ 2)) i j * (priors.getD j 0 - params.getD j 0)) / 2 at hc
  rw [hpen] at hc
  have hp0 : ∀ i, 0 ≤ if s i = 0 then (0 : ℝ) else ((priors.getD i 0 - params.getD i 0) / s i) ^ 2 := by
    intro i; split_ifs <;> positivity
  have hsum : 0 ≤ (pts.map fun p => p.chi2 (Y p.f)).sum := List.sum_nonneg fun v hv => by
    obtain ⟨w, -, rfl⟩ := List.mem_map.1 hv
    exact chi2_nonneg _ _
  have hsum' : 0 ≤ ∑ i, if s i = 0 then (0 : ℝ) else ((priors.getD i 0 - params.getD i 0) / s i) ^ 2 :=
    Finset.sum_nonneg fun i _ => hp0 i
  constructor
  · intro e
    rw [e] at hc
    have e1 : (pts.map fun p => p.chi2 (Y p.f)).sum = 0 := by linarith
    have e2 : (∑ i, if s i = 0 then (0 : ℝ) else ((priors.getD i 0 - params.getD i 0) / s i) ^ 2) = 0 := by linarith
    refine ⟨fun q hq => ?_, fun i hi => ?_⟩
    · have hle := List.single_le_sum (fun v hv => by
        obtain ⟨w, -, rfl⟩ := List.mem_map.1 hv
        exact chi2_nonneg _ _) _ (List.mem_map.2 ⟨q, hq, rfl⟩ : q.chi2 (Y q.f) ∈ pts.map fun p => p.chi2 (Y p.f))
      rw [chi2_zero (hw q hq).1 (hw q hq).2 (le_antisymm (hle.trans e1.le) (chi2_nonneg _ _))]
      exact hY q hq
    · have := (Finset.sum_eq_zero_iff_of_nonneg fun i _ => hp0 i).1 e2 i (Finset.mem_univ i)
      rw [if_neg hi] at this
      exact sub_eq_zero.1 ((div_eq_zero_iff.1 (pow_eq_zero_iff two_ne_zero |>.1 this)).resolve_right hi)
  · rintro ⟨h1, h2⟩
    rw [hc]
    have e1 : (pts.map fun p => p.chi2 (Y p.f)) = pts.map fun _ => (0 : ℝ) := by
      refine List.map_congr_left fun q hq => ?_
      have e : Y q.f = q.y := Except.ok.inj ((hY q hq).symm.trans (h1 q hq))
      simp [Pt.chi2, e]
    have e2 : (∑ i, if s i = 0 then (0 : ℝ) else ((priors.getD i 0 - params.getD i 0) / s i) ^ 2) = 0 := by
      refine Finset.sum_eq_zero fun i _ => ?_
      split_ifs with hi
      · rfl
      · rw [h2 i hi, sub_self, zero_div, sq, zero_mul]
    rw [e1, e2]
    simp

theorem diagonal_nonneg {n : ℕ} (s v : Fin n → ℝ) : 0 ≤ v ⬝ᵥ (Matrix.diagonal (fun i => s i ^ 2) *ᵥ v) := by
  simp only [dotProduct, Matrix.mulVec_diagonal]
  exact Finset.sum_nonneg fun i _ => by nlinarith [mul_self_nonneg (v i * s i)]

/-- What a fit with priors of noise-free data returns. -/
theorem priors_exact {x : Ext} {mn : Minimiser} (hmn : FindsP mn) {o : PObj} {p : Proc} (hp : o.base.proc = some p)
    {k : ℤ} {n : ℕ} {s : Fin n → ℝ} {priors truth : List ℝ} {c : Option ℝ}
    (h : (dofitP x mn o k priors (independent s) c).1 = .ok ()) (hn : truth.length = n) (hlim : Within truth)
    (hpri : Right s priors truth) (hr : o.base.rsh ≠ 0) (he : ErrorBars o.base p c)
    (hd : ∀ f j, Fitted o.base p c f j → scaledY f truth = .ok (p.didvmean j * o.base.rsh)) :
    ∃ r, fitresultP (dofitP x mn o k priors (independent s) c).2 k = some r ∧ r.cost = 0 ∧ r.params.length = n ∧
      Within r.params ∧ (∀ f j, Fitted o.base p c f j → scaledY f r.params = .ok (p.didvmean j * o.base.rsh)) ∧
      Right s r.params truth := by
  have hrd : ready o.base = o.base := by unfold ready; rw [hp]
  obtain ⟨sh1, sh2, r, p', guess, hp', hres, -, e1, -, e3, -⟩ := dofitP_stores h
  rw [hrd] at hp' e1 e3
  rw [hp] at hp'
  cases hp'
  have hw : Weighted (fitPtsP o.base p c) := by
    intro q hq
    obtain ⟨f, j, hj, rfl⟩ := mem_fitPtsP.1 hq
    obtain ⟨a, b⟩ := he f j hj
    simp only [Complex.mul_re, Complex.mul_im, Complex.ofReal_re, Complex.ofReal_im, mul_zero, sub_zero, zero_add]
    exact ⟨mul_ne_zero a hr, by simpa using ⟨b, hr⟩⟩
  have hpts : ∀ q ∈ fitPtsP o.base p c, scaledY q.f truth = .ok q.y := by
    intro q hq
    obtain ⟨f, j, hj, rfl⟩ := mem_fitPtsP.1 hq
    exact hd f j hj
  have sh2' : Shape k n := sh2
  have l1 : priors.length = n := sh1.length.trans sh2'.length.symm
  obtain ⟨c0, hc0⟩ := nll_defined (poles := k) (pts := fitPtsP o.base p c) (priors := priors) (C := independent s)
    (params := truth) (Matrix.diagonal_transpose _) (diagonal_nonneg s)
    (by rw [hn]; exact sh2') (l1.trans hn.symm) hn.symm hw fun q hq => ⟨_, hpts q hq⟩
  have hz := (no_cost hw hc0).2.2 ⟨hpts, hpri⟩
  obtain ⟨f1, f2, f3⟩ := hmn _ (mixGuess guess priors) truth c0 hlim hc0 fun x' c' _ hx' => by
    rw [hz]; exact (no_cost hw hx').1
  rw [← e1] at f1 f2
  rw [← e3] at f2 f3
  obtain ⟨g1, g2⟩ := (no_cost hw f2).2.1 (f3.trans hz)
  obtain ⟨-, l2, -, -⟩ := nll_chi2 f2
  refine ⟨r, hres, f3.trans hz, by rw [← l2, l1], f1, fun f j hj => ?_, fun i hi => (g2 i hi).symm.trans (hpri i hi)⟩
  have hq := g1 ⟨f, p.didvmean j * o.base.rsh, p.didvstd j * o.base.rsh⟩ (mem_fitPtsP.2 ⟨f, j, hj, rfl⟩)
  exact hq

/-- The scaled admittance in terms of the fit parameters. -/
theorem scaled_two {f a b c beta l L tau dt : ℝ} {y : ℂ} (ha : a ≠ 0)
    (h : scaledY f [a, b, c, beta, l, L, tau, dt] = .ok y) : ¬ (1 - l = 0 ∨ a + b + c * (1 + beta) = 0) ∧
      fitY f [a + b + c * (1 + beta), c * l / (1 - l) * (2 + beta), tau / (1 - l), L / (a + b + c * (1 + beta)), dt] =
        .ok (y / a) := by
  have e : sspArgs [a, b, c, beta, l, L, tau, dt] = transition a b c beta l L tau := rfl
  unfold scaledY at h
  rw [e] at h
  have hl : ¬ (1 - l = 0 ∨ a + b + c * (1 + beta) = 0) := by
    intro hl
    have e1 : poleExtractor (transition a b c beta l L tau) = .ok 2 := rfl
    have hcf : convertFrom [a, b, c, beta, l, L, tau, 0] = .error .zeroDivision := if_pos hl
    unfold complexadmittance compleximpedance at h
    simp only [e1] at h
    simp only [transition, Option.getD_some, hcf] at h
    cases h
  refine ⟨hl, ?_⟩
  rw [admittance_two hl] at h
  unfold fitY
  dsimp only
  cases hy : twoPoleY f (a + b + c * (1 + beta)) (c * l / (1 - l) * (2 + beta)) (tau / (1 - l))
      (L / (a + b + c * (1 + beta))) with
  | error e => rw [hy] at h; cases h
  | ok z =>
    rw [hy] at h
    have h := Except.ok.inj h
    have hac : (a : ℂ) ≠ 0 := Complex.ofReal_ne_zero.2 ha
    rw [← h]
    simp only [Except.map, List.headD_cons, List.getLastD_cons, List.getLastD_nil]
    congr 1
    field_simp

theorem scaled_three {f a b c beta l L tau g t3 dt : ℝ} {y : ℂ} (ha : a ≠ 0)
    (h : scaledY f [a, b, c, beta, l, L, tau, g, t3, dt] = .ok y) : ¬ (1 - l = 0 ∨ a + b + c * (1 + beta) = 0) ∧
      fitY f [a + b + c * (1 + beta), c * l / (1 - l) * (2 + beta), g / (1 - l), tau / (1 - l),
        L / (a + b + c * (1 + beta)), t3, dt] = .ok (y / a) := by
  have e : sspArgs [a, b, c, beta, l, L, tau, g, t3, dt] = twoBodies a b c beta l L tau g t3 := rfl
  unfold scaledY at h
  rw [e] at h
  have hl : ¬ (1 - l = 0 ∨ a + b + c * (1 + beta) = 0) := by
    intro hl
    have e1 : poleExtractor (twoBodies a b c beta l L tau g t3) = .ok 3 := rfl
    have hcf : convertFrom [a, b, c, beta, l, L, tau, g, t3, 0] = .error .zeroDivision := if_pos hl
    unfold complexadmittance compleximpedance at h
    simp only [e1] at h
    simp only [twoBodies, transition, Option.getD_some, hcf] at h
    cases h
  refine ⟨hl, ?_⟩
  rw [admittance_three hl] at h
  unfold fitY
  dsimp only
  cases hy : threePoleY f (a + b + c * (1 + beta)) (c * l / (1 - l) * (2 + beta)) (g / (1 - l)) (tau / (1 - l))
      (L / (a + b + c * (1 + beta))) t3 with
  | error e => rw [hy] at h; cases h
  | ok z =>
    rw [hy] at h
    have h := Except.ok.inj h
    have hac : (a : ℂ) ≠ 0 := Complex.ofReal_ne_zero.2 ha
    rw [← h]
    simp only [Except.map, List.headD_cons, List.getLastD_cons, List.getLastD_nil]
    congr 1
    field_simp

theorem scaled_one {f a b L dt : ℝ} {y : ℂ} (ha : a ≠ 0) (h : scaledY f [a, b, L, dt] = .ok y) :
    a + b ≠ 0 ∧ fitY f [a + b, L / (a + b), dt] = .ok (y / a) := by
  have e : sspArgs [a, b, L, dt] = { rsh := some a, rp := some b, L := some L } := rfl
  unfold scaledY at h
  rw [e] at h
  have hl : a + b ≠ 0 := by
    intro hl
    have e1 : poleExtractor { rsh := some a, rp := some b, L := some L } = .ok 1 := rfl
    have hcf : convertFrom [a, b, L, 0] = .error .zeroDivision := if_pos hl
    unfold complexadmittance compleximpedance at h
    simp only [e1, Option.getD_some, hcf] at h
    cases h
  refine ⟨hl, ?_⟩
  rw [admittance_one hl] at h
  unfold fitY
  dsimp only
  cases hy : onePoleY f (a + b) (L / (a + b)) with
  | error e => rw [hy] at h; cases h
  | ok z =>
    rw [hy] at h
    have h := Except.ok.inj h
    have hac : (a : ℂ) ≠ 0 := Complex.ofReal_ne_zero.2 ha
    rw [← h]
    simp only [Except.map, List.headD_cons, List.getLastD_cons, List.getLastD_nil]
    congr 1
    field_simp

/-- Measured data lie on the scaled model. -/
theorem measured_scaled {o : Obj} {p : Proc} {c : Option ℝ} {Y : ℝ → Except Err ℂ} {dt : ℝ} {truth : List ℝ}
    (hm : Measured o p c Y dt) (hY : ∀ f, Y f = complexadmittance f (sspArgs truth)) (hh : truth.headD 0 = o.rsh)
    (hl : truth.getLastD 0 = dt) (f : ℝ) (k : ℕ) (hk : Fitted o p c f k) :
    scaledY f truth = .ok (p.didvmean k * o.rsh) := by
  have := hm f k hk
  rw [hY] at this
  unfold scaledY
  cases hy : complexadmittance f (sspArgs truth) with
  | error e => rw [hy] at this; cases this
  | ok y =>
    rw [hy] at this
    have := Except.ok.inj this
    simp only [hh, hl]
    rw [← this]
    congr 1
    ring

end Verif.Device
