import Verif.NonLinErrMulti
import Verif.DeviceLimitEx
import Verif.NonLinFitLemmas
import Verif.NonLinIdentProps

/-! C152, for the examples: best points within the default bounds exist. -/

namespace Verif.NonLin

open Verif Verif.Dft MeasureTheory Filter Topology

variable {n : ℕ} [NeZero n]

theorem within_box {d : ℕ} {lo hi : Fin d → ℝ} {x : List ℝ} (h : Within ((List.ofFn lo).map (↑), (List.ofFn hi).map (↑)) x) :
    ∃ v ∈ Set.Icc lo hi, x = List.ofFn v := by
  obtain ⟨h1, h2⟩ := h
  rw [List.forall₂_iff_get] at h1 h2
  have hlen : x.length = d := by simpa using h1.1.symm
  subst hlen
  refine ⟨fun i => x.get i, ⟨fun i => ?_, fun i => ?_⟩, by simp⟩
  · have := h1.2 i (by simp) i.2
    simpa using this
  · have := h2.2 i (by simp) i.2
    simpa using this

theorem box_within {d : ℕ} {lo hi v : Fin d → ℝ} (h : v ∈ Set.Icc lo hi) :
    Within ((List.ofFn lo).map (↑), (List.ofFn hi).map (↑)) (List.ofFn v) := by
  constructor
  · refine List.forall₂_iff_get.2 ⟨by simp, fun i h1 h2 => ?_⟩
    simpa using h.1 ⟨i, by simpa using h2⟩
  · refine List.forall₂_iff_get.2 ⟨by simp, fun i h1 h2 => ?_⟩
    simpa using h.2 ⟨i, by simpa using h2⟩

theorem trueJac_exists {d : ℕ} {y : Fin d → ℝ} {F : (Fin d → ℝ) → ZMod n → ℂ} (hF : ContDiffAt ℝ 1 F y) {data : ZMod n → ℂ}
    {err : ZMod n → ℝ} {res : List ℝ → Except Err (List ℝ)}
    (hres : ∀ᶠ v in 𝓝 y, res (List.ofFn v) = .ok (flatten (fun k => data k - F v k) err)) :
    ∃ r : Lsq n, r.x = List.ofFn y ∧ TrueJac res r := by
  refine ⟨⟨List.ofFn y, fun i j => deriv (fun v => entry (res ((List.ofFn y).set j v)) i) ((List.ofFn y).get j), true⟩, rfl, ?_⟩
  intro i j'
  obtain ⟨j, hj'⟩ : ∃ j : Fin d, (j' : ℕ) = j := ⟨⟨j', by simpa using j'.2⟩, rfl⟩
  refine DifferentiableAt.hasDerivAt ?_
  have hget : (List.ofFn y).get j' = y j := by simp [hj']
  simp only [hget, hj']
  have hF' := (hF.differentiableAt (by simp)).hasFDerivAt
  have hup : HasDerivAt (Function.update y j) (Pi.single j 1) (y j) := hasDerivAt_update y j (y j)
  have hself : Function.update y j (y j) = y := Function.update_eq_self j y
  have hFc : HasDerivAt (fun v => F (Function.update y j v)) (fderiv ℝ F y (Pi.single j 1)) (y j) :=
    HasFDerivAt.comp_hasDerivAt (y j) (by rw [hself]; exact hF') hup
  have hev : ∀ᶠ v in 𝓝 (y j), res ((List.ofFn y).set j v) = .ok (flatten (fun k => data k - F (Function.update y j v) k) err) := by
    have := hup.continuousAt.tendsto
    rw [hself] at this
    filter_upwards [this.eventually hres] with v hv
    rw [ofFn_set, hv]
  obtain ⟨k, hk⟩ : ∃ k : ℕ, (i : ℕ) = 2 * k ∨ (i : ℕ) = 2 * k + 1 := ⟨i / 2, by omega⟩
  have hkn : k < n := by have := i.2; omega
  have hFk := hasDerivAt_pi.1 hFc (k : ZMod n)
  rcases hk with hk | hk
  · have hre : HasDerivAt (fun v => (F (Function.update y j v) (k : ZMod n)).re) _ (y j) :=
      Complex.reCLM.hasFDerivAt.comp_hasDerivAt (y j) hFk
    refine (((((hasDerivAt_const (y j) ((data (k : ZMod n)).re)).fun_sub hre).div_const
      (err (k : ZMod n)))).congr_of_eventuallyEq ?_).differentiableAt
    filter_upwards [hev] with v hv
    rw [hv, hk]
    exact (flatten_getD _ _ hkn).1
  · have him : HasDerivAt (fun v => (F (Function.update y j v) (k : ZMod n)).im) _ (y j) :=
      Complex.imCLM.hasFDerivAt.comp_hasDerivAt (y j) hFk
    refine (((((hasDerivAt_const (y j) ((data (k : ZMod n)).im)).fun_sub him).div_const
      (err (k : ZMod n)))).congr_of_eventuallyEq ?_).differentiableAt
    filter_upwards [hev] with v hv
    rw [hv, hk]
    exact (flatten_getD _ _ hkn).2

/-- A model which is smooth on the box of the default bounds has a best fit to every trace. -/
theorem exists_bestFit {psd : ZMod n → ℝ} {fs errscale : ℝ} {tmpl : Option (List ℝ)} {npole : ℤ} {guess : List ℝ} {tau : Option ℝ}
    {scale : Bool} (pulse : ZMod n → ℝ) (hpsd : ∀ k, k ≠ 0 → 0 < psd k) (hes : 0 < errscale) {d : ℕ} {lo hi : Fin d → ℝ} (hle : lo ≤ hi)
    (hbd : ((init psd fs tmpl).prepare pulse npole errscale tau scale).defaultBounds guess =
      ((List.ofFn lo).map (↑), (List.ofFn hi).map (↑))) {F : (Fin d → ℝ) → ZMod n → ℂ}
    (hF : ∀ v ∈ Set.Icc lo hi, ContDiffAt ℝ 1 F v)
    (hmod : ∀ v ∈ Set.Icc lo hi, ∀ᶠ w in 𝓝 v,
      ((init psd fs tmpl).prepare pulse npole errscale tau scale).model (List.ofFn w) = .ok (F w))
    (htau : ¬ (npole = 1 ∧ tau = none)) (hn : dofOf npole < n)
    (hs : ((init psd fs tmpl).prepare pulse npole errscale tau scale).start pulse (some guess) = .ok guess)
    (hv : LsqValid guess (((init psd fs tmpl).prepare pulse npole errscale tau scale).defaultBounds guess) guess)
    (hg : Within (((init psd fs tmpl).prepare pulse npole errscale tau scale).defaultBounds guess) guess) :
    ∃ r : FitResult n, BestFit psd fs tmpl npole errscale guess tau scale pulse r ∧ ∃ v ∈ Set.Icc lo hi, r.lsq.x = List.ofFn v := by
  set o := (init psd fs tmpl).prepare pulse npole errscale tau scale with ho
  have herr : ∀ k, 0 < o.error k := fun k => error_pos (fs := fs) tmpl pulse npole tau scale hpsd hes k
  have hres : ∀ v ∈ Set.Icc lo hi, ∀ᶠ w in 𝓝 v, o.residuals (List.ofFn w) = .ok (flatten (fun k => o.data k - F w k) o.error) := by
    intro v hv
    filter_upwards [hmod v hv] with w hw
    exact residuals_ok herr hw
  set g : (Fin d → ℝ) → ℝ := fun v => ∑ k, ‖o.data k - F v k‖ ^ 2 / o.error k ^ 2 with hgdef
  have hgc : ContinuousOn g (Set.Icc lo hi) := by
    intro v hv
    have hFc : ∀ k, ContinuousAt (fun w => F w k) v := fun k => (continuous_apply k).continuousAt.comp (hF v hv).continuousAt
    refine ContinuousAt.continuousWithinAt ?_
    refine tendsto_finsetSum _ fun k _ => ?_
    exact (((continuousAt_const.sub (hFc k)).norm.pow 2).div_const _)
  obtain ⟨y, hy, hmin⟩ := (isCompact_Icc (a := lo) (b := hi)).exists_isMinOn ⟨lo, le_rfl, hle⟩ hgc
  obtain ⟨l, hl, hjac⟩ := trueJac_exists (hF y hy) (hres y hy)
  have hm : o.model l.x = .ok (F y) := hl ▸ (hmod y hy).self_of_nhds
  obtain ⟨g0, hg0, hge⟩ := within_box (hbd ▸ hg)
  have hm0 : o.model guess = .ok (F g0) := hge ▸ (hmod g0 hg0).self_of_nhds
  have hnp : o.npole = npole := rfl
  have hc : o.calcchi2 (F y) (dofOf npole) = .ok ((∑ k, ‖o.data k - F y k‖ ^ 2 / o.error k ^ 2) / (((n : ℤ) - dofOf npole : ℤ) : ℝ)) :=
    if_neg (by omega)
  have hrun : ∃ r, o.run pulse (some guess) none tau (fun _ _ => l) = .ok r ∧ r.lsq = l := by
    unfold Obj.run
    rw [hnp, if_neg htau, hs]
    simp only [Option.getD_none]
    rw [if_neg (not_not.2 hv), residuals_ok herr hm0]
    simp only
    rw [hm]
    simp only
    rw [hc]
    exact ⟨_, rfl, rfl⟩
  obtain ⟨r, h1, h2⟩ := hrun
  refine ⟨r, ⟨fun _ _ => l, o, Prod.ext rfl h1, ?_, h2 ▸ hjac⟩, y, hy, by rw [h2, hl]⟩
  rw [h2, hl, hbd]
  refine ⟨box_within hy, _, (hres y hy).self_of_nhds, fun x' r' hw' hr' => ?_⟩
  obtain ⟨v, hv', rfl⟩ := within_box hw'
  rw [(hres v hv').self_of_nhds] at hr'
  cases hr'
  rw [flatten_sq, flatten_sq]
  exact hmin hv'

/-- Jolts of a size for which all bins have the power which the fit assumes for the zero bin. -/
theorem jolt_stated : StatedNoise (n := n) (fun d => if d = 0 then Real.sqrt n ^ 2 / n else 0) (fun _ => 10 ^ 40) 1 (10 ^ 40) ∧
    (fftR (fun d : ZMod n => if d = 0 then Real.sqrt n ^ 2 / n else 0) 0).re = 1 * (10 ^ 40 / 10 ^ 40) := by
  have hn : (n : ℝ) ≠ 0 := by exact_mod_cast (NeZero.ne n)
  have h : ∀ k : ZMod n, fftR (fun d : ZMod n => if d = 0 then Real.sqrt n ^ 2 / n else 0) k = 1 := by
    intro k
    unfold fftR
    rw [ZMod.dft_apply, Finset.sum_eq_single 0]
    · simp [Real.sq_sqrt, hn]
    · intro j _ hj
      simp [hj]
    · simp
  refine ⟨⟨fun k _ => by rw [h]; norm_num, by rw [h]; norm_num⟩, by rw [h]; norm_num⟩

end Verif.NonLin
