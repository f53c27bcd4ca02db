import Verif.NonLinErrSpec
import Verif.NonLinLimitLemmas
import Verif.NonLinLimitSpec
import Verif.OFStatLemmas
import Verif.PinvLemmas

import Mathlib.Analysis.InnerProductSpace.PiL2
import Mathlib.Analysis.InnerProductSpace.Calculus
import Mathlib.Analysis.Calculus.ContDiff.WithLp
import Mathlib.Analysis.Calculus.LocalExtr.Basic
import Mathlib.Analysis.Calculus.Deriv.Pi

/-! Helper lemmas for C152. -/

namespace Verif.NonLin
open Verif Verif.Dft MeasureTheory Filter Topology Matrix
open scoped RealInnerProductSpace

/-! ### Least squares to first order -/

theorem stationary {V H : Type*} [NormedAddCommGroup V] [NormedSpace ℝ V] [NormedAddCommGroup H] [InnerProductSpace ℝ H]
    {R : V → H} {J : V →L[ℝ] H} {x : V} (hJ : HasFDerivAt R J x) {y : H} (hmin : IsLocalMin (fun v => ‖y - R v‖ ^ 2) x) (u : V) :
    ⟪J u, y - R x⟫ = 0 := by
  have h1 := (hJ.const_sub y).norm_sq
  have h2 := hmin.hasFDerivAt_eq_zero h1
  have h3 := congrArg (fun L : V →L[ℝ] ℝ => L u) h2
  simp at h3
  rw [real_inner_comm, inner_sub_left]
  linarith

theorem num_step {q a dl d E M N κ η c j : ℝ} (hq : 0 < q) (ha : 0 < a) (hd : 0 ≤ d) (hE : 0 ≤ E) (hM : 0 ≤ M) (hN : 0 < N)
    (hκ : 0 < κ) (hκ1 : κ * (2 * N + E + M + 2) ≤ η) (hcq : 0 ≤ c * q) (hinj : c * q ≤ j) (hdl : dl ≤ q + a * d)
    (hle : j ^ 2 ≤ κ * q * (a * E + M * dl) + N * q * (κ * dl)) : c ^ 2 * q ≤ η * (a * (1 + d) + q) := by
  have hT0 : 0 < a * (1 + d) + q := by positivity
  have d1 : a ≤ a * (1 + d) + q := by nlinarith [mul_nonneg ha.le hd]
  have d2 : dl ≤ a * (1 + d) + q := by linarith
  generalize a * (1 + d) + q = T at *
  have d3 : a * E ≤ T * E := by gcongr
  have d4 : M * dl ≤ M * T := by gcongr
  have d5 : N * dl ≤ N * T := by gcongr
  have d6 : a * E + M * dl + N * dl ≤ (2 * N + E + M + 2) * T := by
    have : 0 ≤ N * T := by positivity
    linarith
  have d7 : κ * q * (a * E + M * dl + N * dl) ≤ κ * q * ((2 * N + E + M + 2) * T) := by gcongr
  have d8 : κ * (2 * N + E + M + 2) * (q * T) ≤ η * (q * T) := by gcongr
  have c1 : (c * q) ^ 2 ≤ j ^ 2 := by gcongr
  have c4 : q * (c ^ 2 * q) ≤ q * (η * T) := by linarith
  exact le_of_mul_le_mul_left c4 hq

theorem first_order {V H : Type*} [NormedAddCommGroup V] [NormedSpace ℝ V] [NormedAddCommGroup H] [InnerProductSpace ℝ H]
    {R : V → H} {x₀ : V} (hR : ContDiffAt ℝ 1 R x₀) {c : ℝ} (hc : 0 < c) (hinj : ∀ u, c * ‖u‖ ≤ ‖fderiv ℝ R x₀ u‖)
    {x : ℝ → V} (hx : Tendsto x (𝓝[≠] 0) (𝓝 x₀)) {e : H}
    (hmin : ∀ᶠ s in 𝓝[≠] 0, IsLocalMin (fun v => ‖R x₀ + s • e - R v‖ ^ 2) (x s)) {D : V}
    (hD : ∀ u, ⟪fderiv ℝ R x₀ u, e - fderiv ℝ R x₀ D⟫ = 0) :
    Tendsto (fun s => s⁻¹ • (x s - x₀)) (𝓝[≠] 0) (𝓝 D) := by
  set J := fderiv ℝ R with hJ
  have hcont : ContinuousAt J x₀ := (hR.fderiv_right (m := 0) (by simp)).continuousAt
  have hdiff : ∀ᶠ v in 𝓝 x₀, HasFDerivAt R (J v) v := by
    filter_upwards [hR.eventually (by simp)] with v hv
    exact (hv.differentiableAt (by simp)).hasFDerivAt
  have hlin := (hR.differentiableAt (by simp)).hasFDerivAt.isLittleO
  rw [Metric.tendsto_nhds]
  intro ε hε
  -- a common small constant
  obtain ⟨η, hη, hη1, hη2⟩ : ∃ η > 0, η ≤ c ^ 2 / 2 ∧ 2 * η * (1 + ‖D‖) < c ^ 2 * ε := by
    refine ⟨min (c ^ 2 / 2) (c ^ 2 * ε / (4 * (1 + ‖D‖))), by positivity, min_le_left _ _, ?_⟩
    have : min (c ^ 2 / 2) (c ^ 2 * ε / (4 * (1 + ‖D‖))) * (4 * (1 + ‖D‖)) ≤ c ^ 2 * ε := by
      rw [← le_div_iff₀ (by positivity)]; exact min_le_right _ _
    have h2 : 0 < c ^ 2 * ε := by positivity
    nlinarith
  set N := ‖J x₀‖ + 1 with hN
  have hN0 : 0 < N := by positivity
  set κ := min 1 (η / (2 * N + ‖e‖ + ‖J x₀‖ + 2)) with hκ
  have hκ0 : 0 < κ := by positivity
  have hκ1 : κ * (2 * N + ‖e‖ + ‖J x₀‖ + 2) ≤ η := by
    rw [← le_div_iff₀ (by positivity)]; exact min_le_right _ _
  have e1 : ∀ᶠ v in 𝓝 x₀, ‖J v - J x₀‖ < κ := by
    have := (Metric.tendsto_nhds.1 hcont.tendsto) κ hκ0
    simpa only [dist_eq_norm] using this
  have e2 := hlin.def hκ0
  filter_upwards [hx.eventually (hdiff.and (e1.and e2)), hmin, self_mem_nhdsWithin] with s hs hm hs0
  obtain ⟨hd, h1, h2⟩ := hs
  have hs0 : s ≠ 0 := hs0
  set δ := x s - x₀ with hδ
  set η' := δ - s • D with hη'
  have hst := stationary hd hm η'
  set ρ := R (x s) - R x₀ - J x₀ δ with hρ
  -- the inner product with the error
  have key : ⟪J x₀ η', J x₀ η'⟫ = ⟪J (x s) η' - J x₀ η', s • e - J x₀ δ⟫ - ⟪J (x s) η', ρ⟫ := by
    have a1 : R x₀ + s • e - R (x s) = (s • e - J x₀ δ) - ρ := by rw [hρ]; abel
    have a2 : s • e - J x₀ δ = s • (e - J x₀ D) - J x₀ η' := by
      have : J x₀ η' = J x₀ δ - s • J x₀ D := by rw [← map_smul, ← map_sub]
      rw [this, smul_sub]; abel
    rw [a1, inner_sub_right] at hst
    have a3 : ⟪J x₀ η', s • e - J x₀ δ⟫ = - ⟪J x₀ η', J x₀ η'⟫ := by
      rw [a2, inner_sub_right, inner_smul_right, hD, mul_zero, zero_sub]
    rw [inner_sub_left, a3]
    linarith
  have hJs : ‖J (x s) η' - J x₀ η'‖ ≤ κ * ‖η'‖ := by
    rw [← _root_.sub_apply]
    exact (ContinuousLinearMap.le_opNorm _ _).trans (by gcongr)
  have hJn : ‖J (x s) η'‖ ≤ N * ‖η'‖ := by
    have : ‖J (x s) η'‖ ≤ ‖J (x s) η' - J x₀ η'‖ + ‖J x₀ η'‖ := by
      simpa using norm_add_le (J (x s) η' - J x₀ η') (J x₀ η')
    have hb := (J x₀).le_opNorm η'
    have : κ ≤ 1 := min_le_left _ _
    have h0 := norm_nonneg η'
    nlinarith
  have hb : ‖s • e - J x₀ δ‖ ≤ |s| * ‖e‖ + ‖J x₀‖ * ‖δ‖ := by
    refine (norm_sub_le _ _).trans (add_le_add ?_ ((J x₀).le_opNorm δ))
    rw [norm_smul, Real.norm_eq_abs]
  have hle : ‖J x₀ η'‖ ^ 2 ≤ κ * ‖η'‖ * (|s| * ‖e‖ + ‖J x₀‖ * ‖δ‖) + N * ‖η'‖ * (κ * ‖δ‖) := by
    rw [← real_inner_self_eq_norm_sq, key]
    have b1 := real_inner_le_norm (J (x s) η' - J x₀ η') (s • e - J x₀ δ)
    have b2 : -⟪J (x s) η', ρ⟫ ≤ ‖J (x s) η'‖ * ‖ρ‖ := by
      have := real_inner_le_norm (J (x s) η') (-ρ)
      rwa [inner_neg_right, norm_neg] at this
    have b3 : ‖J (x s) η' - J x₀ η'‖ * ‖s • e - J x₀ δ‖ ≤ κ * ‖η'‖ * (|s| * ‖e‖ + ‖J x₀‖ * ‖δ‖) := by gcongr
    have b4 : ‖J (x s) η'‖ * ‖ρ‖ ≤ N * ‖η'‖ * (κ * ‖δ‖) := by gcongr
    linarith
  have hδn : ‖δ‖ ≤ ‖η'‖ + |s| * ‖D‖ := by
    have := norm_add_le η' (s • D)
    rw [norm_smul, Real.norm_eq_abs] at this
    simpa [hη'] using this
  have hs1 : 0 < |s| := abs_pos.2 hs0
  have hfin : c ^ 2 * ‖η'‖ ≤ η * (|s| * (1 + ‖D‖) + ‖η'‖) := by
    rcases (norm_nonneg η').eq_or_lt with h0 | h0
    · rw [← h0]; simp only [mul_zero, add_zero]; positivity
    exact num_step h0 hs1 (norm_nonneg _) (norm_nonneg _) (norm_nonneg _) hN0 hκ0 hκ1 (mul_nonneg hc.le h0.le) (hinj η') hδn hle
  rw [dist_eq_norm]
  have e5 : s⁻¹ • δ - D = s⁻¹ • η' := by
    have : s⁻¹ • η' = s⁻¹ • δ - s⁻¹ • (s • D) := by rw [← smul_sub]
    rw [this, smul_smul, inv_mul_cancel₀ hs0, one_smul]
  rw [e5, norm_smul, norm_inv, Real.norm_eq_abs, inv_mul_lt_iff₀ hs1]
  have f1 : c ^ 2 * ‖η'‖ ≤ 2 * η * (|s| * (1 + ‖D‖)) := by nlinarith [norm_nonneg η']
  have f2 : c ^ 2 * ‖η'‖ < c ^ 2 * (|s| * ε) := by
    refine f1.trans_lt ?_
    nlinarith
  exact lt_of_mul_lt_mul_left f2 (by positivity)

/-! ### The noise -/

section noise
variable {n : ℕ} [NeZero n]

/-- The filter which belongs to a direction in the space of spectra. -/
theorem filter_of {fs : ℝ} {err : ZMod n → ℝ} (heven : ∀ k, err (-k) = err k)
    {c : ZMod n → ℂ} (hc : ∀ k, c (-k) = starRingEnd ℂ (c k)) :
    ∃ h : ZMod n → ℝ, (∀ k, fftR h k = c k * ((n / (Real.sqrt (fs * n) * err k ^ 2) : ℝ) : ℂ)) ∧
      ∀ x : ZMod n → ℝ, ∑ j, h j * x j = ∑ k, (starRingEnd ℂ (c k) * (fftR x k / (Real.sqrt (fs * n) : ℂ))).re / err k ^ 2 := by
  have hn : (n : ℝ) ≠ 0 := Nat.cast_ne_zero.2 (NeZero.ne n)
  obtain ⟨h, hh⟩ := exists_real (fun k => c k * ((n / (Real.sqrt (fs * n) * err k ^ 2) : ℝ) : ℂ)) fun k => by
    rw [hc, heven, map_mul, Complex.conj_ofReal]
  refine ⟨h, hh, fun x => ?_⟩
  have h1 := congrArg Complex.re (OF.parseval_mul h x)
  rw [← Complex.ofReal_natCast, Complex.re_mul_ofReal, Complex.ofReal_re, Complex.re_sum] at h1
  rw [← mul_left_inj' hn, h1, Finset.sum_mul]
  refine Finset.sum_congr rfl fun k _ => ?_
  rw [hh, map_mul, Complex.conj_ofReal, mul_right_comm, Complex.re_mul_ofReal, ← mul_div_assoc (starRingEnd ℂ (c k)), Complex.div_ofReal_re]
  rw [div_div, mul_div_assoc', div_mul_eq_mul_div]

theorem cov_of {Ω : Type*} [MeasurableSpace Ω] {μ : Measure Ω} {noise : Ω → ZMod n → ℝ} {R : ZMod n → ℝ}
    (hst : OF.Stationary μ noise R) {fs : ℝ} (hfs : 0 < fs) {err : ZMod n → ℝ} (herr : ∀ k, 0 < err k) {c c' : ZMod n → ℂ}
    {h h' : ZMod n → ℝ} (hh : ∀ k, fftR h k = c k * ((n / (Real.sqrt (fs * n) * err k ^ 2) : ℝ) : ℂ))
    (hh' : ∀ k, fftR h' k = c' k * ((n / (Real.sqrt (fs * n) * err k ^ 2) : ℝ) : ℂ)) {S : ZMod n → ℝ} (hS : ∀ k, fftR R k = S k) :
    ∫ ω, (∑ j, h j * noise ω j) * (∑ j, h' j * noise ω j) ∂μ =
      ∑ k, (starRingEnd ℂ (c k) * c' k).re / err k ^ 2 * (S k / (fs * err k ^ 2)) := by
  have hn : (0 : ℝ) < n := by exact_mod_cast NeZero.pos n
  rw [hst.lin2]
  have h1 := congrArg Complex.re (OF.cov_fft h h' R)
  rw [← Complex.ofReal_natCast, Complex.re_mul_ofReal, Complex.ofReal_re, Complex.re_sum] at h1
  rw [← mul_left_inj' hn.ne', h1, Finset.sum_mul]
  refine Finset.sum_congr rfl fun k _ => ?_
  have he := (herr k).ne'
  have hs := Real.sq_sqrt (show (0 : ℝ) ≤ fs * n by positivity)
  have hs0 : Real.sqrt (fs * n) ≠ 0 := (Real.sqrt_pos.2 (by positivity)).ne'
  rw [hh, hh', hS, map_mul, Complex.conj_ofReal, show ∀ a b c d e : ℂ, a * b * (c * d) * e = a * c * (b * d * e) by intros; ring,
    ← Complex.ofReal_mul, ← Complex.ofReal_mul, Complex.re_mul_ofReal]
  generalize (starRingEnd ℂ (c k) * c' k).re = q
  have : (n / (Real.sqrt (fs * n) * err k ^ 2) * (n / (Real.sqrt (fs * n) * err k ^ 2)) : ℝ) = n / (fs * err k ^ 4) := by
    rw [div_mul_div_comm, show Real.sqrt (fs * n) * err k ^ 2 * (Real.sqrt (fs * n) * err k ^ 2) =
      Real.sqrt (fs * n) ^ 2 * err k ^ 4 by ring, hs]
    field_simp
  rw [this]
  field_simp

/-- The spectral density of a stationary noise is real and even. -/
theorem psd_even {Ω : Type*} [MeasurableSpace Ω] {μ : Measure Ω} {noise : Ω → ZMod n → ℝ} {R : ZMod n → ℝ}
    (hst : OF.Stationary μ noise R) (k : ZMod n) : fftR R (-k) = fftR R k ∧ fftR R k = ((fftR R k).re : ℂ) := by
  have h1 : fftR R (-k) = fftR R k := by
    rw [fftR_apply, fftR_apply]
    refine Fintype.sum_equiv (Equiv.neg _) _ _ fun j => ?_
    simp only [Equiv.neg_apply, hst.symm]
    congr 2
    ring
  refine ⟨h1, ?_⟩
  have h2 : starRingEnd ℂ (fftR R k) = fftR R (-k) := by
    rw [fftR_apply, fftR_apply, map_sum]
    refine Finset.sum_congr rfl fun j _ => ?_
    rw [map_mul, conj_e, Complex.conj_ofReal]
    congr 2
    ring
  rw [h1] at h2
  exact (Complex.conj_eq_iff_re.1 h2).symm

end noise

/-! ### The reported covariance -/

section jac
variable {n : ℕ} [NeZero n]

theorem sum_pairs (f : ℕ → ℝ) (m : ℕ) : ∑ i ∈ Finset.range (2 * m), f i = ∑ k ∈ Finset.range m, (f (2 * k) + f (2 * k + 1)) := by
  induction m with
  | zero => simp
  | succ m ih => rw [show 2 * (m + 1) = 2 * m + 1 + 1 by ring, Finset.sum_range_succ, Finset.sum_range_succ, ih, Finset.sum_range_succ, add_assoc]

theorem pairs_getD (g : ℕ → ℝ × ℝ) (m k : ℕ) (h : k < m) :
    ((List.range m).flatMap fun k => [(g k).1, (g k).2]).getD (2 * k) 0 = (g k).1 ∧
    ((List.range m).flatMap fun k => [(g k).1, (g k).2]).getD (2 * k + 1) 0 = (g k).2 := by
  induction m generalizing g k with
  | zero => omega
  | succ m ih =>
    rw [List.range_succ_eq_map, List.flatMap_cons, List.flatMap_map]
    cases k with
    | zero => simp
    | succ k =>
      have := ih (fun k => g (k + 1)) k (by omega)
      rw [show 2 * (k + 1) = 2 * k + 1 + 1 by ring]
      simpa using this

omit [NeZero n] in
theorem flatten_getD (d : ZMod n → ℂ) (e : ZMod n → ℝ) {k : ℕ} (h : k < n) :
    (flatten d e).getD (2 * k) 0 = (d (k : ZMod n)).re / e (k : ZMod n) ∧
    (flatten d e).getD (2 * k + 1) 0 = (d (k : ZMod n)).im / e (k : ZMod n) :=
  pairs_getD (fun k => ((d (k : ZMod n)).re / e (k : ZMod n), (d (k : ZMod n)).im / e (k : ZMod n))) n k h

theorem ofFn_set {d : ℕ} (y : Fin d → ℝ) (j : Fin d) (v : ℝ) : (List.ofFn y).set j v = List.ofFn (Function.update y j v) := by
  refine List.ext_getElem (by simp) fun i h1 h2 => ?_
  rw [List.getElem_set, List.getElem_ofFn, List.getElem_ofFn]
  by_cases hij : (j : ℕ) = i
  · rw [if_pos hij]
    have : (⟨i, by simpa using h2⟩ : Fin d) = j := Fin.ext hij.symm
    rw [this, Function.update_self]
  · rw [if_neg hij, Function.update_of_ne]
    exact fun h => hij (congrArg Fin.val h).symm

/-- The Gram matrix of the derivatives. -/
noncomputable def gram {d : ℕ} (err : ZMod n → ℝ) (c : Fin d → ZMod n → ℂ) : Matrix (Fin d) (Fin d) ℝ :=
  fun j l => ∑ k, (starRingEnd ℂ (c j k) * c l k).re / err k ^ 2

theorem pinv_inv {d : ℕ} {G : Matrix (Fin d) (Fin d) ℝ} (hdet : G.det ≠ 0) : pinv G = G⁻¹ := by
  have hu : IsUnit G.det := isUnit_iff_ne_zero.2 hdet
  exact pinv_of_inv (Matrix.mul_nonsing_inv _ hu) (Matrix.nonsing_inv_mul _ hu)

theorem jac_entry {r : Lsq n} {d : ℕ} {y : Fin d → ℝ} (hx : r.x = List.ofFn y) {F : (Fin d → ℝ) → ZMod n → ℂ}
    {F' : (Fin d → ℝ) →L[ℝ] (ZMod n → ℂ)} (hF : HasFDerivAt F F' y) {data : ZMod n → ℂ} {err : ZMod n → ℝ}
    {res : List ℝ → Except Err (List ℝ)}
    (hres : ∀ᶠ v in 𝓝 y, res (List.ofFn v) = .ok (flatten (fun k => data k - F v k) err)) (hj : TrueJac res r)
    (j : Fin d) {k : ℕ} (hk : k < n) :
    r.jac ⟨2 * k, by omega⟩ ⟨j, by rw [hx]; simp⟩ = -((F' (Pi.single j 1) (k : ZMod n)).re / err (k : ZMod n)) ∧
    r.jac ⟨2 * k + 1, by omega⟩ ⟨j, by rw [hx]; simp⟩ = -((F' (Pi.single j 1) (k : ZMod n)).im / err (k : ZMod n)) := by
  obtain ⟨x, jac, suc⟩ := r
  simp only at hx
  subst hx
  have hup : HasDerivAt (Function.update y j) (Pi.single j 1) (y j) := hasDerivAt_update y j (y j)
  have hself : Function.update y j (y j) = y := Function.update_eq_self j y
  have hFc : HasDerivAt (fun v => F (Function.update y j v)) (F' (Pi.single j 1)) (y j) :=
    HasFDerivAt.comp_hasDerivAt (y j) (by rw [hself]; exact hF) hup
  have hFk : HasDerivAt (fun v => F (Function.update y j v) (k : ZMod n)) (F' (Pi.single j 1) (k : ZMod n)) (y j) :=
    hasDerivAt_pi.1 hFc _
  have hre : HasDerivAt (fun v => (F (Function.update y j v) (k : ZMod n)).re) (F' (Pi.single j 1) (k : ZMod n)).re (y j) :=
    Complex.reCLM.hasFDerivAt.comp_hasDerivAt (y j) hFk
  have him : HasDerivAt (fun v => (F (Function.update y j v) (k : ZMod n)).im) (F' (Pi.single j 1) (k : ZMod n)).im (y j) :=
    Complex.imCLM.hasFDerivAt.comp_hasDerivAt (y j) hFk
  have hev : ∀ᶠ v in 𝓝 (y j), res ((List.ofFn y).set j v) = .ok (flatten (fun k => data k - F (Function.update y j v) k) err) := by
    have := hup.continuousAt.tendsto
    rw [hself] at this
    filter_upwards [this.eventually hres] with v hv
    rw [ofFn_set, hv]
  have hget : ∀ h, (List.ofFn y).get ⟨j, h⟩ = y j := fun h => by simp
  constructor
  · have h1 := hj ⟨2 * k, by omega⟩ ⟨j, by simp⟩
    simp only [hget] at h1
    refine h1.unique (((((hasDerivAt_const (y j) ((data (k : ZMod n)).re)).fun_sub hre).div_const (err (k : ZMod n))).congr_of_eventuallyEq ?_).congr_deriv ?_)
    · filter_upwards [hev] with v hv
      rw [hv]
      exact (flatten_getD _ _ hk).1
    · ring
  · have h1 := hj ⟨2 * k + 1, by omega⟩ ⟨j, by simp⟩
    simp only [hget] at h1
    refine h1.unique (((((hasDerivAt_const (y j) ((data (k : ZMod n)).im)).fun_sub him).div_const (err (k : ZMod n))).congr_of_eventuallyEq ?_).congr_deriv ?_)
    · filter_upwards [hev] with v hv
      rw [hv]
      exact (flatten_getD _ _ hk).2
    · ring

/-- The covariance which is reported is the pseudo-inverse of the Gram matrix of the derivatives. -/
theorem cov_gram {r : FitResult n} (hcov : r.cov = pinv (r.lsq.jacᵀ * r.lsq.jac)) (herr : ∀ i, r.errors i = Real.sqrt (r.cov i i))
    {d : ℕ} {y : Fin d → ℝ} (hx : r.lsq.x = List.ofFn y) {F : (Fin d → ℝ) → ZMod n → ℂ}
    {F' : (Fin d → ℝ) →L[ℝ] (ZMod n → ℂ)} (hF : HasFDerivAt F F' y) {data : ZMod n → ℂ} {err : ZMod n → ℝ}
    {res : List ℝ → Except Err (List ℝ)}
    (hres : ∀ᶠ v in 𝓝 y, res (List.ofFn v) = .ok (flatten (fun k => data k - F v k) err)) (hj : TrueJac res r.lsq) :
    (∀ i j : Fin d, r.covAt i j = pinv (gram err fun j => F' (Pi.single j 1)) i j) ∧
    ∀ i : Fin d, r.errorAt i = Real.sqrt (pinv (gram err fun j => F' (Pi.single j 1)) i i) := by
  have hlen : r.lsq.x.length = d := by rw [hx]; simp
  set e : Fin d ≃ Fin r.lsq.x.length := finCongr hlen.symm with he
  have hsym : (r.lsq.jacᵀ * r.lsq.jac)ᵀ = r.lsq.jacᵀ * r.lsq.jac := by rw [Matrix.transpose_mul, Matrix.transpose_transpose]
  have hg : (r.lsq.jacᵀ * r.lsq.jac).submatrix e e = gram err fun j => F' (Pi.single j 1) := by
    ext i j
    rw [Matrix.submatrix_apply, Matrix.mul_apply]
    set f : ℕ → ℝ := fun a => if h : a < 2 * n then r.lsq.jac ⟨a, h⟩ (e i) * r.lsq.jac ⟨a, h⟩ (e j) else 0 with hf
    have h1 : ∑ a, r.lsq.jacᵀ (e i) a * r.lsq.jac a (e j) = ∑ a ∈ Finset.range (2 * n), f a := by
      rw [Finset.sum_range]
      refine Finset.sum_congr rfl fun a _ => ?_
      rw [hf]
      simp only [a.2, dite_true, Matrix.transpose_apply]
    rw [h1, sum_pairs]
    unfold gram
    rw [Verif.Noise.sum_zmod]
    refine Finset.sum_congr rfl fun k hk => ?_
    have hk := Finset.mem_range.1 hk
    obtain ⟨a1, a2⟩ := jac_entry hx hF hres hj i hk
    obtain ⟨b1, b2⟩ := jac_entry hx hF hres hj j hk
    have hi : ∀ i : Fin d, e i = ⟨i, by rw [hx]; simp⟩ := fun i => rfl
    rw [hf]
    simp only [show 2 * k < 2 * n by omega, show 2 * k + 1 < 2 * n by omega, dite_true, hi, a1, a2, b1, b2]
    rw [Complex.mul_re, Complex.conj_re, Complex.conj_im]
    ring
  have hc : ∀ i j : Fin d, r.covAt i j = pinv (gram err fun j => F' (Pi.single j 1)) i j := by
    intro i j
    unfold FitResult.covAt
    rw [dif_pos ⟨by omega, by omega⟩, ← hg, pinv_submatrix hsym, hcov]
    rfl
  refine ⟨hc, fun i => ?_⟩
  rw [← hc]
  unfold FitResult.errorAt FitResult.covAt
  rw [dif_pos (by omega), dif_pos ⟨by omega, by omega⟩, herr]

theorem fit_cov {o : Obj n} {pulse : ZMod n → ℝ} {guess : Option (List ℝ)} {bounds : Option (List EReal × List EReal)}
    {tau : Option ℝ} {solve : List ℝ → List EReal × List EReal → Lsq n} {r : FitResult n}
    (h : o.run pulse guess bounds tau solve = .ok r) :
    r.cov = pinv (r.lsq.jacᵀ * r.lsq.jac) ∧ ∀ i, r.errors i = Real.sqrt (r.cov i i) := by
  unfold Obj.run at h
  split_ifs at h
  cases hs : o.start pulse guess with
  | error e => rw [hs] at h; cases h
  | ok p0 =>
    rw [hs] at h
    simp only at h
    split_ifs at h
    cases hres : o.residuals p0 with
    | error e => rw [hres] at h; cases e <;> cases h
    | ok res =>
      rw [hres] at h
      simp only at h
      cases hm : o.model (solve p0 (bounds.getD (o.defaultBounds p0))).x with
      | error e => rw [hm] at h; cases h
      | ok m =>
        rw [hm] at h
        simp only at h
        cases hc : o.calcchi2 m (dofOf o.npole) with
        | error e => rw [hc] at h; cases h
        | ok c =>
          rw [hc] at h
          cases h
          exact ⟨rfl, fun i => rfl⟩

end jac

/-! ### Fits to first order -/

section honest
variable {n : ℕ} [NeZero n] {d : ℕ} {F : (Fin d → ℝ) → ZMod n → ℂ} {x₀ : Fin d → ℝ} {err : ZMod n → ℝ}

/-- The model in units of the errors. -/
noncomputable def scaled (F : (Fin d → ℝ) → ZMod n → ℂ) (err : ZMod n → ℝ) (v : Fin d → ℝ) : PiLp 2 fun _ : ZMod n => ℂ :=
  WithLp.toLp 2 fun k => F v k / err k

theorem scaled_contDiff (hF : ContDiffAt ℝ 1 F x₀) : ContDiffAt ℝ 1 (scaled F err) x₀ := by
  rw [contDiffAt_piLp]
  intro k
  unfold scaled
  simp only [div_eq_mul_inv]
  exact ((contDiffAt_pi.1 hF) k).mul contDiffAt_const

theorem scaled_fderiv (hF : ContDiffAt ℝ 1 F x₀) (u : Fin d → ℝ) (k : ZMod n) :
    fderiv ℝ (scaled F err) x₀ u k = fderiv ℝ F x₀ u k / err k := by
  have h1 := ((scaled_contDiff (err := err) hF).differentiableAt (by simp)).hasFDerivAt
  have h2 := (PiLp.proj (𝕜 := ℝ) 2 (fun _ : ZMod n => ℂ) k).hasFDerivAt.comp x₀ h1
  have h3 := (hasFDerivAt_pi'.1 (hF.differentiableAt (by simp)).hasFDerivAt) k
  have h4 := h3.mul_const ((err k : ℂ)⁻¹)
  have h5 : (fun v => F v k * (err k : ℂ)⁻¹) = (PiLp.proj (𝕜 := ℝ) 2 (fun _ : ZMod n => ℂ) k) ∘ scaled F err := by
    funext v
    simp [scaled, div_eq_mul_inv]
  rw [h5] at h4
  have h6 := congrArg (fun L : (Fin d → ℝ) →L[ℝ] ℂ => L u) (h2.unique h4)
  simp at h6
  rw [h6, div_eq_mul_inv, mul_comm]

theorem fderiv_herm (hF : ContDiffAt ℝ 1 F x₀) (hherm : ∀ᶠ v in 𝓝 x₀, ∀ k, F v (-k) = starRingEnd ℂ (F v k)) (u : Fin d → ℝ)
    (k : ZMod n) : fderiv ℝ F x₀ u (-k) = starRingEnd ℂ (fderiv ℝ F x₀ u k) := by
  have h := hasFDerivAt_pi'.1 (hF.differentiableAt (by simp)).hasFDerivAt
  have h1 := (Complex.conjCLE : ℂ →L[ℝ] ℂ).hasFDerivAt.comp x₀ (h k)
  have h2 := h1.congr_of_eventuallyEq (f₁ := fun v => F v (-k)) (by
    filter_upwards [hherm] with v hv
    simp [hv k])
  have h3 := congrArg (fun L : (Fin d → ℝ) →L[ℝ] ℂ => L u) ((h (-k)).unique h2)
  simpa using h3

theorem inner_scaled (hF : ContDiffAt ℝ 1 F x₀) (u : Fin d → ℝ) (z : ZMod n → ℂ) :
    ⟪fderiv ℝ (scaled F err) x₀ u, WithLp.toLp 2 fun k => z k / err k⟫ =
      ∑ k, (starRingEnd ℂ (fderiv ℝ F x₀ u k) * z k).re / err k ^ 2 := by
  rw [PiLp.inner_apply]
  refine Finset.sum_congr rfl fun k _ => ?_
  rw [scaled_fderiv hF, Complex.inner]
  simp only [map_div₀, Complex.conj_ofReal]
  rw [div_mul_div_comm, ← Complex.ofReal_mul, Complex.div_ofReal_re, pow_two, mul_comm (z k)]

theorem inner_gram (hF : ContDiffAt ℝ 1 F x₀) (j l : Fin d) :
    ⟪fderiv ℝ (scaled F err) x₀ (Pi.single j 1), fderiv ℝ (scaled F err) x₀ (Pi.single l 1)⟫ =
      gram err (fun j => fderiv ℝ F x₀ (Pi.single j 1)) j l := by
  have : fderiv ℝ (scaled F err) x₀ (Pi.single l 1) = WithLp.toLp 2 fun k => fderiv ℝ F x₀ (Pi.single l 1) k / err k := by
    ext k
    rw [scaled_fderiv hF]
  rw [this, inner_scaled hF]
  rfl

theorem lin_single {W : Type*} [AddCommGroup W] [Module ℝ W] [TopologicalSpace W] (L : (Fin d → ℝ) →L[ℝ] W) (u : Fin d → ℝ) :
    L u = ∑ j, u j • L (Pi.single j 1) := by
  conv_lhs => rw [pi_eq_sum_univ' u, map_sum]
  simp

theorem gram_symm (c : Fin d → ZMod n → ℂ) (j l : Fin d) : gram err c j l = gram err c l j := by
  unfold gram
  refine Finset.sum_congr rfl fun k _ => ?_
  rw [Complex.mul_re, Complex.mul_re]
  simp only [Complex.conj_re, Complex.conj_im]
  ring

theorem gram_quad (c : Fin d → ZMod n → ℂ) (a b : Fin d → ℝ) : ∑ i, ∑ j, a i * b j * gram err c i j =
    ∑ k, (starRingEnd ℂ (∑ i, (a i : ℂ) * c i k) * ∑ j, (b j : ℂ) * c j k).re / err k ^ 2 := by
  unfold gram
  simp only [Finset.mul_sum]
  rw [Finset.sum_congr rfl fun i _ => Finset.sum_comm, Finset.sum_comm]
  refine Finset.sum_congr rfl fun k _ => ?_
  rw [map_sum, ← Finset.mul_sum, Finset.sum_mul_sum, Complex.re_sum, Finset.sum_div]
  refine Finset.sum_congr rfl fun i _ => ?_
  rw [Complex.re_sum, Finset.sum_div]
  refine Finset.sum_congr rfl fun j _ => ?_
  rw [map_mul, Complex.conj_ofReal, show (a i : ℂ) * starRingEnd ℂ (c i k) * (b j * c j k) =
    ((a i * b j : ℝ) : ℂ) * (starRingEnd ℂ (c i k) * c j k) by push_cast; ring, Complex.re_ofReal_mul, mul_div_assoc]

theorem gram_det (herr : ∀ k, 0 < err k) {c : Fin d → ZMod n → ℂ} (hinj : ∀ u : Fin d → ℝ, (∀ k, ∑ j, (u j : ℂ) * c j k = 0) → u = 0) :
    (gram err c).det ≠ 0 ∧ ∀ u : Fin d → ℝ, u ≠ 0 → 0 < ∑ i, ∑ j, u i * u j * gram err c i j := by
  have hpos : ∀ u : Fin d → ℝ, u ≠ 0 → 0 < ∑ i, ∑ j, u i * u j * gram err c i j := by
    intro u hu
    rw [gram_quad]
    have hsq : ∀ z : ℂ, (starRingEnd ℂ z * z).re = ‖z‖ ^ 2 := fun z => by
      rw [mul_comm, Complex.mul_conj, Complex.ofReal_re, Complex.normSq_eq_norm_sq]
    simp only [hsq]
    by_contra hle
    have h0 : ∀ k, 0 ≤ ‖∑ j, (u j : ℂ) * c j k‖ ^ 2 / err k ^ 2 := fun k => by positivity
    have hz : ∑ k, ‖∑ j, (u j : ℂ) * c j k‖ ^ 2 / err k ^ 2 = 0 := le_antisymm (not_lt.1 hle) (Finset.sum_nonneg fun k _ => h0 k)
    rw [Finset.sum_eq_zero_iff_of_nonneg fun k _ => h0 k] at hz
    refine hu (hinj u fun k => ?_)
    have := hz k (Finset.mem_univ _)
    have he := (herr k).ne'
    simpa [he] using this
  refine ⟨fun hd => ?_, hpos⟩
  obtain ⟨v, hv, hz⟩ := Matrix.exists_mulVec_eq_zero_iff.2 hd
  have h := hpos v hv
  have : ∑ i, ∑ j, v i * v j * gram err c i j = ∑ i, v i * (gram err c *ᵥ v) i := by
    refine Finset.sum_congr rfl fun i _ => ?_
    rw [Matrix.mulVec, dotProduct, Finset.mul_sum]
    refine Finset.sum_congr rfl fun j _ => by ring
  rw [this, hz] at h
  simp at h

theorem inj_bound {W : Type*} [NormedAddCommGroup W] [NormedSpace ℝ W] (L : (Fin d → ℝ) →L[ℝ] W) (h : ∀ u, L u = 0 → u = 0) :
    ∃ c > 0, ∀ u, c * ‖u‖ ≤ ‖L u‖ := by
  obtain ⟨K, hK, hL⟩ := (L : (Fin d → ℝ) →ₗ[ℝ] W).exists_antilipschitzWith (LinearMap.ker_eq_bot'.2 h)
  refine ⟨(K : ℝ)⁻¹, by positivity, fun u => ?_⟩
  have h1 := hL.le_mul_dist u 0
  have hK' : (0 : ℝ) < K := hK
  rw [dist_zero_right] at h1
  rw [inv_mul_le_iff₀ hK']
  simpa using h1

theorem inv_tendsto {α : Type*} {l : Filter α} {M : α → Matrix (Fin d) (Fin d) ℝ} {G : Matrix (Fin d) (Fin d) ℝ} (hG : G.det ≠ 0)
    (h : Tendsto M l (𝓝 G)) : Tendsto (fun a => pinv (M a)) l (𝓝 G⁻¹) := by
  have hdet : Tendsto (fun a => (M a).det) l (𝓝 G.det) := ((continuous_id.matrix_det).tendsto G).comp h
  have hadj : Tendsto (fun a => (M a).adjugate) l (𝓝 G.adjugate) := ((continuous_id.matrix_adjugate).tendsto G).comp h
  have h1 : Tendsto (fun a => (M a).det⁻¹ • (M a).adjugate) l (𝓝 (G.det⁻¹ • G.adjugate)) := (hdet.inv₀ hG).smul hadj
  have e : ∀ N : Matrix (Fin d) (Fin d) ℝ, N⁻¹ = N.det⁻¹ • N.adjugate := fun N => by
    rw [Matrix.inv_def, Ring.inverse_eq_inv']
  rw [e]
  refine h1.congr' ?_
  filter_upwards [hdet.eventually_ne hG] with a ha
  rw [pinv_inv ha, e]

/-- Fits which find the best point and the derivatives there, of data which differ from the model by noise of size `s`. -/
theorem honest_fit (hF : ContDiffAt ℝ 1 F x₀) (hherm : ∀ᶠ v in 𝓝 x₀, ∀ k, F v (-k) = starRingEnd ℂ (F v k))
    (hinj : ∀ u, fderiv ℝ F x₀ u = 0 → u = 0) (herr : ∀ k, 0 < err k) (heven : ∀ k, err (-k) = err k) {fs : ℝ} (hfs : 0 < fs)
    {Ω : Type*} [MeasurableSpace Ω] {μ : Measure Ω} [IsProbabilityMeasure μ] {noise : Ω → ZMod n → ℝ} {R : ZMod n → ℝ}
    (hst : OF.Stationary μ noise R) (hS : ∀ k, k ≠ 0 → (fftR R k).re = fs * err k ^ 2) (hS0 : (fftR R 0).re ≤ fs * err 0 ^ 2)
    {r : Ω → ℝ → FitResult n}
    (hr : ∀ ω, ∃ y : ℝ → Fin d → ℝ, Tendsto y (𝓝[≠] 0) (𝓝 x₀) ∧ ∀ᶠ s in 𝓝[≠] 0, (r ω s).lsq.x = List.ofFn (y s) ∧
      IsLocalMin (fun v => ∑ k, ‖F x₀ k + s * (fftR (noise ω) k / (Real.sqrt (fs * n) : ℂ)) - F v k‖ ^ 2 / err k ^ 2) (y s) ∧
      (∀ i j : Fin d, (r ω s).covAt i j = pinv (gram err fun j => fderiv ℝ F (y s) (Pi.single j 1)) i j) ∧
      ∀ i : Fin d, (r ω s).errorAt i = Real.sqrt (pinv (gram err fun j => fderiv ℝ F (y s) (Pi.single j 1)) i i)) :
    Honest μ d (List.ofFn x₀) r ((fftR R 0).re = fs * err 0 ^ 2) := by
  set c : Fin d → ZMod n → ℂ := fun j => fderiv ℝ F x₀ (Pi.single j 1) with hc
  set G := gram err c with hG
  have hlin : ∀ (u : Fin d → ℝ) k, fderiv ℝ F x₀ u k = ∑ j, (u j : ℂ) * c j k := by
    intro u k
    rw [lin_single (fderiv ℝ F x₀) u, Finset.sum_apply]
    simp [hc]
  obtain ⟨hdet, hpos⟩ := gram_det (err := err) (c := c) herr fun u hu => hinj u (by funext k; rw [hlin, hu k]; rfl)
  have hunit : IsUnit G.det := isUnit_iff_ne_zero.2 hdet
  have hGs : Gᵀ = G := by ext i j; exact gram_symm c j i
  set C := G⁻¹ with hCdef
  have hCs : Cᵀ = C := by rw [hCdef, Matrix.transpose_nonsing_inv, hGs]
  have hCsym : ∀ i j, C i j = C j i := fun i j => congrFun (congrFun hCs j) i
  have hCGC : ∀ i j, ∑ a, ∑ b, C i a * C j b * G a b = C i j := by
    intro i j
    have h1 : C * G * Cᵀ = C := by rw [hCs, hCdef, Matrix.nonsing_inv_mul _ hunit, Matrix.one_mul]
    have h2 := congrFun (congrFun h1 i) j
    rw [Matrix.mul_apply] at h2
    rw [← h2, Finset.sum_comm]
    refine Finset.sum_congr rfl fun b _ => ?_
    rw [Matrix.mul_apply, Matrix.transpose_apply, Finset.sum_mul]
    refine Finset.sum_congr rfl fun a _ => by ring
  have hherm' : ∀ j k, c j (-k) = starRingEnd ℂ (c j k) := fun j k => fderiv_herm hF hherm _ k
  -- the filters
  choose h hh hx using fun j => filter_of (fs := fs) heven (hherm' j)
  set g : Fin d → ZMod n → ℝ := fun i m => ∑ j, C i j * h j m with hg
  have hgc : ∀ i k, fftR (g i) k = (∑ j, (C i j : ℂ) * c j k) * ((n / (Real.sqrt (fs * n) * err k ^ 2) : ℝ) : ℂ) := by
    intro i k
    rw [fftR_apply, hg]
    simp only [Complex.ofReal_sum, Complex.ofReal_mul, Finset.mul_sum]
    rw [Finset.sum_comm, Finset.sum_mul]
    refine Finset.sum_congr rfl fun j _ => ?_
    rw [mul_assoc, ← hh, fftR_apply, Finset.mul_sum]
    refine Finset.sum_congr rfl fun m _ => by ring
  set D : Ω → Fin d → ℝ := fun ω i => ∑ m, g i m * noise ω m with hDdef
  have hDb : ∀ ω i, D ω i = ∑ j, C i j * ∑ m, h j m * noise ω m := by
    intro ω i
    rw [hDdef, hg]
    simp only [Finset.sum_mul, Finset.mul_sum]
    rw [Finset.sum_comm]
    refine Finset.sum_congr rfl fun j _ => Finset.sum_congr rfl fun m _ => by ring
  have hGD : ∀ ω j, ∑ i, G j i * D ω i = ∑ m, h j m * noise ω m := by
    intro ω j
    have h1 : D ω = C *ᵥ fun j => ∑ m, h j m * noise ω m := by funext i; rw [hDb]; rfl
    have h2 : G *ᵥ D ω = fun j => ∑ m, h j m * noise ω m := by
      rw [h1, Matrix.mulVec_mulVec, hCdef, Matrix.mul_nonsing_inv _ hunit, Matrix.one_mulVec]
    exact congrFun h2 j
  -- covariances
  have hcov : ∀ i j, ∫ ω, D ω i * D ω j ∂μ = ∑ k, (starRingEnd ℂ (∑ a, (C i a : ℂ) * c a k) * ∑ a, (C j a : ℂ) * c a k).re /
      err k ^ 2 * ((fftR R k).re / (fs * err k ^ 2)) := fun i j =>
    cov_of hst hfs herr (hgc i) (hgc j) fun k => (psd_even hst k).2
  have hCk : ∀ i j, C i j = ∑ k, (starRingEnd ℂ (∑ a, (C i a : ℂ) * c a k) * ∑ a, (C j a : ℂ) * c a k).re / err k ^ 2 := by
    intro i j
    rw [← gram_quad, hCGC]
  have hratio : ∀ k, k ≠ 0 → (fftR R k).re / (fs * err k ^ 2) = 1 := fun k hk => by
    have := herr k
    rw [hS k hk, div_self (by positivity)]
  have hpinv : ∀ {y : ℝ → Fin d → ℝ}, Tendsto y (𝓝[≠] 0) (𝓝 x₀) →
      Tendsto (fun s => pinv (gram err fun j => fderiv ℝ F (y s) (Pi.single j 1))) (𝓝[≠] 0) (𝓝 C) := by
    intro y hy
    refine inv_tendsto hdet (tendsto_pi_nhds.2 fun i => tendsto_pi_nhds.2 fun j => ?_)
    have hcont : ContinuousAt (fderiv ℝ F) x₀ := (hF.fderiv_right (m := 0) (by simp)).continuousAt
    have hcj : ∀ j k, Tendsto (fun s => fderiv ℝ F (y s) (Pi.single j 1) k) (𝓝[≠] 0) (𝓝 (c j k)) := fun j k =>
      (tendsto_pi_nhds.1 (((ContinuousLinearMap.apply ℝ (ZMod n → ℂ) (Pi.single j 1 : Fin d → ℝ)).continuous.tendsto _).comp
        (hcont.tendsto.comp hy))) k
    refine tendsto_finsetSum _ fun k _ => ?_
    exact ((Complex.continuous_re.tendsto _).comp (((Complex.continuous_conj.tendsto _).comp (hcj i k)).mul (hcj j k))).div_const _
  refine ⟨D, C, ?_, ?_, ?_, ?_, ?_, ?_, ?_, ?_⟩
  · -- first order
    intro ω i
    obtain ⟨y, hy, hev⟩ := hr ω
    set X : ZMod n → ℂ := fun k => fftR (noise ω) k / (Real.sqrt (fs * n) : ℂ) with hX
    set e : PiLp 2 fun _ : ZMod n => ℂ := WithLp.toLp 2 fun k => X k / err k with he
    obtain ⟨κ, hκ, hb⟩ := inj_bound (fderiv ℝ (scaled F err) x₀) fun u hu => hinj u (by
      funext k
      have h1 := congrArg (fun z : PiLp 2 fun _ : ZMod n => ℂ => z k) hu
      simp only [scaled_fderiv hF] at h1
      have h2 : ((err k : ℝ) : ℂ) ≠ 0 := by exact_mod_cast (herr k).ne'
      have h3 : fderiv ℝ F x₀ u k / err k = 0 := h1
      rw [div_eq_zero_iff] at h3
      exact h3.resolve_right h2)
    have hmin : ∀ᶠ s in 𝓝[≠] 0, IsLocalMin (fun v => ‖scaled F err x₀ + s • e - scaled F err v‖ ^ 2) (y s) := by
      filter_upwards [hev] with s hs
      refine hs.2.1.congr (Eventually.of_forall fun v => ?_)
      simp only
      rw [PiLp.norm_sq_eq_of_L2]
      refine Finset.sum_congr rfl fun k _ => ?_
      have hz : (scaled F err x₀ + s • e - scaled F err v) k = (F x₀ k + s * X k - F v k) / err k := by
        simp only [scaled, he, PiLp.sub_apply, PiLp.add_apply, PiLp.smul_apply, Complex.real_smul]
        ring
      rw [hz, norm_div, div_pow, Complex.norm_real, Real.norm_eq_abs, sq_abs]
    have hDorth : ∀ u, ⟪fderiv ℝ (scaled F err) x₀ u, e - fderiv ℝ (scaled F err) x₀ (D ω)⟫ = 0 := by
      intro u
      rw [lin_single (fderiv ℝ (scaled F err) x₀) u, sum_inner]
      refine Finset.sum_eq_zero fun j _ => ?_
      rw [inner_smul_left, inner_sub_right, he, inner_scaled hF, lin_single (fderiv ℝ (scaled F err) x₀) (D ω), inner_sum]
      simp only [inner_smul_right, inner_gram hF]
      have h1 := hGD ω j
      rw [hx] at h1
      simp only [hG, hc] at h1
      rw [← h1]
      simp only [mul_comm, sub_self, zero_mul]
    have hlim := first_order (scaled_contDiff hF) hκ hb hy hmin hDorth
    have hi := (tendsto_pi_nhds.1 hlim) i
    refine hi.congr' ?_
    filter_upwards [hev] with s hs
    rw [hs.1]
    simp [div_eq_inv_mul]
  · intro ω i j
    obtain ⟨y, hy, hev⟩ := hr ω
    refine (tendsto_pi_nhds.1 (tendsto_pi_nhds.1 (hpinv hy) i) j).congr' ?_
    filter_upwards [hev] with s hs
    rw [hs.2.2.1]
  · intro ω i
    obtain ⟨y, hy, hev⟩ := hr ω
    refine ((Real.continuous_sqrt.tendsto _).comp (tendsto_pi_nhds.1 (tendsto_pi_nhds.1 (hpinv hy) i) i)).congr' ?_
    filter_upwards [hev] with s hs
    rw [hs.2.2.2]
    rfl
  · intro i
    have h1 := hpos (C i) (fun h0 => ?_)
    · rw [hCGC] at h1; exact h1
    · have h2 : (C * G) i i = 1 := by rw [hCdef, Matrix.nonsing_inv_mul _ hunit, Matrix.one_apply_eq]
      rw [Matrix.mul_apply] at h2
      simp [h0] at h2
  · intro i
    exact memLp_finsetSum _ fun m _ => (hst.sq_int m).const_mul _
  · intro i
    exact hst.lin (g i)
  · intro w
    set gw : ZMod n → ℝ := fun m => ∑ i, w i * g i m with hgw
    have hgwc : ∀ k, fftR gw k = (∑ i, (w i : ℂ) * ∑ j, (C i j : ℂ) * c j k) * ((n / (Real.sqrt (fs * n) * err k ^ 2) : ℝ) : ℂ) := by
      intro k
      rw [fftR_apply, hgw]
      simp only [Complex.ofReal_sum, Complex.ofReal_mul, Finset.mul_sum]
      rw [Finset.sum_comm, Finset.sum_mul]
      refine Finset.sum_congr rfl fun i _ => ?_
      rw [← Finset.mul_sum, mul_assoc, ← hgc, fftR_apply, Finset.mul_sum]
      refine Finset.sum_congr rfl fun m _ => by ring
    have h1 : ∀ ω, (∑ i, w i * D ω i) ^ 2 = (∑ m, gw m * noise ω m) * ∑ m, gw m * noise ω m := by
      intro ω
      rw [pow_two]
      have : ∑ i, w i * D ω i = ∑ m, gw m * noise ω m := by
        rw [hDdef, hgw]
        simp only [Finset.sum_mul, Finset.mul_sum]
        rw [Finset.sum_comm]
        refine Finset.sum_congr rfl fun m _ => Finset.sum_congr rfl fun i _ => by ring
      rw [this]
    simp only [h1]
    rw [cov_of hst hfs herr hgwc hgwc fun k => (psd_even hst k).2]
    have h2 : ∑ i, ∑ j, w i * w j * C i j = ∑ k, (starRingEnd ℂ (∑ i, (w i : ℂ) * ∑ j, (C i j : ℂ) * c j k) *
        ∑ i, (w i : ℂ) * ∑ j, (C i j : ℂ) * c j k).re / err k ^ 2 := by
      rw [← gram_quad (err := err) (fun i k => ∑ j, (C i j : ℂ) * c j k) w w]
      refine Finset.sum_congr rfl fun i _ => Finset.sum_congr rfl fun j _ => ?_
      rw [hCk i j]
      rfl
    rw [h2]
    refine Finset.sum_le_sum fun k _ => ?_
    set z := ∑ i, (w i : ℂ) * ∑ j, (C i j : ℂ) * c j k with hz
    have hsq : (starRingEnd ℂ z * z).re = ‖z‖ ^ 2 := by
      rw [mul_comm, Complex.mul_conj, Complex.ofReal_re, Complex.normSq_eq_norm_sq]
    rw [hsq]
    have h3 : (fftR R k).re / (fs * err k ^ 2) ≤ 1 := by
      by_cases hk : k = 0
      · subst hk
        have := herr 0
        rw [div_le_one (by positivity)]
        exact hS0
      · exact (hratio k hk).le
    exact mul_le_of_le_one_right (by positivity) h3
  · intro hfull i j
    rw [hcov, hCk i j]
    refine Finset.sum_congr rfl fun k _ => ?_
    have h3 : (fftR R k).re / (fs * err k ^ 2) = 1 := by
      by_cases hk : k = 0
      · subst hk
        have := herr 0
        rw [hfull, div_self (by positivity)]
      · exact hratio k hk
    rw [h3, mul_one]

theorem fftR_noisy (pulse noise : ZMod n → ℝ) (s : ℝ) (k : ZMod n) :
    fftR (fun j => pulse j + s * noise j) k = fftR pulse k + s * fftR noise k := by
  rw [fftR_apply, fftR_apply, fftR_apply, Finset.mul_sum, ← Finset.sum_add_distrib]
  refine Finset.sum_congr rfl fun j _ => ?_
  push_cast
  ring

omit [NeZero n] in
theorem close_ofFn {ε : ℝ} {x : List ℝ} (h : Close ε x (List.ofFn x₀)) :
    x = List.ofFn (fun i : Fin d => x.getD i 0) ∧ ∀ i : Fin d, |x.getD i 0 - x₀ i| < ε := by
  have hlen : x.length = d := by rw [h.length_eq]; simp
  refine ⟨List.ext_getElem (by simp [hlen]) fun i h1 h2 => ?_, fun i => ?_⟩
  · simp [h1]
  · have := (List.forall₂_iff_get.1 h).2 i (by omega) (by simp)
    simpa [hlen] using this

/-- Best fits whose parameters approach the truth have errors which are as reported. -/
theorem honest_best {psd : ZMod n → ℝ} {fs errscale : ℝ} {tmpl : Option (List ℝ)} {npole : ℤ} {guess : List ℝ} {tau : Option ℝ}
    {scale : Bool} {pulse : ZMod n → ℝ} (hpsd : ∀ k, k ≠ 0 → 0 < psd k) (hes : 0 < errscale) (hfs : 0 < fs)
    (hF : ContDiffAt ℝ 1 F x₀) (hherm : ∀ᶠ v in 𝓝 x₀, ∀ k, F v (-k) = starRingEnd ℂ (F v k))
    (hinj : ∀ u, fderiv ℝ F x₀ u = 0 → u = 0)
    (hmod : ∀ᶠ v in 𝓝 x₀, ∀ pulse', ((init psd fs tmpl).prepare pulse' npole errscale tau scale).model (List.ofFn v) = .ok (F v))
    (hbd : ∀ᶠ v in 𝓝 x₀, ∀ pulse', Within (((init psd fs tmpl).prepare pulse' npole errscale tau scale).defaultBounds guess)
      (List.ofFn v))
    (hdata : ∀ k, fftR pulse k / (Real.sqrt (fs * n) : ℂ) = F x₀ k)
    {Ω : Type*} [MeasurableSpace Ω] {μ : Measure Ω} [IsProbabilityMeasure μ] {noise : Ω → ZMod n → ℝ} {R : ZMod n → ℝ}
    (hst : OF.Stationary μ noise R) (hS : StatedNoise R psd fs errscale) {r : Ω → ℝ → FitResult n}
    (hr : ∀ ω, ∀ᶠ s in 𝓝[≠] 0, BestFit psd fs tmpl npole errscale guess tau scale (fun j => pulse j + s * noise ω j) (r ω s))
    (hcl : ∀ ω, ∀ ε > 0, ∀ᶠ s in 𝓝[≠] 0, Close ε (r ω s).lsq.x (List.ofFn x₀)) :
    Honest μ d (List.ofFn x₀) r ((fftR R 0).re = fs * (10 ^ 40 / errscale)) := by
  set err : ZMod n → ℝ := fun k => Real.sqrt (Function.update psd 0 (10 ^ 40) k / errscale) with herrdef
  have herr : ∀ k, 0 < err k := fun k => error_pos (fs := fs) tmpl pulse npole tau scale hpsd hes k
  have hsq : ∀ k, err k ^ 2 = Function.update psd 0 (10 ^ 40) k / errscale := fun k =>
    Real.sq_sqrt (Real.sqrt_pos.1 (herr k)).le
  have hS1 : ∀ k, k ≠ 0 → (fftR R k).re = fs * err k ^ 2 := fun k hk => by
    rw [hS.1 k hk, Complex.ofReal_re, hsq, Function.update_of_ne hk]
  have h0 : err 0 ^ 2 = 10 ^ 40 / errscale := by rw [hsq, Function.update_self]
  have heven : ∀ k, err (-k) = err k := by
    intro k
    by_cases hk : k = 0
    · rw [hk, neg_zero]
    have h1 := hS1 k hk
    have h2 := hS1 (-k) (neg_ne_zero.2 hk)
    rw [(psd_even hst k).1, h1] at h2
    have h3 : err k ^ 2 = err (-k) ^ 2 := mul_left_cancel₀ hfs.ne' h2
    exact ((pow_left_inj₀ (herr k).le (herr (-k)).le two_ne_zero).1 h3).symm
  rw [← h0]
  refine honest_fit hF hherm hinj herr heven hfs hst hS1 (by rw [h0]; exact hS.2) fun ω => ?_
  refine ⟨fun s i => (r ω s).lsq.x.getD i 0, ?_, ?_⟩
  · refine tendsto_pi_nhds.2 fun i => Metric.tendsto_nhds.2 fun ε hε => ?_
    filter_upwards [hcl ω ε hε] with s hs
    exact (close_ofFn hs).2 i
  · have hy : Tendsto (fun (s : ℝ) (i : Fin d) => (r ω s).lsq.x.getD i 0) (𝓝[≠] 0) (𝓝 x₀) :=
      tendsto_pi_nhds.2 fun i => Metric.tendsto_nhds.2 fun ε hε => by
        filter_upwards [hcl ω ε hε] with s hs
        exact (close_ofFn hs).2 i
    have hdiff : ∀ᶠ v in 𝓝 x₀, HasFDerivAt F (fderiv ℝ F v) v := by
      filter_upwards [hF.eventually (by simp)] with v hv
      exact (hv.differentiableAt (by simp)).hasFDerivAt
    filter_upwards [hr ω, hcl ω 1 one_pos, hy.eventually hdiff, hy.eventually (eventually_eventually_nhds.2 hmod),
      hy.eventually (eventually_eventually_nhds.2 hbd)] with s hs hc1 hd hm hb
    have hx := (close_ofFn hc1).1
    set y : Fin d → ℝ := fun i => (r ω s).lsq.x.getD i 0 with hydef
    obtain ⟨solve, o, hfit, hbest, hjac⟩ := hs
    unfold Obj.fit at hfit
    rw [Prod.mk.injEq] at hfit
    obtain ⟨ho, hrun⟩ := hfit
    have hoe : o.error = err := by rw [← ho]; rfl
    have hod : ∀ k, o.data k = F x₀ k + s * (fftR (noise ω) k / (Real.sqrt (fs * n) : ℂ)) := by
      intro k
      rw [← ho, ← hdata]
      show fftR (fun j => pulse j + s * noise ω j) k / (Real.sqrt (fs * n) : ℂ) = _
      rw [fftR_noisy]
      ring
    rw [ho] at hrun
    have hm' : ∀ᶠ v in 𝓝 y, o.model (List.ofFn v) = .ok (F v) := by
      filter_upwards [hm] with v hv
      rw [← ho]
      exact hv _
    have hb' : ∀ᶠ v in 𝓝 y, Within (o.defaultBounds guess) (List.ofFn v) := by
      filter_upwards [hb] with v hv
      rw [← ho]
      exact hv _
    have hres : ∀ᶠ v in 𝓝 y, o.residuals (List.ofFn v) = .ok (flatten (fun k => o.data k - F v k) err) := by
      filter_upwards [hm'] with v hv
      rw [residuals_ok (by rw [hoe]; exact herr) hv, hoe]
    obtain ⟨hcov, herrs⟩ := fit_cov hrun
    refine ⟨hx, ?_, cov_gram hcov herrs hx hd hres hjac⟩
    obtain ⟨-, res, hres0, hmin⟩ := hbest
    have hself := hres.self_of_nhds
    rw [← hx, hres0] at hself
    cases hself
    show ∀ᶠ v in 𝓝 y, _
    filter_upwards [hres, hb'] with v hv hbv
    have := hmin _ _ hbv hv
    rw [flatten_sq, flatten_sq] at this
    simpa only [hod] using this

end honest

/-! ### Two poles -/

section two
variable {n : ℕ} [NeZero n]

theorem ratio_contDiff {V : Type*} [NormedAddCommGroup V] [NormedSpace ℝ V] {a b : V → ℝ} {v : V} (ha : ContDiffAt ℝ 1 a v)
    (hb : ContDiffAt ℝ 1 b v) (h0 : 0 < a v) (h : a v < b v) : ContDiffAt ℝ 1
      (fun p => (b p - a p) / ((a p / b p) ^ (a p / (b p - a p)) - (a p / b p) ^ (b p / (b p - a p)))) v := by
  have hb0 : b v ≠ 0 := (h0.trans h).ne'
  have hd : b v - a v ≠ 0 := by linarith
  have hr : ContDiffAt ℝ 1 (fun p => a p / b p) v := ha.div hb hb0
  have hr0 : a v / b v ≠ 0 := (div_pos h0 (h0.trans h)).ne'
  exact (hb.sub ha).div ((hr.rpow (ha.div (hb.sub ha) hd) hr0).sub (hr.rpow (hb.div (hb.sub ha) hd) hr0)) (diff_exp_pos h0 h).ne'

theorem weight_contDiff (scale : Bool) {V : Type*} [NormedAddCommGroup V] [NormedSpace ℝ V] {a b : V → ℝ} {v : V}
    (ha : ContDiffAt ℝ 1 a v) (hb : ContDiffAt ℝ 1 b v) (ha0 : 0 < a v) (hb0 : 0 < b v) (hne : a v ≠ b v) :
    ContDiffAt ℝ 1 (fun p => weight scale (a p) (b p)) v := by
  cases scale with
  | false => exact (hb.sub ha).congr_of_eventuallyEq (Eventually.of_forall fun p => rfl)
  | true =>
    rcases lt_or_gt_of_ne hne with h | h
    · refine (ratio_contDiff ha hb ha0 h).congr_of_eventuallyEq ?_
      filter_upwards [ha.continuousAt.eventually_lt hb.continuousAt h] with p hp
      unfold weight
      rw [if_pos rfl, if_pos hp]
    · refine (ratio_contDiff hb ha hb0 h).neg.congr_of_eventuallyEq ?_
      filter_upwards [hb.continuousAt.eventually_lt ha.continuousAt h] with p hp
      unfold weight
      rw [if_pos rfl, if_neg (not_lt.2 hp.le)]

theorem weight_ne (scale : Bool) {τr τf : ℝ} (hr : 0 < τr) (hf : 0 < τf) (hne : τr ≠ τf) : weight scale τr τf ≠ 0 := by
  rcases lt_or_gt_of_ne hne with h | h
  · exact (weight_pos scale hr h).ne'
  · exact (weight_neg scale hf h).ne

/-- The two-pole model as a function of four numbers. -/
noncomputable def two (n : ℕ) [NeZero n] (fs : ℝ) (scale : Bool) (D τr τf t : ℝ) (k : ZMod n) : ℂ :=
  twoSpec (D * weight scale τr τf) τr τf t (2 * Real.pi * fftfreq fs k) * Real.sqrt (fs / n)

theorem two_model {psd : ZMod n → ℝ} {fs errscale : ℝ} {tmpl : Option (List ℝ)} {tau : Option ℝ} {scale : Bool}
    (pulse' : ZMod n → ℝ) (npole : ℤ) {A τr τf t : ℝ} (hr : 0 < τr) (hf : 0 < τf) (hne : τr ≠ τf) :
    ((init psd fs tmpl).prepare pulse' npole errscale tau scale).twopole A τr τf t = .ok (two n fs scale A τr τf t) := by
  set o := (init psd fs tmpl).prepare pulse' npole errscale tau scale with ho
  have hok : ∃ m, o.twopole A τr τf t = .ok m := by
    unfold Obj.twopole
    split_ifs
    · have : scaledAmp A τr τf = .ok (A / ((τr / τf) ^ (-τr / (τr - τf)) - (τr / τf) ^ (-τf / (τr - τf)))) :=
        if_neg (by
          rintro (h | h | h)
          · exact hf.ne' h
          · exact hne (sub_eq_zero.1 h)
          · exact absurd (div_pos hr hf) (not_lt.2 h.le))
      rw [this]
      exact ⟨_, rfl⟩
    · exact ⟨_, rfl⟩
  obtain ⟨m, hm⟩ := hok
  rw [hm]
  congr 1
  funext k
  rw [twopole_spec hr hf hm k]
  rfl

theorem two_contDiff {fs : ℝ} {scale : Bool} {V : Type*} [NormedAddCommGroup V] [NormedSpace ℝ V] {D a b t : V → ℝ} {v : V}
    (hD : ContDiffAt ℝ 1 D v) (ha : ContDiffAt ℝ 1 a v) (hb : ContDiffAt ℝ 1 b v) (ht : ContDiffAt ℝ 1 t v)
    (ha0 : 0 < a v) (hb0 : 0 < b v) (hne : a v ≠ b v) :
    ContDiffAt ℝ 1 (fun p => two n fs scale (D p) (a p) (b p) (t p)) v := by
  refine contDiffAt_pi.2 fun k => ?_
  have hof : ∀ {f : V → ℝ}, ContDiffAt ℝ 1 f v → ContDiffAt ℝ 1 (fun p => ((f p : ℝ) : ℂ)) v := fun hf =>
    Complex.ofRealCLM.contDiff.contDiffAt.comp v hf
  have hw := hof (hD.mul (weight_contDiff scale ha hb ha0 hb0 hne))
  have h1 : ∀ {f : V → ℝ}, ContDiffAt ℝ 1 f v → ContDiffAt ℝ 1
      (fun p => (1 + ((2 * Real.pi * fftfreq fs k : ℝ) : ℂ) * (f p : ℂ) * Complex.I)) v := fun hf =>
    contDiffAt_const.add ((contDiffAt_const.mul (hof hf)).mul contDiffAt_const)
  have he : ContDiffAt ℝ 1 (fun p => Complex.exp (-((2 * Real.pi * fftfreq fs k : ℝ) : ℂ) * (t p : ℂ) * Complex.I)) v :=
    ((contDiffAt_const.mul (hof ht)).mul contDiffAt_const).cexp
  have hd : ∀ {f g : V → ℂ}, ContDiffAt ℝ 1 f v → ContDiffAt ℝ 1 g v → g v ≠ 0 → ContDiffAt ℝ 1 (fun p => f p / g p) v :=
    fun hf hg h0 => by
      simp only [div_eq_mul_inv]
      exact hf.mul (hg.inv h0)
  unfold two twoSpec
  exact ((hd (hd hw (h1 hb) (one_add_ne _ _)) (h1 ha) (one_add_ne _ _)).mul he).mul contDiffAt_const

theorem two_herm (fs : ℝ) (scale : Bool) (hodd : Odd n) (D τr τf t : ℝ) (k : ZMod n) :
    two n fs scale D τr τf t (-k) = starRingEnd ℂ (two n fs scale D τr τf t k) := by
  have hw : 2 * Real.pi * fftfreq fs (-k) = -(2 * Real.pi * fftfreq fs k) := by
    unfold fftfreq
    rw [Didv.freqIdx_neg k (by rcases hodd with ⟨a, ha⟩; omega)]
    push_cast
    ring
  unfold two twoSpec
  rw [hw]
  simp only [map_mul, map_div₀, map_add, map_one, Complex.conj_ofReal, Complex.conj_I, ← Complex.exp_conj, map_neg]
  push_cast
  ring_nf

/-- Where all derivatives of a two-pole spectrum along a direction vanish in two bins, the direction is zero. -/
theorem two_dir {D τr τf D' r' f' t' w : ℝ} (hD : D ≠ 0) (hr : 0 < τr) (hf : 0 < τf) (hne : τr ≠ τf) (hw : w ≠ 0)
    (h : ∀ ω : ℝ, ω = w ∨ ω = 2 * w → (D' - D * t' * (ω * Complex.I : ℂ)) * ((1 + ω * τf * Complex.I) * (1 + ω * τr * Complex.I)) =
      D * (ω * f' * Complex.I * (1 + ω * τr * Complex.I) + ω * r' * Complex.I * (1 + ω * τf * Complex.I))) :
    D' = 0 ∧ r' = 0 ∧ f' = 0 ∧ t' = 0 := by
  have key : ∀ ω : ℝ, (D' - D * t' * (ω * Complex.I : ℂ)) * ((1 + ω * τf * Complex.I) * (1 + ω * τr * Complex.I)) =
      D * (ω * f' * Complex.I * (1 + ω * τr * Complex.I) + ω * r' * Complex.I * (1 + ω * τf * Complex.I)) →
      D' + ω ^ 2 * (-(D' * τf * τr) + D * t' * (τf + τr) + D * (f' * τr + r' * τf)) = 0 ∧
      ω * (D' * (τf + τr) - D * t' - D * f' - D * r' + D * t' * τf * τr * ω ^ 2) = 0 := by
    intro ω e
    have e1 := congrArg Complex.re e
    have e2 := congrArg Complex.im e
    simp at e1 e2
    constructor
    · linear_combination e1
    · linear_combination e2
  obtain ⟨a1, a2⟩ := key w (h w (.inl rfl))
  obtain ⟨b1, b2⟩ := key (2 * w) (h (2 * w) (.inr rfl))
  have hw2 : w ^ 2 ≠ 0 := pow_ne_zero _ hw
  have h2w : 2 * w ≠ 0 := by simpa using hw
  have c2 := (mul_eq_zero.1 a2).resolve_left hw
  have d2 := (mul_eq_zero.1 b2).resolve_left h2w
  have ht : t' = 0 := by
    have : (3 * D * τf * τr * w ^ 2) * t' = 0 := by linear_combination d2 - c2
    exact (mul_eq_zero.1 this).resolve_left (by simp [hD, hf.ne', hr.ne', hw])
  subst ht
  have hD' : D' = 0 := by
    have : 3 * D' = 0 := by linear_combination 4 * a1 - b1
    linarith
  subst hD'
  have e1 : f' * τr + r' * τf = 0 := by
    have : w ^ 2 * D * (f' * τr + r' * τf) = 0 := by linear_combination a1
    exact (mul_eq_zero.1 this).resolve_left (by simp [hD, hw])
  have e2 : f' + r' = 0 := by
    have : D * (f' + r') = 0 := by linear_combination -c2
    exact (mul_eq_zero.1 this).resolve_left hD
  have e3 : r' * (τf - τr) = 0 := by linear_combination e1 - τr * e2
  have hr' : r' = 0 := (mul_eq_zero.1 e3).resolve_right (sub_ne_zero.2 hne.symm)
  refine ⟨rfl, hr', ?_, rfl⟩
  linarith

/-- The derivative of the two-pole spectrum along a curve. -/
theorem two_deriv {D a b t : ℝ → ℝ} {D' a' b' t' : ℝ} (hD : HasDerivAt D D' 0) (ha : HasDerivAt a a' 0) (hb : HasDerivAt b b' 0)
    (ht : HasDerivAt t t' 0) (ω : ℝ) (h : HasDerivAt (fun s => twoSpec (D s) (a s) (b s) (t s) ω) 0 0) :
    (D' - D 0 * t' * (ω * Complex.I : ℂ)) * ((1 + ω * b 0 * Complex.I) * (1 + ω * a 0 * Complex.I)) =
      D 0 * (ω * b' * Complex.I * (1 + ω * a 0 * Complex.I) + ω * a' * Complex.I * (1 + ω * b 0 * Complex.I)) := by
  have hl : ∀ {f : ℝ → ℝ} {f' : ℝ}, HasDerivAt f f' 0 → HasDerivAt (fun s => (1 + ω * (f s : ℂ) * Complex.I)) (ω * f' * Complex.I) 0 :=
    fun hf => ((hf.ofReal_comp.const_mul (ω : ℂ)).mul_const Complex.I).const_add 1
  have he : HasDerivAt (fun s => Complex.exp (-ω * (t s : ℂ) * Complex.I))
      (Complex.exp (-ω * (t 0 : ℂ) * Complex.I) * (-ω * t' * Complex.I)) 0 :=
    ((ht.ofReal_comp.const_mul (-ω : ℂ)).mul_const Complex.I).cexp
  have h1 := h.fun_mul ((hl hb).fun_mul (hl ha))
  have h2 := hD.ofReal_comp.fun_mul he
  have h3 : (fun s => twoSpec (D s) (a s) (b s) (t s) ω * ((1 + ω * (b s : ℂ) * Complex.I) * (1 + ω * (a s : ℂ) * Complex.I))) =
      fun s => (D s : ℂ) * Complex.exp (-ω * (t s : ℂ) * Complex.I) := by
    funext s
    unfold twoSpec
    have e1 := one_add_ne ω (a s)
    have e2 := one_add_ne ω (b s)
    generalize (1 + ω * (a s : ℂ) * Complex.I) = A at *
    generalize (1 + ω * (b s : ℂ) * Complex.I) = B at *
    field_simp
  rw [h3] at h1
  have h4 := h1.unique h2
  have e1 := one_add_ne ω (a 0)
  have e2 := one_add_ne ω (b 0)
  have e3 : Complex.exp (-ω * (t 0 : ℂ) * Complex.I) ≠ 0 := Complex.exp_ne_zero _
  unfold twoSpec at h4
  generalize Complex.exp (-ω * (t 0 : ℂ) * Complex.I) = E at *
  generalize hA : (1 + ω * (a 0 : ℂ) * Complex.I) = A at *
  generalize hB : (1 + ω * (b 0 : ℂ) * Complex.I) = B at *
  rw [zero_mul, zero_add, div_div, div_mul_eq_mul_div, div_mul_eq_mul_div, div_eq_iff (mul_ne_zero e2 e1)] at h4
  refine mul_right_cancel₀ e3 ?_
  linear_combination -h4

theorem two_inj {fs : ℝ} (hfs : 0 < fs) (hn : 4 < n) {scale : Bool} {A τr τf t u0 u1 u2 u3 : ℝ} (hA : A ≠ 0) (hr : 0 < τr) (hf : 0 < τf)
    (hne : τr ≠ τf)
    (h : HasDerivAt (fun s => two n fs scale (A + s * u0) (τr + s * u1) (τf + s * u2) (t + s * u3)) 0 0) :
    u0 = 0 ∧ u1 = 0 ∧ u2 = 0 ∧ u3 = 0 := by
  have hn0 : (0 : ℝ) < n := by exact_mod_cast NeZero.pos n
  have hlin : ∀ x u : ℝ, HasDerivAt (fun s => x + s * u) u 0 := fun x u => by
    simpa using ((hasDerivAt_id (0 : ℝ)).mul_const u).const_add x
  have hcl : ∀ x u : ℝ, ContDiffAt ℝ 1 (fun s => x + s * u) (0 : ℝ) := fun x u =>
    contDiffAt_const.add (contDiffAt_id.mul contDiffAt_const)
  have hwc := weight_contDiff scale (hcl τr u1) (hcl τf u2) (by simpa using hr) (by simpa using hf) (by simpa using hne)
  have hw := (hwc.differentiableAt (by simp)).hasDerivAt
  set w' := deriv (fun s => weight scale (τr + s * u1) (τf + s * u2)) 0 with hw'
  have hD := (hlin A u0).fun_mul hw
  have hcst : ((Real.sqrt (fs / n) : ℝ) : ℂ) ≠ 0 := by exact_mod_cast (Real.sqrt_pos.2 (by positivity)).ne'
  have hbin : ∀ k : ZMod n, HasDerivAt (fun s => twoSpec ((A + s * u0) * weight scale (τr + s * u1) (τf + s * u2)) (τr + s * u1)
      (τf + s * u2) (t + s * u3) (2 * Real.pi * fftfreq fs k)) 0 0 := by
    intro k
    have h1 := (hasDerivAt_pi.1 h k).mul_const ((Real.sqrt (fs / n) : ℂ)⁻¹)
    rw [Pi.zero_apply, zero_mul] at h1
    refine h1.congr_of_eventuallyEq (Eventually.of_forall fun s => ?_)
    simp only [two]
    rw [mul_inv_cancel_right₀ hcst]
  have hdir := fun k => two_deriv hD (hlin τr u1) (hlin τf u2) (hlin t u3) _ (hbin k)
  simp only [zero_mul, add_zero] at hdir
  have hfreq : ∀ j : ℕ, 2 * j < n → 2 * Real.pi * fftfreq fs ((j : ℕ) : ZMod n) = j * (2 * Real.pi * fs / n) := by
    intro j hj
    unfold fftfreq freqIdx
    rw [ZMod.val_cast_of_lt (by omega), if_pos (by omega)]
    push_cast
    ring
  have hpi := Real.pi_pos
  have hwt := weight_ne scale hr hf hne
  have h1 := hdir ((1 : ℕ) : ZMod n)
  have h2 := hdir ((2 : ℕ) : ZMod n)
  rw [hfreq 1 (by omega)] at h1
  rw [hfreq 2 (by omega)] at h2
  obtain ⟨e0, e1, e2, e3⟩ := two_dir (D' := u0 * weight scale τr τf + A * w') (r' := u1) (f' := u2) (t' := u3) (w := 2 * Real.pi * fs / n) (mul_ne_zero hA hwt) hr hf hne (by positivity) (by
    intro ω hω
    rcases hω with rfl | rfl
    · rw [Nat.cast_one, one_mul] at h1
      exact h1
    · exact h2)
  subst e1 e2
  have hw0 : w' = 0 := by
    rw [hw']
    simp
  rw [hw0, mul_zero, add_zero] at e0
  exact ⟨(mul_eq_zero.1 e0).resolve_right hwt, rfl, rfl, e3⟩

theorem line_deriv {V W : Type*} [NormedAddCommGroup V] [NormedSpace ℝ V] [NormedAddCommGroup W] [NormedSpace ℝ W] {F : V → W} {x₀ : V}
    (hF : ContDiffAt ℝ 1 F x₀) {u : V} (hu : fderiv ℝ F x₀ u = 0) : HasDerivAt (fun s : ℝ => F (x₀ + s • u)) 0 0 := by
  have h1 : HasDerivAt (fun s : ℝ => x₀ + s • u) u 0 := by
    simpa using ((hasDerivAt_id (0 : ℝ)).smul_const u).const_add x₀
  have h2 := HasFDerivAt.comp_hasDerivAt (f := fun s : ℝ => x₀ + s • u) (0 : ℝ)
    (l := F) (l' := fderiv ℝ F x₀) (by simpa using (hF.differentiableAt (by simp)).hasFDerivAt) h1
  rw [hu] at h2
  exact h2

theorem within_ofFn {d : ℕ} {lo hi : Fin d → ℝ} {x₀ : Fin d → ℝ} (h : ∀ i, lo i < x₀ i ∧ x₀ i < hi i) :
    ∀ᶠ v in 𝓝 x₀, Within ((List.ofFn lo).map (↑), (List.ofFn hi).map (↑)) (List.ofFn v) := by
  have : ∀ᶠ v in 𝓝 x₀, ∀ i, lo i < v i ∧ v i < hi i := by
    refine eventually_all.2 fun i => ?_
    exact ((continuous_apply i).tendsto x₀).eventually ((isOpen_Ioi.mem_nhds (h i).1 |> fun a => Filter.inter_mem a (isOpen_Iio.mem_nhds (h i).2)))
  filter_upwards [this] with v hv
  constructor
  · refine List.forall₂_iff_get.2 ⟨by simp, fun i h1 h2 => ?_⟩
    simpa using (hv ⟨i, by simpa using h2⟩).1.le
  · refine List.forall₂_iff_get.2 ⟨by simp, fun i h1 h2 => ?_⟩
    simpa using (hv ⟨i, by simpa using h2⟩).2.le

theorem noisy_near (pulse noise : ZMod n → ℝ) {η : ℝ} (hη : 0 < η) :
    ∀ᶠ s in 𝓝[≠] (0 : ℝ), ∀ j, |pulse j + s * noise j - pulse j| < η := by
  refine eventually_all.2 fun j => ?_
  have h : Tendsto (fun s : ℝ => |pulse j + s * noise j - pulse j|) (𝓝[≠] 0) (𝓝 0) := by
    have : ContinuousAt (fun s : ℝ => |pulse j + s * noise j - pulse j|) 0 := by fun_prop
    have h1 := this.tendsto
    simp only [zero_mul, add_zero, sub_self, abs_zero] at h1
    exact h1.mono_left nhdsWithin_le_nhds
  exact h.eventually_lt_const hη

end two

end Verif.NonLin
