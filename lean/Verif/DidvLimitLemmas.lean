import Verif.DidvLimitSpec
import Verif.DidvProcProps
import Verif.DidvObjProps
import Verif.DeviceNoiseProps
import Verif.OFLimitProps

/-! Auxiliary lemmas of property C145. -/

namespace Verif.Device
open Verif Verif.Dft Verif.Didv MeasureTheory ProbabilityTheory Filter Topology

/-- Bins with drive are not their own mirror image. -/
theorem drive_pair {o : Obj} {n : ℕ} [NeZero n] {k : ZMod n} (h : drive o k ≠ 0) : k ≠ -k := by
  intro hk
  unfold drive at h
  split_ifs at h with h1
  · exact h rfl
  · by_cases h0 : k = 0
    · subst h0
      apply h
      unfold sqWave
      have : fftfreq (1 / (1 / o.fs)) (0 : ZMod n) = 0 := by simp [fftfreq, freqIdx]
      dsimp only
      have hn : ¬ nearOne 0 := by
        unfold nearOne
        norm_num
      have e : |fftfreq (1 / (1 / o.fs)) (0 : ZMod n) / o.sgfreq| = 0 := by rw [this, zero_div, abs_zero]
      rw [e]
      split_ifs with q
      · rfl
      · rename_i q
        rcases q with q | ⟨-, q⟩
        exacts [absurd q hn, absurd rfl q]
      · rfl
    · have := ZMod.neg_val k
      rw [if_neg h0, ← hk] at this
      have hlt := ZMod.val_lt k
      apply h1
      omega

/-- One trace at a bin with drive. -/
theorem deconv_driven {o : Obj} {n : ℕ} [NeZero n] {k : ZMod n} {t : ZMod n → ℝ}
    (h0 : fftR t k ≠ 0) (h1 : ‖fftR t k‖ ≤ 10 ^ 16 * ‖drive o k‖) :
    deconvolve (1 / o.fs) t o.rsh o.sgamp o.sgfreq o.duty k = (.ok (fftR t k / drive o k), false) := by
  unfold deconvolve
  change (if fftR t k = 0 then _ else if ‖drive o k / fftR t k‖ < 1 / 10 ^ 16 then _ else _) = _
  rw [if_neg h0, if_neg]
  · change (Except.ok (1 / (drive o k / fftR t k)), false) = _
    rw [one_div_div]
  · rw [not_lt, norm_div, div_le_div_iff₀ (by positivity) (norm_pos_iff.2 h0)]
    linarith

/-- The flag of any trace within the limit. -/
theorem flag_driven {o : Obj} {n : ℕ} [NeZero n] {k : ZMod n} {t : ZMod n → ℝ}
    (h1 : ‖fftR t k‖ ≤ 10 ^ 16 * ‖drive o k‖) :
    (deconvolve (1 / o.fs) t o.rsh o.sgamp o.sgfreq o.duty k).2 = false := by
  unfold deconvolve
  change (if fftR t k = 0 then _ else if ‖drive o k / fftR t k‖ < 1 / 10 ^ 16 then _ else _ : Except Err ℂ × Bool).2 = _
  by_cases h0 : fftR t k = 0
  · rw [if_pos h0]
  · rw [if_neg h0, if_neg]
    rw [not_lt, norm_div, div_le_div_iff₀ (by positivity) (norm_pos_iff.2 h0)]
    linarith

/-- A trace without vanishing bins is used. -/
theorem deconv_any {o : Obj} {n : ℕ} [NeZero n] {k : ZMod n} {t : ZMod n → ℝ} (h0 : fftR t k ≠ 0) :
    ∃ y, (deconvolve (1 / o.fs) t o.rsh o.sgamp o.sgfreq o.duty k).1 = .ok y := by
  unfold deconvolve
  simp only [if_neg h0]
  split_ifs <;> exact ⟨_, rfl⟩

section Quadrature
variable {Ω : Type*} [MeasurableSpace Ω] {μ : Measure Ω} {n : ℕ} [NeZero n]

/-- One quadrature of a bin, as a filter. -/
theorem quad_lin (c : ℂ) (k : ZMod n) (x : ZMod n → ℝ) :
    (fftR x k * c).re = ∑ j, (e (-(j * k)) * c).re * x j := by
  rw [fftR_apply, Finset.sum_mul, Complex.re_sum]
  refine Finset.sum_congr rfl fun j _ => ?_
  rw [mul_right_comm, Complex.re_mul_ofReal]

theorem quad_fft (c : ℂ) (k k' : ZMod n) :
    fftR (fun j => (e (-(j * k)) * c).re) k' =
      n * ((if k' = -k then c else 0) + if k' = k then starRingEnd ℂ c else 0) / 2 := by
  rw [fftR_apply]
  have h1 : ∀ j : ZMod n, e (-(j * k')) * (((e (-(j * k)) * c).re : ℝ) : ℂ) =
      (e (j * (-k - k')) * c + e (j * (k - k')) * starRingEnd ℂ c) / 2 := by
    intro j
    rw [Complex.re_eq_add_conj, map_mul, conj_e, neg_neg, mul_div_assoc', mul_add, ← mul_assoc, ← mul_assoc, ← e_add, ← e_add]
    congr 4 <;> ring
  simp only [h1]
  rw [← Finset.sum_div, Finset.sum_add_distrib, ← Finset.sum_mul, ← Finset.sum_mul, sum_e_mul, sum_e_mul]
  have e1 : -k - k' = 0 ↔ k' = -k := by rw [sub_eq_zero, eq_comm]
  have e2 : k - k' = 0 ↔ k' = k := by rw [sub_eq_zero, eq_comm]
  simp only [e1, e2]
  split_ifs <;> ring

/-- The part of the noise in one quadrature of a bin which is not its own mirror image has half the power. -/
theorem quadrature {noise : Ω → ZMod n → ℝ} {R : ZMod n → ℝ} (h : OF.Stationary μ noise R) {k : ZMod n} (hk : k ≠ -k)
    (c : ℂ) : ∫ ω, (fftR (noise ω) k * c).re ^ 2 ∂μ = n * ‖c‖ ^ 2 * (fftR R k).re / 2 := by
  have hn : (n : ℝ) ≠ 0 := Nat.cast_ne_zero.2 (NeZero.ne n)
  simp only [quad_lin]
  rw [h.var]
  have h1 : ∀ k', ‖fftR (fun j => (e (-(j * k)) * c).re) k'‖ ^ 2 * (fftR R k').re =
      (if k' = -k then n ^ 2 * ‖c‖ ^ 2 / 4 * (fftR R k).re else 0) +
      if k' = k then n ^ 2 * ‖c‖ ^ 2 / 4 * (fftR R k).re else 0 := by
    intro k'
    rw [quad_fft]
    by_cases a : k' = -k
    · subst a
      rw [if_pos rfl, if_neg hk.symm, if_pos rfl, if_neg hk.symm, fftR_neg, Complex.conj_re, add_zero, add_zero, norm_div, norm_mul,
        Complex.norm_natCast, Complex.norm_ofNat]
      ring
    · by_cases b : k' = k
      · subst b
        rw [if_neg a, if_pos rfl, if_neg a, if_pos rfl, zero_add, zero_add, norm_div, norm_mul, Complex.norm_natCast,
          Complex.norm_ofNat, Complex.norm_conj]
        ring
      · rw [if_neg a, if_neg b, if_neg a, if_neg b]
        simp
  simp only [h1, Finset.sum_add_distrib, Finset.sum_ite_eq', Finset.mem_univ, if_true]
  field_simp
  ring

/-- The law of large numbers for one quadrature and its square. -/
theorem quad_law [IsProbabilityMeasure μ] {noise : ℕ → Ω → ZMod n → ℝ} {R : ZMod n → ℝ} (h : OF.Run μ noise R) {k : ZMod n}
    (hk : k ≠ -k) (c : ℂ) :
    ∀ᵐ ω ∂μ, Tendsto (fun m : ℕ => (∑ i ∈ Finset.range m, (fftR (noise i ω) k * c).re) / m) atTop (𝓝 0) ∧
      Tendsto (fun m : ℕ => (∑ i ∈ Finset.range m, (fftR (noise i ω) k * c).re ^ 2) / m) atTop
        (𝓝 (n * ‖c‖ ^ 2 * (fftR R k).re / 2)) := by
  have hm : Measurable fun y : ZMod n → ℝ => (fftR y k * c).re := by
    simp only [quad_lin]
    fun_prop
  have h1 := strong_law_ae_real (fun i ω => (fftR (noise i ω) k * c).re)
    (by simp only [quad_lin]; exact h.stationary.int_lin _)
    (fun i j hij => (h.independent hij).comp hm hm) fun i => (h.alike i).comp hm
  have h2 := strong_law_ae_real (fun i ω => (fftR (noise i ω) k * c).re ^ 2)
    (by simp only [quad_lin, pow_two]; exact h.stationary.int_lin2 _ _)
    (fun i j hij => (h.independent hij).comp (hm.pow_const 2) (hm.pow_const 2)) fun i => (h.alike i).comp (hm.pow_const 2)
  have e1 : ∫ ω, (fftR (noise 0 ω) k * c).re ∂μ = 0 := by
    simp only [quad_lin]
    exact h.stationary.lin _
  rw [e1] at h1
  rw [quadrature h.stationary hk] at h2
  exact h1.and h2

end Quadrature

theorem lsum_range {α : Type*} [AddCommMonoid α] (f : ℕ → α) (m : ℕ) :
    ((List.range m).map f).sum = ∑ i ∈ Finset.range m, f i := by
  induction m with
  | zero => rfl
  | succ m ih => rw [List.range_succ, List.map_append, List.sum_append, ih, Finset.sum_range_succ]; simp

/-- The standard error of a list whose first two moments converge. -/
theorem stdErr_limit {x : ℕ → ℝ} {v : ℝ} {q e : ℕ → ℝ} {a : ℝ} (h : ∀ m, 0 < m →
      IsStdErr ((List.range m).map fun i => a + x i) (q m) (e m))
    (h1 : Tendsto (fun m : ℕ => (∑ i ∈ Finset.range m, x i) / m) atTop (𝓝 0))
    (h2 : Tendsto (fun m : ℕ => (∑ i ∈ Finset.range m, x i ^ 2) / m) atTop (𝓝 v)) :
    Tendsto q atTop (𝓝 a) ∧ Tendsto (fun m : ℕ => Real.sqrt m * e m) atTop (𝓝 (Real.sqrt v)) := by
  have key : ∀ m : ℕ, 0 < m → q m = a + (∑ i ∈ Finset.range m, x i) / m ∧
      Real.sqrt m * e m = Real.sqrt ((∑ i ∈ Finset.range m, x i ^ 2) / m - ((∑ i ∈ Finset.range m, x i) / m) ^ 2) := by
    intro m hm
    obtain ⟨g1, g2, g3⟩ := h m hm
    have hm' : (0 : ℝ) < m := Nat.cast_pos.2 hm
    simp only [List.length_map, List.length_range, List.map_map] at g2 g3
    rw [lsum_range, Finset.sum_add_distrib, Finset.sum_const, Finset.card_range, nsmul_eq_mul] at g2
    rw [lsum_range] at g3
    set S := ∑ i ∈ Finset.range m, x i with hS
    set Q := ∑ i ∈ Finset.range m, x i ^ 2 with hQ
    have hq : q m = a + S / m := by
      field_simp
      linarith
    refine ⟨hq, ?_⟩
    have hsum : ∑ i ∈ Finset.range m, ((fun x => (x - q m) ^ 2) ∘ fun i => a + x i) i = Q - S ^ 2 / m := by
      have e1 : ∀ i, ((fun x => (x - q m) ^ 2) ∘ fun i => a + x i) i = x i ^ 2 - 2 * (S / m) * x i + (S / m) ^ 2 := by
        intro i
        simp only [Function.comp, hq]
        ring
      simp only [e1, Finset.sum_add_distrib, Finset.sum_sub_distrib, ← Finset.mul_sum, Finset.sum_const, Finset.card_range,
        nsmul_eq_mul]
      rw [← hS, ← hQ]
      field_simp
      ring
    rw [hsum] at g3
    have e2 : Q / m - (S / m) ^ 2 = (Real.sqrt m * e m) ^ 2 := by
      rw [mul_pow, Real.sq_sqrt hm'.le]
      field_simp at g3 ⊢
      linarith
    rw [e2, Real.sqrt_sq (mul_nonneg (Real.sqrt_nonneg _) g1)]
  constructor
  · have := h1.const_add a
    rw [add_zero] at this
    refine this.congr' ?_
    filter_upwards [eventually_gt_atTop 0] with m hm
    exact (key m hm).1.symm
  · have := (h2.sub (h1.pow 2)).sqrt
    simp only [ne_eq, OfNat.ofNat_ne_zero, not_false_eq_true, zero_pow, sub_zero] at this
    refine this.congr' ?_
    filter_upwards [eventually_gt_atTop 0] with m hm
    exact (key m hm).2.symm

theorem freqAt_eq {n : ℕ} [NeZero n] (fs : ℝ) (k : ZMod n) : freqAt n fs k.val = fftfreq fs k := by
  obtain ⟨m, rfl⟩ : ∃ m, n = m + 1 := Nat.exists_eq_succ_of_ne_zero (NeZero.ne n)
  unfold freqAt
  simp only [ZMod.natCast_zmod_val]

theorem sum_val {n : ℕ} [NeZero n] (f : ℕ → ℝ) : ∑ k : ZMod n, f k.val = ∑ j ∈ Finset.range n, f j := by
  obtain ⟨m, rfl⟩ : ∃ m, n = m + 1 := Nat.exists_eq_succ_of_ne_zero (NeZero.ne n)
  exact Fin.sum_univ_eq_sum_range f (m + 1)

theorem deconvAt_eq {n : ℕ} [NeZero n] (dx : ℝ) (t : ℕ → ℝ) (rsh sgamp sgfreq duty : ℝ) (k : ZMod n) :
    deconvAt n dx t rsh sgamp sgfreq duty k.val = deconvolve dx (fun j : ZMod n => t j.val) rsh sgamp sgfreq duty k := by
  obtain ⟨m, rfl⟩ : ∃ m, n = m + 1 := Nat.exists_eq_succ_of_ne_zero (NeZero.ne n)
  unfold deconvAt
  simp only [ZMod.natCast_zmod_val]

/-- What is stored after `m` traces. -/
theorem processed_first {o : Obj} {n : ℕ} [NeZero n] {tr : ZMod n → ℝ} {W : ZMod n → ℂ} {t : ℕ → ℕ → ℝ}
    {w : ℕ → ZMod n → ℝ} (hb : nBins o.nraw o.fs o.sgfreq = n) (h2 : 2 ≤ n)
    (hW : ∀ k, drive o k ≠ 0 → fftR tr k = drive o k * W k) (hs : ∀ i (j : ZMod n), t i j.val / o.gain = tr j + w i j)
    (h0 : ∀ i k, fftR (fun j => tr j + w i j) k ≠ 0)
    (h1 : ∀ i k, drive o k ≠ 0 → ‖fftR (fun j => tr j + w i j) k‖ ≤ 10 ^ 16 * ‖drive o k‖) {m : ℕ} (hm : 0 < m) :
    (processtraces (first o t m)).1 = .ok () ∧ ∃ q, (processtraces (first o t m)).2.proc = some q ∧ q.nbins = n ∧
      (∀ j : ZMod n, q.tmean j.val = tr j + (∑ i ∈ Finset.range m, w i j) / m) ∧
      (∀ k, drive o k ≠ 0 →
        IsStdErr ((List.range m).map fun i => (W k).re + (fftR (w i) k * (drive o k)⁻¹).re) (q.didvmean k.val).re
          (q.didvstd k.val).re ∧
        IsStdErr ((List.range m).map fun i => (W k).im + (fftR (w i) k * (drive o k)⁻¹).im) (q.didvmean k.val).im
          (q.didvstd k.val).im) ∧
      ∀ k : ZMod n, drive o k = 0 → q.didvmean k.val = 1 / (1 + Complex.I) ∧
        (q.didvstd k.val = (1 + Complex.I) * 10 ^ 20 ∨ q.didvstd k.val = 0) := by
  have hm' : (m : ℝ) ≠ 0 := Nat.cast_ne_zero.2 hm.ne'
  have hfun : ∀ i, (fun j : ZMod n => t i j.val / o.gain) = fun j => tr j + w i j := fun i => funext (hs i)
  have husable : ∀ i, Usable (first o t m) n (t i) := by
    intro i k hk
    have hkv : ((k : ZMod n)).val = k := ZMod.val_cast_of_lt hk
    have := deconvAt_eq (1 / o.fs) (fun i' => t i i' / o.gain) o.rsh o.sgamp o.sgfreq o.duty (k : ZMod n)
    rw [hkv] at this
    change ∃ y, (deconvAt n (1 / o.fs) (fun i' => t i i' / o.gain) o.rsh o.sgamp o.sgfreq o.duty k).1 = .ok y
    rw [this, hfun]
    exact deconv_any (h0 i _)
  have hused : used (first o t m) n = (List.range m).map t := by
    unfold used
    refine (List.filter_eq_self.2 fun y hy => ?_).trans rfl
    · obtain ⟨i, -, rfl⟩ := List.mem_map.1 hy
      exact (@decide_eq_true_iff _ (Classical.propDecidable _)).2 (husable i)
  have hkept : keptTraces (first o t m) n = (List.range m).map fun i i' => t i i' / o.gain := by
    unfold keptTraces
    rw [List.filter_eq_self.2]
    · exact List.map_map
    · intro y hy
      obtain ⟨z, hz, rfl⟩ := List.mem_map.1 hy
      obtain ⟨i, -, rfl⟩ := List.mem_map.1 hz
      classical exact decide_eq_true (husable i)
  have hne : (List.range m) ≠ [] := by
    rw [ne_eq, List.range_eq_nil]
    exact hm.ne'
  have hok : (processtraces (first o t m)).1 = .ok () := by
    rcases process_cases (first o t m) with ⟨e, -⟩ | ⟨-, e, -⟩ | ⟨-, -, e, -⟩ | ⟨-, -, -, e⟩
    · exact absurd (List.map_eq_nil_iff.1 e) hne
    · change nBins o.nraw o.fs o.sgfreq < 2 at e
      omega
    · change keptTraces (first o t m) (nBins o.nraw o.fs o.sgfreq) = [] at e
      rw [hb, hkept] at e
      exact absurd (List.map_eq_nil_iff.1 e) hne
    · rw [e]
  obtain ⟨hq, -, -⟩ := process_ok hok
  change (processtraces (first o t m)).2.proc = some (procOf (shiftDt0 (first o t m)) (nBins o.nraw o.fs o.sgfreq)
    (keptTraces (first o t m) (nBins o.nraw o.fs o.sgfreq))) at hq
  rw [hb] at hq
  refine ⟨hok, _, hq, rfl, ?_⟩
  set q := procOf (shiftDt0 (first o t m)) n (keptTraces (first o t m) n) with hqd
  have hqn : q.nbins = n := rfl
  have htm : ∀ j : ZMod n, q.tmean j.val = tr j + (∑ i ∈ Finset.range m, w i j) / m := by
    intro j
    have e := (processed_averages hok hq).2.1 j.val
    rw [hqn, hused, List.map_map, List.length_map, List.length_range, lsum_range] at e
    change (m : ℝ) * q.tmean j.val = ∑ i ∈ Finset.range m, t i j.val / o.gain at e
    simp only [hs, Finset.sum_add_distrib, Finset.sum_const, Finset.card_range, nsmul_eq_mul] at e
    field_simp
    linarith
  have htd : ∀ i (k : ZMod n), traceDidv (first o t m) n k.val (t i) =
      match (deconvolve (1 / o.fs) (fun j => tr j + w i j) o.rsh o.sgamp o.sgfreq o.duty k).1 with
      | .ok y => y
      | .error _ => 0 := by
    intro i k
    unfold traceDidv deconvVal
    rw [deconvAt_eq]
    change (match (deconvolve (1 / o.fs) (fun j : ZMod n => t i j.val / o.gain) o.rsh o.sgamp o.sgfreq o.duty k).1 with
      | .ok y => y
      | .error _ => 0) = _
    rw [hfun]
  refine ⟨htm, fun k hd => ?_, fun k hd => ?_⟩
  · have hv : ∀ i, traceDidv (first o t m) n k.val (t i) = W k + fftR (w i) k * (drive o k)⁻¹ := by
      intro i
      rw [htd, deconv_driven (h0 i k) (h1 i k hd), fftR_add, hW k hd]
      field_simp
    have hflag : (deconvAt q.nbins (1 / (first o t m).fs) q.tmean (first o t m).rsh (first o t m).sgamp (first o t m).sgfreq
        (first o t m).duty k.val).2 = false := by
      rw [hqn, deconvAt_eq]
      refine flag_driven ?_
      have e : (fun j : ZMod n => q.tmean j.val) = fun j => (m : ℝ)⁻¹ * ∑ i ∈ Finset.range m, (tr j + w i j) := by
        funext j
        rw [htm, Finset.sum_add_distrib, Finset.sum_const, Finset.card_range, nsmul_eq_mul]
        field_simp
      have e2 : fftR (fun j => ∑ i ∈ Finset.range m, (tr j + w i j)) k =
          ∑ i ∈ Finset.range m, fftR (fun j => tr j + w i j) k := by
        simp only [fftR_apply]
        rw [Finset.sum_comm]
        refine Finset.sum_congr rfl fun j _ => ?_
        rw [Complex.ofReal_sum, Finset.mul_sum]
      rw [e, fftR_smul, e2, norm_mul, Complex.norm_real, norm_inv, Real.norm_natCast]
      have e3 : ‖∑ i ∈ Finset.range m, fftR (fun j => tr j + w i j) k‖ ≤ m * (10 ^ 16 * ‖drive o k‖) := by
        refine (norm_sum_le _ _).trans ((Finset.sum_le_sum fun i _ => h1 i k hd).trans ?_)
        rw [Finset.sum_const, Finset.card_range, nsmul_eq_mul]
      calc (m : ℝ)⁻¹ * ‖∑ i ∈ Finset.range m, fftR (fun j => tr j + w i j) k‖
          ≤ (m : ℝ)⁻¹ * (m * (10 ^ 16 * ‖drive o k‖)) := mul_le_mul_of_nonneg_left e3 (by positivity)
        _ = _ := by rw [inv_mul_cancel_left₀ hm']; rfl
    have hd2 := processed_didv hok hq k.val
    rw [hflag, if_neg (by simp), hqn, hused, List.map_map, List.map_map] at hd2
    simp only [Function.comp_def, hv, Complex.add_re, Complex.add_im] at hd2
    exact hd2
  · have hfl : ∀ i, traceDidv (first o t m) n k.val (t i) = 1 / (1 + Complex.I) := by
      intro i
      rw [htd]
      unfold deconvolve
      change (match (if fftR (fun j => tr j + w i j) k = 0 then _ else if ‖drive o k / fftR (fun j => tr j + w i j) k‖ < 1 / 10 ^ 16
        then _ else _ : Except Err ℂ × Bool).1 with
        | .ok y => y
        | .error _ => 0) = _
      rw [if_neg (h0 i k), hd, zero_div, norm_zero, if_pos (by positivity)]
    have hmc : (m : ℂ) ≠ 0 := Nat.cast_ne_zero.2 hm.ne'
    have hlen : (used (first o t m) n).length = m := by rw [hused, List.length_map, List.length_range]
    have hd2 := processed_didv hok hq k.val
    rw [hqn, hlen, hused, List.map_map, List.map_map, List.map_map] at hd2
    simp only [Function.comp_def, hfl] at hd2
    split_ifs at hd2
    · obtain ⟨a1, a2, a3⟩ := hd2
      rw [lsum_range, Finset.sum_const, Finset.card_range, nsmul_eq_mul] at a3
      refine ⟨mul_left_cancel₀ hmc a3, Or.inl (Complex.ext ?_ ?_)⟩
      · rw [a1]
        have : ((1 + Complex.I) * 10 ^ 20 : ℂ) = ⟨10 ^ 20, 10 ^ 20⟩ := by
          apply Complex.ext <;> simp [← Complex.ofReal_ofNat, ← Complex.ofReal_pow]
        rw [this]
      · rw [a2]
        have : ((1 + Complex.I) * 10 ^ 20 : ℂ) = ⟨10 ^ 20, 10 ^ 20⟩ := by
          apply Complex.ext <;> simp [← Complex.ofReal_ofNat, ← Complex.ofReal_pow]
        rw [this]
    · have key : ∀ {c μ' s : ℝ}, IsStdErr ((List.range m).map fun _ => c) μ' s → μ' = c ∧ s = 0 := by
        intro c μ' s h
        obtain ⟨g1, g2, g3⟩ := h
        rw [List.length_map, List.length_range, lsum_range, Finset.sum_const, Finset.card_range, nsmul_eq_mul] at g2
        have hc := mul_left_cancel₀ hm' g2
        refine ⟨hc, ?_⟩
        rw [List.map_map, lsum_range, hc] at g3
        simp only [Function.comp_def, sub_self, ne_eq, OfNat.ofNat_ne_zero, not_false_eq_true, zero_pow, Finset.sum_const_zero,
          List.length_map, List.length_range] at g3
        exact (mul_eq_zero.1 (pow_eq_zero_iff two_ne_zero |>.1 g3)).resolve_left hm'
      obtain ⟨b1, b2⟩ := key hd2.1
      obtain ⟨c1, c2⟩ := key hd2.2
      exact ⟨Complex.ext b1 c1, Or.inr (Complex.ext b2 c2)⟩

section Limit
variable {Ω : Type*} [MeasurableSpace Ω] {μ : Measure Ω} [IsProbabilityMeasure μ] {o : Obj} {n : ℕ} [NeZero n]
  {tr : ZMod n → ℝ} {W : ZMod n → ℂ} {trace : ℕ → Ω → ℕ → ℝ} {noise : ℕ → Ω → ZMod n → ℝ} {R : ZMod n → ℝ}

/-- The limits of everything stored. -/
theorem campaign_limit (h : Campaign μ o tr W trace noise R) {psd : ZMod n → ℝ}
    (hR : OF.HasPsd R o.fs fun k => (psd k : WithTop ℝ)) :
    ∀ᵐ ω ∂μ, ∃ q : ℕ → Proc,
      (∀ m, 0 < m → (processtraces (first o (fun i => trace i ω) m)).1 = .ok () ∧
        (processtraces (first o (fun i => trace i ω) m)).2.proc = some (q m) ∧ (q m).nbins = n) ∧
      (∀ j : ZMod n, Tendsto (fun m => (q m).tmean j.val) atTop (𝓝 (tr j))) ∧
      (∀ k : ZMod n, drive o k ≠ 0 →
        Tendsto (fun m => (q m).didvmean k.val) atTop (𝓝 (W k)) ∧
        Tendsto (fun m : ℕ => Real.sqrt m * ((q m).didvstd k.val).re) atTop
          (𝓝 (Real.sqrt (n * o.fs * psd k / 2) / ‖drive o k‖)) ∧
        Tendsto (fun m : ℕ => Real.sqrt m * ((q m).didvstd k.val).im) atTop
          (𝓝 (Real.sqrt (n * o.fs * psd k / 2) / ‖drive o k‖))) ∧
      ∀ k : ZMod n, drive o k = 0 → ∀ m, 0 < m → (q m).didvmean k.val = 1 / (1 + Complex.I) ∧
        ((q m).didvstd k.val = (1 + Complex.I) * 10 ^ 20 ∨ (q m).didvstd k.val = 0) := by
  have hq : ∀ k : ZMod n, drive o k ≠ 0 → ∀ c : ℂ, ∀ᵐ ω ∂μ,
      Tendsto (fun m : ℕ => (∑ i ∈ Finset.range m, (fftR (noise i ω) k * c).re) / m) atTop (𝓝 0) ∧
      Tendsto (fun m : ℕ => (∑ i ∈ Finset.range m, (fftR (noise i ω) k * c).re ^ 2) / m) atTop
        (𝓝 (n * ‖c‖ ^ 2 * (fftR R k).re / 2)) := fun k hk c => quad_law h.run (drive_pair hk) c
  have h1 : ∀ᵐ ω ∂μ, ∀ k : ZMod n, drive o k ≠ 0 → _ := ae_all_iff.2 fun k => by
    by_cases hk : drive o k = 0
    · exact Eventually.of_forall fun ω hk' => absurd hk hk'
    · filter_upwards [hq k hk (drive o k)⁻¹] with ω hω _ using hω
  have h2 : ∀ᵐ ω ∂μ, ∀ k : ZMod n, drive o k ≠ 0 → _ := ae_all_iff.2 fun k => by
    by_cases hk : drive o k = 0
    · exact Eventually.of_forall fun ω hk' => absurd hk hk'
    · filter_upwards [hq k hk ((drive o k)⁻¹ * -Complex.I)] with ω hω _ using hω
  have h3 : ∀ᵐ ω ∂μ, ∀ j : ZMod n, Tendsto (fun m : ℕ => (∑ i ∈ Finset.range m, noise i ω j) / m) atTop (𝓝 0) := by
    refine ae_all_iff.2 fun j => ?_
    have := strong_law_ae_real (fun i ω => noise i ω j) ((h.run.stationary.sq_int j).integrable one_le_two)
      (fun i i' hij => (h.run.independent hij).comp (measurable_pi_apply j) (measurable_pi_apply j))
      fun i => (h.run.alike i).comp (measurable_pi_apply j)
    rwa [h.run.stationary.mean] at this
  filter_upwards [h1, h2, h3, h.valid] with ω g1 g2 g3 gv
  have key := fun m (hm : 0 < m) => processed_first (t := fun i => trace i ω) (w := fun i => noise i ω) h.bins h.two h.response
    (fun i j => h.split i ω j) (fun i k => (gv i k).1) (fun i k => (gv i k).2) (m := m) hm
  choose hok q' hproc hn htm hdr hun using key
  classical
  set q : ℕ → Proc := fun m => if hm : 0 < m then q' m hm else q' 1 one_pos with hqd
  have hqq : ∀ m (hm : 0 < m), q m = q' m hm := fun m hm => by simp only [hqd, dif_pos hm]
  have hv : ∀ k : ZMod n, n * ‖(drive o k)⁻¹‖ ^ 2 * (fftR R k).re / 2 = n * o.fs * psd k / 2 / ‖drive o k‖ ^ 2 := by
    intro k
    rw [hR k _ rfl, Complex.ofReal_re, norm_inv]
    ring
  have hsq : ∀ k : ZMod n, Real.sqrt (n * o.fs * psd k / 2 / ‖drive o k‖ ^ 2) = Real.sqrt (n * o.fs * psd k / 2) / ‖drive o k‖ :=
    fun k => by rw [Real.sqrt_div' _ (sq_nonneg _), Real.sqrt_sq (norm_nonneg _)]
  refine ⟨q, fun m hm => ?_, fun j => ?_, fun k hk => ?_, fun k hk m hm => by rw [hqq m hm]; exact hun m hm k hk⟩
  · rw [hqq m hm]
    exact ⟨hok m hm, hproc m hm, hn m hm⟩
  · have := (g3 j).const_add (tr j)
    rw [add_zero] at this
    refine this.congr' ?_
    filter_upwards [eventually_gt_atTop 0] with m hm
    rw [hqq m hm, htm]
  · have him : ∀ i, (fftR (noise i ω) k * ((drive o k)⁻¹ * -Complex.I)).re = (fftR (noise i ω) k * (drive o k)⁻¹).im := by
      intro i
      rw [← mul_assoc]
      simp
    have a1 := stdErr_limit (fun m hm => (hqq m hm ▸ hdr m hm k hk).1) (g1 k hk).1 (g1 k hk).2
    have b := g2 k hk
    simp only [him, norm_mul, norm_neg, Complex.norm_I, mul_one] at b
    have a2 := stdErr_limit (fun m hm => (hqq m hm ▸ hdr m hm k hk).2) b.1 b.2
    rw [hv, hsq] at a1 a2
    refine ⟨?_, a1.2, a2.2⟩
    have e : ∀ z : ℂ, z = (z.re : ℂ) + z.im * Complex.I := fun z => (Complex.re_add_im z).symm
    rw [e (W k)]
    refine Tendsto.congr (fun m => (e _).symm) ?_
    exact ((Complex.continuous_ofReal.tendsto _).comp a1.1).add (((Complex.continuous_ofReal.tendsto _).comp a2.1).mul_const _)

end Limit

end Verif.Device
