import Verif.DidvLimitLemmas

/-!
Property C145: with more traces the averaged dI/dV and the fitted response become the true ones.
-/

namespace Verif.Device
open Verif Verif.Dft Verif.Didv MeasureTheory ProbabilityTheory Filter Topology

variable {Ω : Type*} [MeasurableSpace Ω] {μ : Measure Ω} [IsProbabilityMeasure μ] {o : Obj} {n : ℕ} [NeZero n]
  {tr : ZMod n → ℝ} {W : ZMod n → ℂ} {trace : ℕ → Ω → ℕ → ℝ} {noise : ℕ → Ω → ZMod n → ℝ} {R : ZMod n → ℝ}

/-- Almost surely the averaged trace tends to the response, and the averaged dI/dV to its spectrum in every bin with drive;
its error bars, in the real and the imaginary part, fall like one over the square root of the number of traces, with half the
noise power in each. -/
theorem average_consistent (h : Campaign μ o tr W trace noise R) {psd : ZMod n → ℝ}
    (hR : OF.HasPsd R o.fs fun k => (psd k : WithTop ℝ)) :
    ∀ᵐ ω ∂μ, ∃ q : ℕ → Proc,
      (∀ m, 0 < m → (processtraces (first o (fun i => trace i ω) m)).1 = .ok () ∧
        (processtraces (first o (fun i => trace i ω) m)).2.proc = some (q m) ∧ (q m).nbins = n) ∧
      (∀ j : ZMod n, Tendsto (fun m => (q m).tmean j.val) atTop (𝓝 (tr j))) ∧
      ∀ k : ZMod n, drive o k ≠ 0 →
        Tendsto (fun m => (q m).didvmean k.val) atTop (𝓝 (W k)) ∧
        Tendsto (fun m : ℕ => Real.sqrt m * ((q m).didvstd k.val).re) atTop
          (𝓝 (Real.sqrt (n * o.fs * psd k / 2) / ‖drive o k‖)) ∧
        Tendsto (fun m : ℕ => Real.sqrt m * ((q m).didvstd k.val).im) atTop
          (𝓝 (Real.sqrt (n * o.fs * psd k / 2) / ‖drive o k‖)) := by
  filter_upwards [campaign_limit h hR] with ω hω
  obtain ⟨q, h1, h2, h3, -⟩ := hω
  exact ⟨q, h1, h2, h3⟩

/-- Almost surely, with enough traces every fit is good: if it gets at least as low as the true response, then in every driven
bin below its cut-off the response of the fitted device is within `ε` of the true one, whatever the number of poles, the
cut-off and the optimiser. -/
theorem fit_consistent (h : Campaign μ o tr W trace noise R) {psd : ZMod n → ℝ}
    (hR : OF.HasPsd R o.fs fun k => (psd k : WithTop ℝ)) (hfs : 0 < o.fs) (hpos : ∀ k, drive o k ≠ 0 → 0 < psd k)
    {U : ℕ → ℂ} (hU : ∀ k : ZMod n, U k.val = W k) {ε : ℝ} (hε : 0 < ε) :
    ∀ᵐ ω ∂μ, ∀ᶠ m in atTop, ∀ (x : Ext) (poles : ℤ) (c : Option ℝ) (p : Proc) (r : Result) (dt : ℝ) (V : ℕ → ℂ),
      Honest x.ls → (processtraces (first o (fun i => trace i ω) m)).2.proc = some p →
      (dofit x (processtraces (first o (fun i => trace i ω) m)).2 poles c).1 = .ok () →
      fitresult (dofit x (processtraces (first o (fun i => trace i ω) m)).2 poles c).2 poles = .found r →
      r.params.getLast? = some dt →
      Values (processtraces (first o (fun i => trace i ω) m)).2 p c (fun f => complexadmittance f (sspArgs r.ssp)) dt V →
      2 * r.cost ≤ distance (processtraces (first o (fun i => trace i ω) m)).2 p c p.didvmean U ^ 2 →
      ∀ k : ZMod n, drive o k ≠ 0 → (∀ v ∈ c, |fftfreq o.fs k| < v) → ‖V k.val - W k‖ < ε := by
  filter_upwards [campaign_limit h hR] with ω hω
  obtain ⟨q, hq, -, hdr, hun⟩ := hω
  have hn : (0 : ℝ) < n := Nat.cast_pos.2 (NeZero.pos n)
  have hlim : ∀ k, drive o k ≠ 0 → 0 < Real.sqrt (n * o.fs * psd k / 2) / ‖drive o k‖ := fun k hk => by
    have := hpos k hk
    have := norm_pos_iff.2 hk
    positivity
  -- the deviations of the averages, in units of the error bars of one bin, vanish
  let dev : ℕ → ZMod n → ℝ := fun m k' =>
    (((q m).didvmean k'.val - U k'.val).re / ((q m).didvstd k'.val).re) ^ 2 +
      (((q m).didvmean k'.val - U k'.val).im / ((q m).didvstd k'.val).im) ^ 2
  have hdev0 : ∀ m k', 0 ≤ dev m k' := fun m k' => add_nonneg (sq_nonneg _) (sq_nonneg _)
  have hdev : ∀ k, drive o k ≠ 0 → ∀ s : ℕ → ℝ, Tendsto (fun m : ℕ => Real.sqrt m * s m) atTop (𝓝 (Real.sqrt (n * o.fs * psd k / 2) / ‖drive o k‖)) →
      Tendsto (fun m => Real.sqrt (∑ k', dev m k') * |s m|) atTop (𝓝 0) := by
    intro k hk s hs
    have hs0 : Tendsto s atTop (𝓝 0) := by
      have h1 : Tendsto (fun m : ℕ => (Real.sqrt m)⁻¹) atTop (𝓝 0) :=
        (Real.tendsto_sqrt_atTop.comp tendsto_natCast_atTop_atTop).inv_tendsto_atTop
      have := h1.mul hs
      rw [zero_mul] at this
      refine this.congr' ?_
      filter_upwards [eventually_gt_atTop 0] with m hm
      have : Real.sqrt m ≠ 0 := (Real.sqrt_pos.2 (Nat.cast_pos.2 hm)).ne'
      field_simp
    have part : ∀ k', Tendsto (fun m => dev m k' * s m ^ 2) atTop (𝓝 0) := by
      intro k'
      by_cases hk' : drive o k' = 0
      · set d : ℂ := 1 / (1 + Complex.I) - U k'.val
        have hb : Tendsto (fun m => ((d.re / 10 ^ 20) ^ 2 + (d.im / 10 ^ 20) ^ 2) * s m ^ 2) atTop (𝓝 0) := by
          have := (hs0.pow 2).const_mul ((d.re / 10 ^ 20) ^ 2 + (d.im / 10 ^ 20) ^ 2)
          simpa using this
        refine squeeze_zero' (Eventually.of_forall fun m => mul_nonneg (hdev0 m k') (sq_nonneg _)) ?_ hb
        filter_upwards [eventually_gt_atTop 0] with m hm
        refine mul_le_mul_of_nonneg_right ?_ (sq_nonneg _)
        obtain ⟨e1, e2 | e2⟩ := hun k' hk' m hm
        · have e3 : ((1 + Complex.I) * 10 ^ 20 : ℂ) = ⟨10 ^ 20, 10 ^ 20⟩ := by
            apply Complex.ext <;> simp [← Complex.ofReal_ofNat, ← Complex.ofReal_pow]
          simp only [dev, e1, e2, e3]
          exact le_rfl
        · have e3 : dev m k' = 0 := by simp [dev, e2]
          rw [e3]
          positivity
      · obtain ⟨a1, a2, a3⟩ := hdr k' hk'
        have hl := (hlim k' hk').ne'
        have a4 : Tendsto (fun m => (q m).didvmean k'.val - U k'.val) atTop (𝓝 0) := by
          rw [← hU k'] at a1
          simpa using a1.sub_const (U k'.val)
        have r1 := (((Complex.continuous_re.tendsto _).comp a4).mul (hs.div a2 hl)).pow 2
        have r2 := (((Complex.continuous_im.tendsto _).comp a4).mul (hs.div a3 hl)).pow 2
        have r3 := r1.add r2
        simp only [Complex.zero_re, Complex.zero_im, zero_mul, ne_eq, OfNat.ofNat_ne_zero, not_false_eq_true, zero_pow,
          add_zero] at r3
        refine r3.congr' ?_
        filter_upwards [eventually_gt_atTop 0] with m hm
        have hm' : Real.sqrt m ≠ 0 := (Real.sqrt_pos.2 (Nat.cast_pos.2 hm)).ne'
        simp only [Function.comp, Pi.div_apply, dev, mul_div_mul_left _ _ hm']
        ring
    have hsum := tendsto_finsetSum Finset.univ fun k' _ => part k'
    rw [Finset.sum_const_zero] at hsum
    have := hsum.sqrt
    rw [Real.sqrt_zero] at this
    refine this.congr fun m => ?_
    rw [← Finset.sum_mul, Real.sqrt_mul (Finset.sum_nonneg fun _ _ => hdev0 _ _), Real.sqrt_sq_eq_abs]
  have small : ∀ᶠ m in atTop, ∀ k : ZMod n, drive o k ≠ 0 → ((q m).didvstd k.val).re ≠ 0 ∧ ((q m).didvstd k.val).im ≠ 0 ∧
      2 * (Real.sqrt (∑ k', dev m k') * |((q m).didvstd k.val).re|) +
        2 * (Real.sqrt (∑ k', dev m k') * |((q m).didvstd k.val).im|) < ε := by
    refine eventually_all.2 fun k => ?_
    by_cases hk : drive o k = 0
    · exact Eventually.of_forall fun m hk' => absurd hk hk'
    · obtain ⟨-, b2, b3⟩ := hdr k hk
      have hne : ∀ s : ℕ → ℝ, Tendsto (fun m : ℕ => Real.sqrt m * s m) atTop
          (𝓝 (Real.sqrt (n * o.fs * psd k / 2) / ‖drive o k‖)) → ∀ᶠ m in atTop, s m ≠ 0 := fun s hs => by
        filter_upwards [hs.eventually_ne (hlim k hk).ne'] with m hm h0
        rw [h0, mul_zero] at hm
        exact hm rfl
      have l := ((hdev k hk _ b2).const_mul 2).add ((hdev k hk _ b3).const_mul 2)
      rw [mul_zero, add_zero] at l
      filter_upwards [hne _ b2, hne _ b3, l.eventually_lt_const hε] with m n2 n3 n4 _
      exact ⟨n2, n3, n4⟩
  filter_upwards [small, eventually_gt_atTop 0] with m hs hm0 x poles c p r dt V hx hp hd hr hlast hV hc k hk hv
  obtain ⟨n2, n3, hsm⟩ := hs k hk
  have bound : |(V k.val - W k).re| ≤ 2 * (Real.sqrt (∑ k', dev m k') * |((q m).didvstd k.val).re|) ∧
      |(V k.val - W k).im| ≤ 2 * (Real.sqrt (∑ k', dev m k') * |((q m).didvstd k.val).im|) := by
    obtain ⟨-, hq2, hqn⟩ := hq m hm0
    obtain rfl : q m = p := Option.some.inj (hq2.symm.trans hp)
    set o' := (processtraces (first o (fun i => trace i ω) m)).2 with ho'
    have hofs : o'.fs = o.fs := (process_keeps (first o (fun i => trace i ω) m)).2.2.1
    obtain ⟨r', V', dt', hr', hlast', hV', -, hnear⟩ := fit_near_device hx hp hd U
    obtain rfl : r = r' := by
      rw [hr] at hr'
      injection hr'
    obtain rfl : dt = dt' := Option.some.inj (hlast.symm.trans hlast')
    obtain ⟨-, hnear⟩ := hnear hc
    have hkF : Fitted o' (q m) c (fftfreq o.fs k) k.val := by
      refine ⟨by rw [hqn]; exact ZMod.val_lt k, ?_, hv⟩
      rw [hqn, hofs]
      exact (freqAt_eq o.fs k).symm
    have hVV : V k.val = V' k.val := Except.ok.inj ((hV _ _ hkF).symm.trans (hV' _ _ hkF))
    have hD : distance o' (q m) c (q m).didvmean U ≤ Real.sqrt (∑ k', dev m k') := by
      classical
      refine Real.sqrt_le_sqrt ?_
      have e : ∑ k', dev m k' = ∑ j ∈ Finset.range (q m).nbins,
          ((((q m).didvmean j - U j).re / ((q m).didvstd j).re) ^ 2 + (((q m).didvmean j - U j).im / ((q m).didvstd j).im) ^ 2) := by
        rw [hqn]
        exact sum_val fun j => (((q m).didvmean j - U j).re / ((q m).didvstd j).re) ^ 2 +
          (((q m).didvmean j - U j).im / ((q m).didvstd j).im) ^ 2
      rw [e]
      exact Finset.sum_le_sum_of_subset_of_nonneg (Finset.filter_subset _ _) fun _ _ _ => by positivity
    obtain ⟨n4, n5⟩ := hnear _ _ hkF
    rw [← hVV, hU, abs_div, div_le_iff₀ (abs_pos.2 n2)] at n4
    rw [← hVV, hU, abs_div, div_le_iff₀ (abs_pos.2 n3)] at n5
    constructor
    · refine n4.trans ?_
      rw [mul_assoc]
      gcongr
    · refine n5.trans ?_
      rw [mul_assoc]
      gcongr
  exact (Complex.norm_le_abs_re_add_abs_im _).trans_lt ((add_le_add bound.1 bound.2).trans_lt hsm)

/-- If the traces are the response of a device to the square wave, plus noise, `W` is the admittance of the device. -/
theorem device_response {a : Args} (ha : a.rsh = some o.rsh)
    (ht : squarewaveresponse (1 / o.fs) o.sgamp o.sgfreq o.duty a = .ok tr) :
    ∃ W : ZMod n → ℂ, ∀ k, drive o k ≠ 0 → complexadmittance (fftfreq o.fs k) a = .ok (W k) ∧ fftR tr k = drive o k * W k := by
  have key : ∀ k : ZMod n, ∃ y, drive o k ≠ 0 → complexadmittance (fftfreq o.fs k) a = .ok y ∧ fftR tr k = drive o k * y := by
    intro k
    by_cases hk : k.val = n / 2
    · exact ⟨0, fun h => absurd (if_pos hk) h⟩
    · obtain ⟨y, h1, h2⟩ := squarewave_fft ht k (by omega)
      rw [one_div_one_div] at h1
      rw [ha, Option.getD_some] at h2
      refine ⟨y, fun _ => ⟨h1, ?_⟩⟩
      rw [h2, drive, if_neg hk]
  choose W hW using key
  exact ⟨W, hW⟩

end Verif.Device
