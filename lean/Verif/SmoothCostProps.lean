import Verif.SmoothCostLemmas
import Verif.OFResProps
import Verif.OFOtherProps

/-!
Property C170: a filter made with a smoothed spectrum.
-/

namespace Verif.Noise
open Verif Verif.Dft Verif.OF MeasureTheory

variable {n : ℕ} [NeZero n]

/-- `smooth_psd` never raises a spectrum, and keeps its value at zero frequency. -/
theorem smooth_below {psd : ZMod n → ℝ} (hp : ∀ k, 0 < psd k) (hs : ∀ k, psd (-k) = psd k) (hd : ∃ k, psd k < psd 0) :
    ∃ s : ZMod n → ℝ, Smoothed psd s ∧ s 0 = psd 0 ∧ (∀ k, s (-k) = s k) ∧ ∀ k, s k ≤ psd k := smooth_bins hp hs hd

/-- It gives numbers only if some bin lies below the one at zero frequency; otherwise every bin is not a number. -/
theorem smooth_defined {psd : ZMod n → ℝ} (hp : ∀ k, 0 < psd k) (hs : ∀ k, psd (-k) = psd k) :
    ((∃ s, Smoothed psd s) ↔ ∃ k, psd k < psd 0) ∧
    ((∀ k, psd 0 ≤ psd k) → smoothPsd (asList psd) = List.replicate n none) := by
  refine ⟨⟨fun ⟨s, h⟩ => ?_, fun hd => (smooth_bins hp hs hd).imp fun s h => h.1⟩, smooth_none⟩
  by_contra hd
  push Not at hd
  have h0 := congrArg (fun l => l[0]?) (h.symm.trans (smooth_none hd))
  simp [asList, Nat.pos_of_ne_zero (NeZero.ne n)] at h0

theorem smoothed_eq {psd s t : ZMod n → ℝ} (h1 : Smoothed psd s) (h2 : Smoothed psd t) : s = t := by
  have h : (asList s).map some = (asList t).map some := h1.symm.trans h2
  have h := List.map_injective_iff.2 (Option.some_injective ℝ) h
  funext k
  have := congrArg (fun l => l[k.val]?) h
  simpa [asList, ZMod.val_lt k] using this

/-- On noise of the spectrum `psd` the filter made with the smoothed spectrum reports a resolution which is at most the
best possible one, and that at most the true spread of its amplitudes; its chi-squares are on average too large. -/
theorem smooth_optimistic {Ω : Type*} [MeasurableSpace Ω] {μ : Measure Ω} [IsProbabilityMeasure μ]
    {noise : Ω → ZMod n → ℝ} {R psd s : ZMod n → ℝ} {fs : ℝ}
    (h : Stationary μ noise R) (hR : HasPsd R fs fun k => (psd k : WithTop ℝ)) (hp : ∀ k, 0 < psd k)
    (hs : ∀ k, psd (-k) = psd k) (hsm : Smoothed psd s) (hpos : ∀ k, 0 < s k) (hfs : 0 < fs)
    (ac : Bool) (T : ZMod n → ℝ) (hN : 0 < traceChi2 fs (weight (fun k => (psd k : WithTop ℝ)) ac) T)
    (a : ℝ) (wc : ℤ) (x : ZMod n → ℝ) :
    energyResolution (init x T (fun k => (s k : WithTop ℝ)) fs ac false) ≤
      energyResolution (init x T (fun k => (psd k : WithTop ℝ)) fs ac false) ∧
    energyResolution (init x T (fun k => (psd k : WithTop ℝ)) fs ac false) ≤
      Real.sqrt (∫ ω, ((nodelay (init (pulse T a wc (noise ω)) T (fun k => (s k : WithTop ℝ)) fs ac false) wc).1.1 - a) ^ 2 ∂μ) ∧
    nUsed (fun k => (s k : WithTop ℝ)) ac ≤
      ∫ ω, (chi2Nopulse (init (noise ω) T (fun k => (s k : WithTop ℝ)) fs ac false)).1 ∂μ ∧
    (nUsed (fun k => (s k : WithTop ℝ)) ac : ℝ) - 1 ≤
      ∫ ω, (nodelay (init (pulse T a wc (noise ω)) T (fun k => (s k : WithTop ℝ)) fs ac false) wc).1.2 ∂μ := by
  obtain ⟨t, ht, -, hts, hle⟩ := smooth_bins hp hs ((smooth_defined hp hs).1.1 ⟨s, hsm⟩)
  obtain rfl := smoothed_eq hsm ht
  have hpos' : ∀ k, (0 : WithTop ℝ) < (s k : WithTop ℝ) := fun k => by exact_mod_cast hpos k
  have hle' : ∀ k, (s k : WithTop ℝ) ≤ (psd k : WithTop ℝ) := fun k => by exact_mod_cast hle k
  have hts' : ∀ k, (s (-k) : WithTop ℝ) = (s k : WithTop ℝ) := fun k => by rw [hts]
  have hmono := energyResolution_mono x x T hfs hpos' hle' (fun h => h) hN
  have hNs : 0 < traceChi2 fs (weight (fun k => (s k : WithTop ℝ)) ac) T := by
    refine hN.trans_le ?_
    rw [traceChi2_sum, traceChi2_sum]
    exact sum_anti hpos' hle' (fun h => h) fun k => by positivity
  have hW : Within (fun k => (s k : WithTop ℝ)) ac psd 1 (∑ k, psd k / s k) := by
    rintro k p - hk
    have hk : s k = p := WithTop.coe_injective hk
    rw [← hk, one_mul]
    refine ⟨hle k, ?_⟩
    rw [← div_le_iff₀ (hpos k)]
    exact Finset.single_le_sum (f := fun k => psd k / s k) (fun i _ => (div_pos (hp i) (hpos i)).le) (Finset.mem_univ k)
  have hchi := other_psd_chi2 h hR hpos' hts' hfs ac T hNs hW a wc
  simp only [one_mul] at hchi
  refine ⟨hmono, ?_, hchi.1.1, hchi.2.1⟩
  exact Real.le_sqrt_of_sq_le (other_psd_best h hR hp hts' hfs ac T hNs a wc x)

/-- The reported time resolution is too small as well. -/
theorem smooth_time {psd s : ZMod n → ℝ} {fs : ℝ} (hp : ∀ k, 0 < psd k) (hs : ∀ k, psd (-k) = psd k)
    (hsm : Smoothed psd s) (hpos : ∀ k, 0 < s k) (hfs : 0 < fs) (ac : Bool) {T : ZMod n → ℝ} {k : ZMod n} (hk : k ≠ 0)
    (hT : fftR T k ≠ 0) {a : ℝ} (ha : a ≠ 0) (x : ZMod n → ℝ) :
    (timeResolution (init x T (fun k => (s k : WithTop ℝ)) fs ac false) a).1 ≤
      (timeResolution (init x T (fun k => (psd k : WithTop ℝ)) fs ac false) a).1 := by
  obtain ⟨t, ht, -, hts, hle⟩ := smooth_bins hp hs ((smooth_defined hp hs).1.1 ⟨s, hsm⟩)
  obtain rfl := smoothed_eq hsm ht
  exact (timeResolution_mono x x T ac ac hfs (fun k => by exact_mod_cast hpos k) (fun k => by exact_mod_cast hle k) ha hk hT
    WithTop.coe_ne_top).1

/-- Smoothing a second time changes nothing. -/
theorem smooth_twice {psd s : ZMod n → ℝ} (hp : ∀ k, 0 < psd k) (hs : ∀ k, psd (-k) = psd k)
    (hsm : Smoothed psd s) (hpos : ∀ k, 0 < s k) : Smoothed s s := by
  have hd := (smooth_defined hp hs).1.1 ⟨s, hsm⟩
  obtain ⟨t, ht, h0, hts, hle⟩ := smooth_bins hp hs hd
  obtain rfl := smoothed_eq hsm ht
  obtain ⟨out, ho, hol, hmono⟩ := smoothPsd_partial (asList psd) (kept_two hp hs hd)
  have : asList s = out := List.map_injective_iff.2 (Option.some_injective ℝ) (hsm.symm.trans ho)
  subst this
  have hdec : ∀ i j, i < j → j ≤ n / 2 → s (j : ZMod n) < s (i : ZMod n) := by
    intro i j hij hj
    have h := (hmono i j (by rw [asList_length]; omega) (by rw [asList_length]; omega)).2
      (by rw [asList_length]; omega)
    simpa [asList] using h
  have hd' : ∃ k, s k < s 0 := by
    obtain ⟨k, hk⟩ := hd
    exact ⟨k, (hle k).trans_lt (hk.trans_eq h0.symm)⟩
  have h2 := kept_two hpos hts hd'
  have hfix : ∀ j ≤ n / 2, (Utils.makeDecreasing (halfPts (asList s)))[j]? = some (some (s (j : ZMod n))) := by
    intro j hj
    refine Utils.makeDecreasing_agrees _ (incX_zipIdx _ 0) h2 j ((j : ℝ), s (j : ZMod n)) ⟨halfPts_get s hj, ?_⟩ (hpos _).ne'
    intro i hi q hq
    have hq : some ((i : ℝ), s (i : ZMod n)) = some q := (halfPts_get s (by omega)).symm.trans hq
    rw [← Option.some.inj hq]
    exact hdec i j hi hj
  apply List.ext_getElem?
  intro k
  by_cases hk : k < n
  · rw [smoothPsd_get _ k (by rw [asList_length]; exact hk), asList_length, hfix _ (by omega), fold_bin hts k hk]
    simp [asList, hk]
  · rw [List.getElem?_eq_none (by simp [smoothPsd, asList]; omega), List.getElem?_eq_none (by simp [asList]; omega)]

/-- A bump is cut off. -/
theorem demo_smoothed : Smoothed (fun k : ZMod 6 => ![4, 2, 3, 1, 3, 2] (k : Fin 6))
    (fun k : ZMod 6 => ![4, 2, 3 / 2, 1, 3 / 2, 2] (k : Fin 6)) := by
  have hl : asList (fun k : ZMod 6 => (![4, 2, 3, 1, 3, 2] (k : Fin 6) : ℝ)) = [4, 2, 3, 1, 3, 2] := rfl
  have hr : asList (fun k : ZMod 6 => (![4, 2, 3 / 2, 1, 3 / 2, 2] (k : Fin 6) : ℝ)) = [4, 2, 3 / 2, 1, 3 / 2, 2] := rfl
  have : Utils.makeDecreasing (halfPts [4, 2, 3, 1, 3, 2]) = [some 4, some 2, some (3 / 2), some 1] := by
    norm_num [halfPts, Utils.makeDecreasing, Utils.kept, Utils.keepDec, Np.interpExtrap, Np.line, List.zipIdx]
  unfold Smoothed
  rw [hl, hr]
  apply List.ext_getElem?
  intro k
  by_cases hk : k < 6
  · rw [smoothPsd_get _ k (by simpa using hk), this]
    interval_cases k <;> simp
  · rw [List.getElem?_eq_none (by simp [smoothPsd]; omega), List.getElem?_eq_none (by simp; omega)]

example : ∃ (psd s : ZMod 6 → ℝ) (R : ZMod 6 → ℝ), Stationary (normalDraws 6) (fun ω => genNoise psd 1 ω) R ∧
    HasPsd R 1 (fun k => (psd k : WithTop ℝ)) ∧ (∀ k, 0 < psd k) ∧ (∀ k, psd (-k) = psd k) ∧ (∃ k, psd k < psd 0) ∧
    Smoothed psd s ∧ (∀ k, 0 < s k) ∧ s ≠ psd ∧
    0 < traceChi2 1 (weight (fun k => (psd k : WithTop ℝ)) false) (delta : ZMod 6 → ℝ) ∧
    (1 : ZMod 6) ≠ 0 ∧ fftR (delta : ZMod 6 → ℝ) 1 ≠ 0 := by
  have hp : ∀ k : ZMod 6, (0 : ℝ) < ![4, 2, 3, 1, 3, 2] (k : Fin 6) := by
    intro k; fin_cases k <;> norm_num
  have hs : ∀ k : ZMod 6, (![4, 2, 3, 1, 3, 2] (-k : Fin 6) : ℝ) = ![4, 2, 3, 1, 3, 2] (k : Fin 6) := by
    intro k; fin_cases k <;> rfl
  obtain ⟨R, h1, h2⟩ := genNoise_stationary (n := 6) (fun k : ZMod 6 => (![4, 2, 3, 1, 3, 2] (k : Fin 6) : ℝ)) hs
    (fun k => (hp k).le) zero_le_one normalDraws_stationary
  refine ⟨_, _, R, h1, h2, hp, hs, ⟨1, ?_⟩, demo_smoothed, ?_, ?_, ?_, by decide, by rw [fftR_delta]; exact one_ne_zero⟩
  · show (2 : ℝ) < 4
    norm_num
  · intro k; fin_cases k <;> norm_num
  · intro h
    have := congrFun h (2 : ZMod 6)
    change (3 / 2 : ℝ) = 3 at this
    norm_num at this
  · rw [traceChi2_sum]
    refine Finset.sum_pos (fun k _ => ?_) Finset.univ_nonempty
    have hw : 0 < weight (fun k : ZMod 6 => ((![4, 2, 3, 1, 3, 2] (k : Fin 6) : ℝ) : WithTop ℝ)) false k := by
      simp only [weight, Bool.false_eq_true, false_and, if_false]
      exact one_div_pos.2 (hp k)
    rw [fftR_delta]
    have : (0 : ℝ) < ((6 : ℕ) : ℝ) := by norm_num
    refine mul_pos ?_ hw
    norm_num

end Verif.Noise
