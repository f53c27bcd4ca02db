import Verif.NoiseLemmas

/-!
Properties C17-C21 and C62-C64: spectra, smoothing, generated noise and the `Noise` object.
-/

namespace Verif.Noise
open Verif Verif.Dft

variable {n : ℕ} [NeZero n] {m c : ℕ}

/-! ### C17: folding and normalisation -/

/-- Folding the two-sided spectrum gives the one-sided spectrum. -/
theorem fold_calcPsd (x : Fin m → ZMod n → ℝ) (fs : ℝ) :
    foldpsd (calcPsdTwoSided x fs) = calcPsdFolded x fs := by
  unfold foldpsd calcPsdFolded
  rw [fold_stop]
  rfl

/-- The two-sided spectrum of real traces is symmetric. -/
theorem calcPsd_symm (x : Fin m → ZMod n → ℝ) (fs : ℝ) (k : ZMod n) :
    calcPsdTwoSided x fs (-k) = calcPsdTwoSided x fs k := by
  unfold calcPsdTwoSided
  simp only [fftR_neg, RCLike.norm_conj]

/-- Folding a symmetric spectrum keeps the total power. -/
theorem foldpsd_total (p : ZMod n → ℝ) (hs : ∀ k, p (-k) = p k) :
    ∑ k : Half n, foldpsd p k = ∑ k, p k := sum_fold p hs

/-- Parseval: the spectrum integrates to the mean square of the traces, one-sided or two-sided. -/
theorem calcPsd_parseval (x : Fin m → ZMod n → ℝ) (fs : ℝ) (hfs : 0 < fs) :
    (∑ k, calcPsdTwoSided x fs k * (fs / n) = avg fun t => (∑ j, x t j ^ 2) / n) ∧
    ∑ k : Half n, calcPsdFolded x fs k * (fs / n) = avg fun t => (∑ j, x t j ^ 2) / n := by
  have hn : (n : ℝ) ≠ 0 := Nat.cast_ne_zero.2 (NeZero.ne n)
  have h1 : ∑ k, calcPsdTwoSided x fs k * (fs / n) = avg fun t => (∑ j, x t j ^ 2) / n := by
    unfold calcPsdTwoSided avg
    rw [← Finset.sum_mul, ← Finset.sum_div, ← Finset.sum_div, Finset.sum_comm]
    simp only [parseval, ← Finset.mul_sum, ← Finset.sum_div]
    field_simp
  refine ⟨h1, ?_⟩
  rw [← fold_calcPsd, ← Finset.sum_mul, foldpsd_total _ (calcPsd_symm x fs), Finset.sum_mul, h1]

/-- The one-sided spectrum at a frequency is the two-sided power at that frequency and its
negative; zero frequency and Nyquist are their own negatives. -/
theorem calcPsd_bins (x : Fin m → ZMod n → ℝ) (fs : ℝ) (k : Half n) :
    calcPsdFolded x fs k = if (-k.bin : ZMod n) = k.bin then calcPsdTwoSided x fs k.bin
      else calcPsdTwoSided x fs k.bin + calcPsdTwoSided x fs (-k.bin) := by
  rw [calcPsd_symm, ← fold_calcPsd]
  have hk := k.2
  have hiff : (-k.bin : ZMod n) = k.bin ↔ ¬ (1 ≤ (k : ℕ) ∧ (k : ℕ) < n / 2 + n % 2) := by
    unfold Half.bin
    rw [neg_eq_iff_add_eq_zero, ← Nat.cast_add, ZMod.natCast_eq_zero_iff]
    constructor
    · rintro ⟨c, hc⟩ ⟨h1, h2⟩
      have : c = 1 := by
        have hn := NeZero.pos n
        rcases Nat.lt_trichotomy c 1 with h | h | h
        · interval_cases c; omega
        · exact h
        · have : n * 2 ≤ n * c := Nat.mul_le_mul_left n h
          omega
      subst this
      omega
    · intro h
      by_cases h0 : (k : ℕ) = 0
      · rw [h0]; simp
      · refine ⟨1, ?_⟩
        omega
  unfold foldpsd mulSlice
  by_cases h : 1 ≤ (k : ℕ) ∧ (k : ℕ) < n / 2 + n % 2
  · rw [if_pos h, if_neg (by rw [hiff]; exact not_not.2 h)]; ring
  · rw [if_neg h, if_pos (hiff.2 h)]

/-! ### C18: the two PSD implementations -/

/-- `Noise.calculate_psd` agrees with `calc_psd` away from zero frequency and Nyquist, and is
exactly twice as large there. -/
theorem noisePsd_partial (traces : Fin m → Fin c → ZMod n → ℝ) (fs : ℝ) (i : Fin c) (k : Half n) :
    psdOf traces fs i k =
      if 1 ≤ (k : ℕ) ∧ 2 * (k : ℕ) < n then calcPsdFolded (fun t => traces t i) fs k
      else 2 * calcPsdFolded (fun t => traces t i) fs k := by
  have hk := k.2
  unfold psdOf calcPsdFolded mulSlice
  rw [fold_stop]
  by_cases h : 1 ≤ (k : ℕ) ∧ 2 * (k : ℕ) < n
  · rw [if_pos h, if_pos (by omega)]; ring
  · rw [if_neg h, if_neg (by omega)]; ring

/-- Hence the claim fails for every set of traces that does not average to zero: the zero bin
is doubled. -/
theorem noisePsd_violated (traces : Fin m → Fin c → ZMod n → ℝ) (fs : ℝ) (hfs : 0 < fs) (i : Fin c)
    (t : Fin m) (ht : ∑ j, traces t i j ≠ 0) :
    psdOf traces fs i 0 ≠ calcPsdFolded (fun t => traces t i) fs 0 := by
  rw [noisePsd_partial, if_neg (by simp)]
  have hn : (0 : ℝ) < n := Nat.cast_pos.2 (NeZero.pos n)
  have hm : (0 : ℝ) < m := Nat.cast_pos.2 (lt_of_le_of_lt (Nat.zero_le _) t.2)
  have hpos : 0 < calcPsdFolded (fun t => traces t i) fs (0 : Half n) := by
    unfold calcPsdFolded mulSlice
    rw [if_neg (by simp)]
    refine div_pos (div_pos ?_ hm) (by positivity)
    refine Finset.sum_pos' (fun _ _ => by positivity) ⟨t, Finset.mem_univ _, ?_⟩
    have : rfft (traces t i) (0 : Half n) = ((∑ j, traces t i j : ℝ) : ℂ) := by
      unfold rfft Half.bin
      simp only [Fin.val_zero, Nat.cast_zero]
      exact fftR_zero_bin _
    rw [this, Complex.norm_real]
    have := abs_pos.2 ht
    rw [Real.norm_eq_abs]
    positivity
  linarith

/-- The real and imaginary parts add up to the PSD. -/
theorem noisePsd_parts (traces : Fin m → Fin c → ZMod n → ℝ) (fs : ℝ) (i : Fin c) (k : Half n) :
    realPsdOf traces fs i k + imagPsdOf traces fs i k = psdOf traces fs i k := by
  unfold realPsdOf imagPsdOf psdOf avg
  rw [← add_div, ← add_mul, ← add_div, ← Finset.sum_add_distrib]
  congr 4
  funext t
  show _ = ‖rfft (traces t i) k‖ ^ 2
  rw [← Complex.normSq_eq_norm_sq, Complex.normSq_apply]; ring

/-! ### C19: smoothing -/

/-- The smoothed spectrum has the length of the input, depends on `|f|` only and strictly
decreases with `|f|` (the index of `|f|` in bin `k` is `min k (n - k)`), provided the one-sided
input has at least two interpolation points. -/
theorem smoothPsd_partial (psd : List ℝ) (h2 : 2 ≤ (Utils.kept (halfPts psd)).length) :
    ∃ out : List ℝ, smoothPsd psd = out.map some ∧ out.length = psd.length ∧
      ∀ (j k : ℕ) (hj : j < out.length) (hk : k < out.length),
        (min j (psd.length - j) = min k (psd.length - k) → out[j] = out[k]) ∧
        (min j (psd.length - j) < min k (psd.length - k) → out[k] < out[j]) := by
  have hne : psd ≠ [] := by
    rintro rfl
    simp [halfPts, Utils.kept] at h2
  obtain ⟨dec, hd, hdl, hdec⟩ := Utils.makeDecreasing_strict (halfPts psd) (incX_zipIdx _ 0) h2
  rw [halfPts_length psd hne] at hdl
  have hlen : (smoothPsd psd).length = psd.length := by simp [smoothPsd]
  have hget : ∀ k, k < psd.length → ∃ h : min k (psd.length - k) < dec.length,
      (smoothPsd psd)[k]? = some (some (dec[min k (psd.length - k)])) := by
    intro k hk
    have h : min k (psd.length - k) < dec.length := by rw [hdl]; omega
    refine ⟨h, ?_⟩
    rw [smoothPsd_get psd k hk, hd, List.getElem?_map, List.getElem?_eq_getElem h]
    rfl
  refine ⟨(smoothPsd psd).map fun o => o.getD 0, ?_, by simp [hlen], ?_⟩
  · apply List.ext_getElem?
    intro k
    rw [List.map_map, List.getElem?_map]
    by_cases hk : k < psd.length
    · obtain ⟨h, hg⟩ := hget k hk
      rw [hg]; rfl
    · rw [List.getElem?_eq_none (by omega)]; rfl
  · intro j k hj hk
    have hj' : j < psd.length := by simpa [hlen] using hj
    have hk' : k < psd.length := by simpa [hlen] using hk
    obtain ⟨h1, g1⟩ := hget j hj'
    obtain ⟨h2, g2⟩ := hget k hk'
    have v1 : ((smoothPsd psd).map fun o => o.getD 0)[j] = dec[min j (psd.length - j)] := by
      rw [List.getElem_map]
      rw [List.getElem?_eq_some_iff] at g1
      obtain ⟨_, g1⟩ := g1
      rw [g1]; rfl
    have v2 : ((smoothPsd psd).map fun o => o.getD 0)[k] = dec[min k (psd.length - k)] := by
      rw [List.getElem_map]
      rw [List.getElem?_eq_some_iff] at g2
      obtain ⟨_, g2⟩ := g2
      rw [g2]; rfl
    rw [v1, v2]
    refine ⟨fun h => by simp only [h], fun h => ?_⟩
    exact List.pairwise_iff_getElem.1 hdec _ _ h1 h2 h

/-- A one-sided input that never drops below its first value leaves nothing to interpolate: the
result is not a number in every bin. -/
theorem smoothPsd_increasing_violated : smoothPsd [1, 2, 3, 2] = [none, none, none, none] := by
  have : Utils.makeDecreasing (halfPts [1, 2, 3, 2]) = [none, none, none] := by
    norm_num [halfPts, Utils.makeDecreasing, Utils.kept, Utils.keepDec, Np.interpExtrap,
      List.zipIdx]
  apply List.ext_getElem?
  intro k
  by_cases hk : k < 4
  · rw [smoothPsd_get _ k (by simpa using hk), this]
    interval_cases k <;> simp
  · rw [List.getElem?_eq_none (by simp [smoothPsd]; omega), List.getElem?_eq_none (by simp; omega)]

example : 2 ≤ (Utils.kept (halfPts [4, 2, 3, 1, 3, 2])).length := by
  norm_num [halfPts, Utils.kept, Utils.keepDec, List.zipIdx]

end Verif.Noise
