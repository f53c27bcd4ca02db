import Verif.LowpassLemmas
import Mathlib.Analysis.SpecialFunctions.Trigonometric.Arctan

/-! C102: the low-pass filter. -/

namespace Verif.Lowpass
open Verif Spec

/-- The filter returns for exactly the cut-offs below half the sampling rate and the traces of at
least seven samples, and keeps the number of samples. -/
theorem lowpass_defined {fs : ℝ} (hfs : 0 < fs) (x : List ℝ) (cut : ℝ) :
    ((∃ w, lowpass x cut fs = .ok w) ↔ 0 < cut ∧ cut < fs / 2 ∧ 7 ≤ x.length) ∧
    ∀ w, lowpass x cut fs = .ok w → w.length = x.length := by
  refine ⟨⟨?_, ?_⟩, fun w h => ?_⟩
  · rintro ⟨w, h⟩
    obtain ⟨c, -, ⟨h1, h2⟩, -, -, hf⟩ := lowpass_ok h
    rw [div_pos_iff_of_pos_right (by linarith)] at h1
    rw [div_lt_one (by linarith)] at h2
    exact ⟨h1, by linarith, (filtfilt_length hf).1⟩
  · rintro ⟨h1, h2, h3⟩
    exact lowpass_defined' h1 h2 h3
  · obtain ⟨c, -, -, -, -, hf⟩ := lowpass_ok h
    exact (filtfilt_length hf).2

example : ∃ w, lowpass [0, 1, 5, 2, 0, 0, 3, 1] 1 4 = .ok w :=
  (lowpass_defined (by norm_num) _ _).1.2 (by norm_num)

/-- The filter is linear: it may be applied before or after scaling and adding traces. -/
theorem lowpass_linear {x y w v : List ℝ} {cut fs : ℝ} (hl : x.length = y.length)
    (hx : lowpass x cut fs = .ok w) (hy : lowpass y cut fs = .ok v) (a b : ℝ) :
    lowpass (List.zipWith (fun s t => a * s + b * t) x y) cut fs =
      .ok (List.zipWith (fun s t => a * s + b * t) w v) := by
  obtain ⟨c, h0, -, hb, -, hf⟩ := lowpass_ok hx
  obtain ⟨c', -, -, hb', -, hf'⟩ := lowpass_ok hy
  rw [hb] at hb'
  cases hb'
  unfold lowpass
  rw [if_neg h0, hb]
  exact filtfilt_comb c a b hl hf hf'

example : ([1, 2, 3, 4, 5, 6, 7] : List ℝ).length = ([1, 1, 0, 0, 0, 0, 0] : List ℝ).length ∧
    (∃ w, lowpass [1, 2, 3, 4, 5, 6, 7] 1 4 = .ok w) ∧ ∃ v, lowpass [1, 1, 0, 0, 0, 0, 0] 1 4 = .ok v :=
  ⟨rfl, (lowpass_defined (by norm_num) _ _).1.2 (by norm_num),
    (lowpass_defined (by norm_num) _ _).1.2 (by norm_num)⟩

/-- A constant trace is left as it is. -/
theorem lowpass_const {v cut fs : ℝ} {N : ℕ} {w : List ℝ}
    (h : lowpass (List.replicate N v) cut fs = .ok w) : w = List.replicate N v := by
  obtain ⟨c, -, -, -, hc, hf⟩ := lowpass_ok h
  have h6 : 6 < N := by simpa using (filtfilt_length hf).1
  unfold filtfilt at hf
  rw [if_neg (by simpa using h6)] at hf
  cases hf
  simp only [evenExt_const h6, pass_const hc, List.reverse_replicate, List.length_replicate,
    List.drop_replicate, List.take_replicate]
  congr 1
  omega

example : ∃ w, lowpass (List.replicate 7 3) 1 4 = .ok w :=
  (lowpass_defined (by norm_num) _ _).1.2 (by norm_num)

/-- Partial form of C102: with a cut-off of at most a quarter of the sampling rate the filtered trace
stays within the range of the trace.  Missing: higher cut-offs, see `range_violated`. -/
theorem range_partial {x w : List ℝ} {cut fs m M : ℝ} (hcut : cut ≤ fs / 4)
    (hfs : 0 < fs) (hx : ∀ v ∈ x, m ≤ v ∧ v ≤ M) (h : lowpass x cut fs = .ok w) :
    ∀ v ∈ w, m ≤ v ∧ v ≤ M := by
  have hc0 := (((lowpass_defined hfs x cut).1.1 ⟨w, h⟩)).1
  obtain ⟨c, -, -, -, hc, hf⟩ := lowpass_ok h
  exact filtfilt_between hc (tan_le_one hc0 hcut) hx hf

example : (100000 : ℝ) ≤ 625000 / 4 ∧ ∃ w, lowpass [0, 1, 5, 2, 0, 0, 3, 1] 100000 625000 = .ok w :=
  ⟨by norm_num, (lowpass_defined (by norm_num) _ _).1.2 (by norm_num)⟩

/-- Contrary to C102 a cut-off above a quarter of the sampling rate can make the filter leave the
range of the trace: a trace of zeros with one sample at `1` gets a negative sample. -/
theorem range_violated : ∃ cut : ℝ, 1 / 4 < cut ∧ cut < 1 / 2 ∧
    ∃ w, lowpass [0, 0, 0, 0, 0, 0, 1] cut 1 = .ok w ∧ ∃ v ∈ w, v < 0 := by
  have hp := Real.pi_pos
  have h1 : Real.pi / 4 < Real.arctan 3 := by
    rw [← Real.arctan_one]; exact Real.arctan_strictMono (by norm_num)
  have h2 := Real.arctan_lt_pi_div_two 3
  refine ⟨Real.arctan 3 / Real.pi, by rw [lt_div_iff₀ hp]; linarith,
    by rw [div_lt_iff₀ hp]; linarith, ?_⟩
  obtain ⟨w, hw⟩ := lowpass_defined' (x := [0, 0, 0, 0, 0, 0, 1]) (cut := Real.arctan 3 / Real.pi)
    (fs := 1) (by have : 0 < Real.arctan 3 := by linarith
                  positivity) (by rw [div_lt_iff₀ hp]; linarith) (by simp)
  refine ⟨w, hw, ?_⟩
  obtain ⟨c, -, -, -, hc, hf⟩ := lowpass_ok hw
  have ht : Real.tan (Real.pi * (Real.arctan 3 / Real.pi) / 1) = 3 := by
    rw [div_one, mul_div_cancel₀ _ hp.ne', Real.tan_arctan]
  have hg := hc.hg
  have hr := hc.hr
  have hz := hc.zi
  rw [ht] at hg hr
  norm_num at hg hr
  rw [hg] at hz
  unfold filtfilt at hf
  rw [if_neg (by simp)] at hf
  cases hf
  refine ⟨-41949185 / 4294967296, ?_, by norm_num⟩
  norm_num [evenExt, pass, lfilter, hz, hg, hr]

/-- A cosine of frequency `f` comes out in phase and with its amplitude multiplied by the power gain
of a first-order low-pass filter, up to terms which die out away from the ends of the trace. -/
theorem response {A f φ cut fs : ℝ} {N : ℕ} {w : List ℝ} (hfs : 0 < fs) (hcut : cut ≤ fs / 4)
    (hf0 : 0 ≤ f) (hf : f < fs / 2) (h : lowpass (cosine A f φ fs N) cut fs = .ok w) {k : ℕ}
    (hk : k < N) {r : ℝ} (hr : r = (1 - Real.tan (Real.pi * cut / fs)) / (1 + Real.tan (Real.pi * cut / fs))) :
    0 ≤ r ∧ r < 1 ∧
    |w.getD k 0 - gain f cut fs * (cosine A f φ fs N).getD k 0| ≤ |A| * (r ^ k + 2 * r ^ (N - 1 - k)) := by
  have hc0 := (((lowpass_defined hfs _ cut).1.1 ⟨w, h⟩)).1
  obtain ⟨c, -, -, -, hc, hf'⟩ := lowpass_ok h
  have hp := Real.pi_pos
  have h1 := tan_le_one hc0 hcut
  have hcos : Real.cos (Real.pi * f / fs) ≠ 0 := by
    refine (Real.cos_pos_of_mem_Ioo ⟨?_, ?_⟩).ne'
    · have : 0 ≤ Real.pi * f / fs := by positivity
      linarith
    · rw [div_lt_iff₀ hfs]; nlinarith
  have e : r = c.r := by rw [hr, hc.hr]
  have hg := hc.g_pos
  have := filtfilt_response hc h1 hcos hf' hk
  refine ⟨e ▸ hc.r_nonneg h1, by rw [e, hc.g_r]; linarith, ?_⟩
  rw [gain, one_div_mul_eq_div, e]
  exact this

example : ∃ w, lowpass (cosine 1 1 0 10 100) 2 10 = .ok w :=
  (lowpass_defined (by norm_num) _ _).1.2 (by norm_num [cosine])

/-- Contrary to C102 (and the documentation) the amplitude at the cut-off is not reduced by 3 dB, a
factor `√2`, but halved: the filter is applied twice. -/
theorem cutoff_violated {A φ cut fs : ℝ} {N : ℕ} {w : List ℝ} (hfs : 0 < fs) (hcut : cut ≤ fs / 4)
    (h : lowpass (cosine A cut φ fs N) cut fs = .ok w) {k : ℕ} (hk : k < N) {r : ℝ}
    (hr : r = (1 - Real.tan (Real.pi * cut / fs)) / (1 + Real.tan (Real.pi * cut / fs))) :
    0 ≤ r ∧ r < 1 ∧
    |w.getD k 0 - (cosine A cut φ fs N).getD k 0 / 2| ≤ |A| * (r ^ k + 2 * r ^ (N - 1 - k)) := by
  have hc0 := (((lowpass_defined hfs _ cut).1.1 ⟨w, h⟩)).1
  obtain ⟨c, -, -, -, hc, -⟩ := lowpass_ok h
  have := response hfs hcut hc0.le (by linarith) h hk hr
  rw [show gain cut cut fs = 1 / 2 by rw [gain, div_self hc.ht.ne']; norm_num, one_div_mul_eq_div] at this
  exact this

/-- A sample of height `1` of the cosine comes out as `1/2`, away from `1/√2`. -/
example : ∃ w, lowpass (cosine 1 1 0 4 17) 1 4 = .ok w ∧ (cosine 1 1 0 4 17).getD 8 0 = 1 ∧
    w.getD 8 0 = 1 / 2 ∧ w.getD 8 0 < 1 / Real.sqrt 2 := by
  obtain ⟨w, hw⟩ := (lowpass_defined (by norm_num : (0 : ℝ) < 4) (cosine 1 1 0 4 17) 1).1.2
    (by norm_num [cosine])
  have h8 : (cosine 1 1 0 4 17).getD 8 0 = 1 := by
    rw [cosine_getD _ _ _ _ (by norm_num), show 2 * Real.pi * 1 / 4 * ((8 : ℕ) : ℝ) + 0 =
      ((2 : ℕ) : ℝ) * (2 * Real.pi) by push_cast; ring, Real.cos_nat_mul_two_pi, mul_one]
  have := (cutoff_violated (by norm_num) (by norm_num) hw (k := 8) (by norm_num) (r := 0)
    (by rw [mul_one, Real.tan_pi_div_four]; norm_num)).2.2
  rw [h8] at this
  norm_num at this
  have e : w.getD 8 0 = 1 / 2 := by
    have := sub_eq_zero.1 this
    rw [List.getD_eq_getElem?_getD, this]
  refine ⟨w, hw, h8, e, ?_⟩
  rw [e]
  apply one_div_lt_one_div_of_lt (by positivity)
  rw [Real.sqrt_lt' (by norm_num)]
  norm_num

end Verif.Lowpass
