import Verif.SimOFLemmas

/-! C116: the resolution that `energy_res_estimate` predicts and the one that the optimum filter states. -/

namespace Verif.Sim
open Verif Verif.Dft

variable {n : ℕ} [NeZero n]

/-- Given the one-sided PSD, the estimate is the resolution of the optimum filter (DC coupling) for the pulse it
assumes, in units of the electron charge. -/
theorem resolution_agrees (heven : Even n) {J : ZMod n → ℝ} (hJ : TwoSided J) {fs tau eff : ℝ} (hfs : 0 < fs)
    (he : eff ≠ 0) (x : ZMod n → ℝ) {T : ZMod n → ℝ} (hT : Collected fs tau eff T) :
    energyRes (doubled fs J) tau eff =
      .ok (OF.energyResolution (OF.init x T (fun k => (J k : WithTop ℝ)) fs false false) / qe) := by
  obtain ⟨m, hm⟩ := heven
  have hn : n = 2 * m := by omega
  have h0 := NeZero.ne n
  have hp := norm_pos hJ hfs he (by omega) x hT false
  have hT' : trapz ((doubled fs J).map (resPoint tau eff)) =
      (OF.init x T (fun k => (J k : WithTop ℝ)) fs false false).norm := by
    unfold doubled
    rw [show n / 2 = m by omega, trapz_res tau eff fs n fun k => 2 * J (k : ℕ), norm_halves hn hJ x hT]
    refine Finset.sum_congr rfl fun k _ => ?_
    rw [mul_div_mul_left _ _ two_ne_zero, mul_div_mul_left _ _ two_ne_zero]
  rw [energyRes_of _ (by rw [hT']; exact hp), hT']
  · congr 2
    unfold OF.energyResolution
    rw [Real.sqrt_div zero_le_one, Real.sqrt_one]
  · intro p hp
    obtain ⟨k, _, rfl⟩ := List.mem_map.1 hp
    have := hJ.1 ((k : ℕ) : ZMod n)
    simp only
    positivity

/-- With the PSD of `foldpsd`, which leaves the bins at zero and at Nyquist as they are, the estimate counts these
two bins twice. -/
theorem resolution_folded (heven : Even n) {J : ZMod n → ℝ} (hJ : TwoSided J) {fs tau eff : ℝ} (hfs : 0 < fs)
    (he : eff ≠ 0) (x : ZMod n → ℝ) {T : ZMod n → ℝ} (hT : Collected fs tau eff T) :
    ∃ r, energyRes (folded fs J) tau eff = .ok r ∧ 0 < r ∧
      1 / (qe * r) ^ 2 =
        1 / OF.energyResolution (OF.init x T (fun k => (J k : WithTop ℝ)) fs false false) ^ 2 +
          fs / n * (eff ^ 2 / J 0 + eff ^ 2 / (1 + (Real.pi * fs * tau) ^ 2) / J ((n / 2 : ℕ) : ZMod n)) := by
  obtain ⟨m, hm⟩ := heven
  have hn : n = 2 * m := by omega
  have h0 := NeZero.ne n
  have hnr : (0 : ℝ) < n := by exact_mod_cast (by omega : 0 < n)
  have hp := norm_pos hJ hfs he (by omega) x hT false
  have hq := qe_pos
  set P : ℕ → ℝ := fun k => eff ^ 2 / (1 + (2 * Real.pi * ((k : ℝ) * fs / n) * tau) ^ 2) with hP
  set S : ℕ → ℝ := fun k => if 1 ≤ k ∧ k < m then J (k : ℕ) * 2 else J (k : ℕ) with hS
  have hSpos : ∀ k, 0 < S k := by
    intro k
    have := hJ.1 ((k : ℕ) : ZMod n)
    simp only [hS]
    split_ifs <;> positivity
  have efold : folded fs J = (List.range (m + 1)).map fun k : ℕ => ((k : ℝ) * fs / n, S k) := by
    unfold folded
    rw [show m = n / 2 by omega, ← List.map_coe_finRange_eq_range, List.map_map]
    refine List.map_congr_left fun k _ => ?_
    refine Prod.ext rfl ?_
    simp only [Function.comp, Noise.foldpsd, Noise.mulSlice, Noise.Half.bin, hS]
    rw [show n / 2 + n % 2 = m by omega]
  set b : ℕ → ℝ := fun k => if k = 0 ∨ k = m then P k / J (k : ℕ) else 0 with hb
  have hg : ∀ k, k ≤ m → 2 * P k / S k = P k / J (k : ℕ) + b k := by
    intro k hk
    have hj := (hJ.1 ((k : ℕ) : ZMod n)).ne'
    simp only [hS, hb]
    by_cases hk' : k = 0 ∨ k = m
    · rw [if_pos hk', if_neg (by omega)]
      ring
    · rw [if_neg hk', if_pos (by omega)]
      field_simp
      ring
  have hT' : trapz ((folded fs J).map (resPoint tau eff)) =
      (OF.init x T (fun k => (J k : WithTop ℝ)) fs false false).norm +
        fs / n * (P 0 / J ((0 : ℕ) : ZMod n) + P m / J ((m : ℕ) : ZMod n)) := by
    rw [efold, trapz_res tau eff fs n S, norm_halves hn hJ x hT]
    have hb0 : ∑ k ∈ Finset.range m, b k = P 0 / J ((0 : ℕ) : ZMod n) := by
      rw [Finset.sum_eq_single 0]
      · exact if_pos (Or.inl rfl)
      · intro k hk hk0
        have := Finset.mem_range.1 hk
        simp only [hb]
        rw [if_neg (by omega)]
      · intro h
        exact absurd (Finset.mem_range.2 (by omega)) h
    have hbm : ∑ k ∈ Finset.range m, b (k + 1) = P m / J ((m : ℕ) : ZMod n) := by
      rw [Finset.sum_eq_single (m - 1)]
      · simp only [hb]
        rw [show m - 1 + 1 = m by omega, if_pos (Or.inr rfl)]
      · intro k hk hk0
        have := Finset.mem_range.1 hk
        simp only [hb]
        rw [if_neg (by omega)]
      · intro h
        exact absurd (Finset.mem_range.2 (by omega)) h
    rw [← hb0, ← hbm, ← Finset.sum_add_distrib, Finset.mul_sum, ← Finset.sum_add_distrib]
    refine Finset.sum_congr rfl fun k hk => ?_
    have hk := Finset.mem_range.1 hk
    have h1 := hg k hk.le
    have h2 := hg (k + 1) hk
    simp only [hP] at h1 h2
    rw [h1, h2]
    ring
  have hPpos : ∀ k, 0 < P k := by
    intro k
    have : 0 < eff ^ 2 := by positivity
    simp only [hP]
    positivity
  have hJ0 := hJ.1 ((0 : ℕ) : ZMod n)
  have hJm := hJ.1 ((m : ℕ) : ZMod n)
  have hpos : 0 < trapz ((folded fs J).map (resPoint tau eff)) := by
    rw [hT']
    have := hPpos 0
    have := hPpos m
    positivity
  refine ⟨_, energyRes_of ?_ hpos, by positivity, ?_⟩
  · intro p hp
    rw [efold] at hp
    obtain ⟨k, _, rfl⟩ := List.mem_map.1 hp
    exact (hSpos k).ne'
  · rw [mul_div_cancel₀ _ hq.ne', Real.sq_sqrt (by positivity), one_div_one_div, hT']
    unfold OF.energyResolution
    rw [div_pow, one_pow, Real.sq_sqrt hp.le, one_div_one_div, show n / 2 = m by omega]
    have e0 : P 0 = eff ^ 2 := by simp [hP]
    have em : P m = eff ^ 2 / (1 + (Real.pi * fs * tau) ^ 2) := by
      simp only [hP]
      have : (m : ℝ) * fs / n = fs / 2 := by
        have hm0 : (m : ℝ) ≠ 0 := by
          have : m ≠ 0 := by omega
          exact_mod_cast this
        rw [hn]
        push_cast
        field_simp
      rw [this]
      congr 3
      ring
    rw [e0, em, Nat.cast_zero]

/-- With the PSD of `foldpsd` the estimate promises a better resolution than the filter reaches, in either coupling. -/
theorem resolution_optimistic (heven : Even n) {J : ZMod n → ℝ} (hJ : TwoSided J) {fs tau eff : ℝ} (hfs : 0 < fs)
    (he : eff ≠ 0) (x : ZMod n → ℝ) {T : ZMod n → ℝ} (hT : Collected fs tau eff T) (ac : Bool) :
    ∃ r, energyRes (folded fs J) tau eff = .ok r ∧
      qe * r < OF.energyResolution (OF.init x T (fun k => (J k : WithTop ℝ)) fs ac false) := by
  obtain ⟨r, hr, hr0, h⟩ := resolution_folded heven hJ hfs he x hT
  refine ⟨r, hr, ?_⟩
  obtain ⟨m, hm⟩ := heven
  have h0 := NeZero.ne n
  have hnr : (0 : ℝ) < n := by exact_mod_cast (by omega : 0 < n)
  have hp := norm_pos hJ hfs he (by omega) x hT ac
  have hp' := norm_pos hJ hfs he (by omega) x hT false
  have hle := norm_ac_le hJ hfs x T ac
  have hq := qe_pos
  have hJ0 := hJ.1 0
  have hJm := hJ.1 ((n / 2 : ℕ) : ZMod n)
  have hx : 0 < fs / n * (eff ^ 2 / J 0 + eff ^ 2 / (1 + (Real.pi * fs * tau) ^ 2) / J ((n / 2 : ℕ) : ZMod n)) := by
    have : 0 < eff ^ 2 := by positivity
    positivity
  unfold OF.energyResolution at h ⊢
  rw [div_pow, one_pow, Real.sq_sqrt hp'.le, one_div_one_div] at h
  have hlt : (OF.init x T (fun k => (J k : WithTop ℝ)) fs ac false).norm < 1 / (qe * r) ^ 2 := by
    rw [h]
    linarith
  have h1 : Real.sqrt (OF.init x T (fun k => (J k : WithTop ℝ)) fs ac false).norm < 1 / (qe * r) := by
    rw [Real.sqrt_lt' (by positivity), div_pow, one_pow]
    exact hlt
  have h2 := Real.sqrt_pos.2 hp
  rw [lt_div_iff₀ (by positivity)] at h1 ⊢
  rw [mul_comm]
  exact h1

/-- There is a template with the assumed power for every time constant and efficiency, and white noise is two-sided. -/
example (fs tau eff : ℝ) (hfs : 0 < fs) : (∃ T : ZMod 8 → ℝ, Collected fs tau eff T) ∧
    TwoSided (fun _ : ZMod 8 => (3 : ℝ)) := by
  refine ⟨?_, fun _ => by norm_num, fun _ => rfl⟩
  obtain ⟨T, hT⟩ := exists_trace (fun k : ZMod 8 =>
    fs * (eff / Real.sqrt (1 + (2 * Real.pi * tau) ^ 2 * fftfreq fs k ^ 2))) fun k => by rw [fftfreq_neg_sq]
  refine ⟨T, fun k => ?_⟩
  have hfs' : (fs : ℂ) ≠ 0 := by exact_mod_cast hfs.ne'
  rw [hT k, Complex.ofReal_mul, mul_div_cancel_left₀ _ hfs', Complex.norm_real, Real.norm_eq_abs, sq_abs, div_pow,
    Real.sq_sqrt (by positivity)]
  congr 1
  ring

end Verif.Sim
