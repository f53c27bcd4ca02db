import Verif.SimOFSpec
import Verif.SimLemmas
import Verif.NoiseLemmas
import Verif.OFLemmas
import Verif.DidvWaveLemmas

/-! Helper lemmas that compare the energy resolution of `energy_res_estimate` with the one of the optimum
filter. -/

namespace Verif.Sim
open Verif Verif.Dft

/-- The trapezoidal rule on an evenly spaced grid. -/
theorem trapz_grid (d : ℝ) (g : ℕ → ℝ) (m : ℕ) :
    trapz ((List.range (m + 1)).map fun k : ℕ => ((k : ℝ) * d, g k)) =
      ∑ k ∈ Finset.range m, d * (g k + g (k + 1)) / 2 := by
  induction m with
  | zero => simp [trapz]
  | succ m ih =>
    rw [List.range_succ, List.map_append, Finset.sum_range_succ, ← ih, List.range_succ, List.map_append]
    simp only [List.map_cons, List.map_nil, List.append_assoc, List.cons_append, List.nil_append]
    rw [trapz_append]
    simp only [trapz]
    push_cast
    ring

variable {n : ℕ} [NeZero n]

/-- An even function over all bins, summed over the bins of non-negative frequency. -/
theorem even_sum {m : ℕ} (hn : n = 2 * m) (h : ZMod n → ℝ) (hev : ∀ k, h (-k) = h k) :
    ∑ k, h k = ∑ k ∈ Finset.range m, (h (k : ℕ) + h ((k + 1 : ℕ) : ZMod n)) := by
  have hneg : ∀ k, k ≤ n → ((n - k : ℕ) : ZMod n) = -(k : ZMod n) := by
    intro k hk
    rw [Nat.cast_sub hk, ZMod.natCast_self, zero_sub]
  rw [Noise.sum_zmod, show Finset.range n = Finset.range (m + m) from by rw [hn, two_mul],
    Finset.sum_range_add, Finset.sum_add_distrib]
  congr 1
  rw [← Finset.sum_range_reflect (fun k => h ((k + 1 : ℕ) : ZMod n))]
  refine Finset.sum_congr rfl fun k hk => ?_
  have hk := Finset.mem_range.1 hk
  rw [← hev, ← hneg _ (by omega)]
  congr 2
  omega

/-- The frequency of bin `k` up to the sign that `np.fft.fftfreq` gives to the Nyquist bin. -/
theorem fftfreq_sq {m : ℕ} (hn : n = 2 * m) (fs : ℝ) (k : ℕ) (hk : k ≤ m) :
    fftfreq fs (k : ZMod n) ^ 2 = ((k : ℝ) * fs / n) ^ 2 := by
  have h0 : n ≠ 0 := NeZero.ne n
  have hv : (k : ZMod n).val = k := ZMod.val_cast_of_lt (by omega)
  unfold fftfreq freqIdx
  rw [hv]
  rcases lt_or_eq_of_le hk with hlt | heq
  · rw [if_pos (by omega)]
    simp
  · rw [if_neg (by omega)]
    have e : ((k : ℤ) - n : ℤ) = -(k : ℤ) := by omega
    rw [e]
    push_cast
    ring

/-- The integral behind the resolution, on the bins of non-negative frequency. -/
theorem trapz_res (tau eff fs : ℝ) (N : ℝ) (S : ℕ → ℝ) (m : ℕ) :
    trapz (((List.range (m + 1)).map fun k : ℕ => ((k : ℝ) * fs / N, S k)).map (resPoint tau eff)) =
      ∑ k ∈ Finset.range m, fs / N *
        (2 * (eff ^ 2 / (1 + (2 * Real.pi * ((k : ℝ) * fs / N) * tau) ^ 2)) / S k +
          2 * (eff ^ 2 / (1 + (2 * Real.pi * (((k + 1 : ℕ) : ℝ) * fs / N) * tau) ^ 2)) / S (k + 1)) := by
  have hpi := Real.pi_ne_zero
  have e : ((List.range (m + 1)).map fun k : ℕ => ((k : ℝ) * fs / N, S k)).map (resPoint tau eff) =
      (List.range (m + 1)).map fun k : ℕ => ((k : ℝ) * (2 * Real.pi * (fs / N)),
        2 * (eff ^ 2 / (1 + (2 * Real.pi * ((k : ℝ) * fs / N) * tau) ^ 2)) / S k / Real.pi) := by
    rw [List.map_map]
    refine List.map_congr_left fun k _ => ?_
    simp only [Function.comp, resPoint_eq]
    refine Prod.ext (by simp only; ring) ?_
    simp only
    generalize 1 + (2 * Real.pi * ((k : ℝ) * fs / N) * tau) ^ 2 = D
    simp only [div_eq_mul_inv, mul_inv]
    ring
  rw [e, trapz_grid (2 * Real.pi * (fs / N))
    fun k => 2 * (eff ^ 2 / (1 + (2 * Real.pi * ((k : ℝ) * fs / N) * tau) ^ 2)) / S k / Real.pi]
  refine Finset.sum_congr rfl fun k _ => ?_
  generalize 2 * (eff ^ 2 / (1 + (2 * Real.pi * ((k : ℝ) * fs / N) * tau) ^ 2)) / S k = a
  generalize 2 * (eff ^ 2 / (1 + (2 * Real.pi * (((k + 1 : ℕ) : ℝ) * fs / N) * tau) ^ 2)) / S (k + 1) = b
  field_simp

theorem fftfreq_neg_sq (fs : ℝ) (k : ZMod n) : fftfreq fs (-k) ^ 2 = fftfreq fs k ^ 2 := by
  by_cases h : 2 * k.val = n
  · have hk : k ≠ 0 := by
      rintro rfl
      have := NeZero.ne n
      simp at h
      omega
    have : NeZero k := ⟨hk⟩
    have hn : (-k).val = k.val := by
      rw [ZMod.val_neg_of_ne_zero k]
      omega
    rw [ZMod.val_injective n hn]
  · unfold fftfreq
    rw [Didv.freqIdx_neg k h]
    push_cast
    ring

/-- Every real even spectrum is that of a real trace. -/
theorem exists_trace (s : ZMod n → ℝ) (hs : ∀ k, s (-k) = s k) :
    ∃ x : ZMod n → ℝ, ∀ k, fftR x k = s k := by
  have hc : ∀ j, starRingEnd ℂ (ifft (fun k => (s k : ℂ)) j) = ifft (fun k => (s k : ℂ)) j := by
    intro j
    rw [ifft_apply, map_mul, map_sum, map_inv₀, Complex.conj_natCast]
    congr 1
    refine Fintype.sum_equiv (Equiv.neg _) _ _ fun k => ?_
    rw [map_mul, conj_e, Complex.conj_ofReal, Equiv.neg_apply, hs, neg_mul]
  refine ⟨fun j => (ifft (fun k => (s k : ℂ)) j).re, fun k => ?_⟩
  have e : (fun j => (((ifft (fun k => (s k : ℂ)) j).re : ℝ) : ℂ)) = ifft fun k => (s k : ℂ) :=
    funext fun j => Complex.conj_eq_iff_re.1 (hc j)
  unfold fftR
  rw [e]
  exact congrFun (fft_ifft fun k => (s k : ℂ)) k

/-- The resolution of the DC-coupled filter, as a sum over the bins of non-negative frequency. -/
theorem norm_halves {m : ℕ} (hn : n = 2 * m) {J : ZMod n → ℝ} (hJ : TwoSided J) {fs tau eff : ℝ}
    (x : ZMod n → ℝ) {T : ZMod n → ℝ} (hT : Collected fs tau eff T) :
    (OF.init x T (fun k => (J k : WithTop ℝ)) fs false false).norm =
      ∑ k ∈ Finset.range m, fs / n *
        (eff ^ 2 / (1 + (2 * Real.pi * ((k : ℝ) * fs / n) * tau) ^ 2) / J (k : ℕ) +
          eff ^ 2 / (1 + (2 * Real.pi * (((k + 1 : ℕ) : ℝ) * fs / n) * tau) ^ 2) / J ((k + 1 : ℕ) : ZMod n)) := by
  rw [OF.init_norm]
  unfold OF.traceChi2
  have e : ∀ k : ZMod n, ‖fftR T k / (fs : ℂ)‖ ^ 2 * OF.weight (fun k => (J k : WithTop ℝ)) false k * (fs / n) =
      fs / n * (eff ^ 2 / (1 + (2 * Real.pi * fftfreq fs k * tau) ^ 2) / J k) := by
    intro k
    rw [hT k]
    simp only [OF.weight, recip, Bool.false_eq_true, false_and, if_false]
    ring
  rw [Finset.sum_congr rfl fun k _ => e k, even_sum hn]
  · refine Finset.sum_congr rfl fun k hk => ?_
    have hk := Finset.mem_range.1 hk
    have h1 := fftfreq_sq hn fs k hk.le
    have h2 := fftfreq_sq hn fs (k + 1) hk
    rw [show (2 * Real.pi * fftfreq fs ((k : ℕ) : ZMod n) * tau) ^ 2 =
      (2 * Real.pi * tau) ^ 2 * fftfreq fs ((k : ℕ) : ZMod n) ^ 2 by ring, h1,
      show (2 * Real.pi * fftfreq fs ((k + 1 : ℕ) : ZMod n) * tau) ^ 2 =
      (2 * Real.pi * tau) ^ 2 * fftfreq fs ((k + 1 : ℕ) : ZMod n) ^ 2 by ring, h2]
    ring
  · intro k
    rw [show (2 * Real.pi * fftfreq fs (-k) * tau) ^ 2 =
      (2 * Real.pi * tau) ^ 2 * fftfreq fs (-k) ^ 2 by ring, fftfreq_neg_sq, hJ.2 k]
    ring

theorem norm_pos {J : ZMod n → ℝ} (hJ : TwoSided J) {fs tau eff : ℝ} (hfs : 0 < fs) (he : eff ≠ 0)
    (h2 : 2 ≤ n) (x : ZMod n → ℝ) {T : ZMod n → ℝ} (hT : Collected fs tau eff T) (ac : Bool) :
    0 < (OF.init x T (fun k => (J k : WithTop ℝ)) fs ac false).norm := by
  rw [OF.init_norm]
  unfold OF.traceChi2
  have hn : (0 : ℝ) < n := by exact_mod_cast (by omega : 0 < n)
  have hpow : ∀ k, 0 < ‖fftR T k / (fs : ℂ)‖ ^ 2 := by
    intro k
    rw [hT k]
    have : 0 < eff ^ 2 := by positivity
    positivity
  refine Finset.sum_pos' (fun k _ => ?_) ⟨((1 : ℕ) : ZMod n), Finset.mem_univ _, ?_⟩
  · have := OF.weight_nonneg (fun k => (J k : WithTop ℝ)) ac (fun k => by exact_mod_cast hJ.1 k) k
    have := (hpow k).le
    positivity
  · have h10 : ((1 : ℕ) : ZMod n) ≠ 0 := by
      intro h
      have := (ZMod.natCast_eq_zero_iff 1 n).1 h
      have := Nat.le_of_dvd one_pos this
      omega
    have hw : OF.weight (fun k => (J k : WithTop ℝ)) ac ((1 : ℕ) : ZMod n) = 1 / J ((1 : ℕ) : ZMod n) := by
      simp only [OF.weight, recip]
      rw [if_neg fun h => h10 h.2]
    rw [hw]
    have := hJ.1 ((1 : ℕ) : ZMod n)
    have := hpow ((1 : ℕ) : ZMod n)
    positivity

theorem norm_ac_le {J : ZMod n → ℝ} (hJ : TwoSided J) {fs : ℝ} (hfs : 0 < fs)
    (x : ZMod n → ℝ) (T : ZMod n → ℝ) (ac : Bool) :
    (OF.init x T (fun k => (J k : WithTop ℝ)) fs ac false).norm ≤
      (OF.init x T (fun k => (J k : WithTop ℝ)) fs false false).norm := by
  rw [OF.init_norm, OF.init_norm]
  unfold OF.traceChi2
  refine Finset.sum_le_sum fun k _ => ?_
  have hle : OF.weight (fun k => (J k : WithTop ℝ)) ac k ≤ OF.weight (fun k => (J k : WithTop ℝ)) false k := by
    have h0 := OF.weight_nonneg (fun k => (J k : WithTop ℝ)) false (fun k => by exact_mod_cast hJ.1 k) k
    unfold OF.weight at h0 ⊢
    simp only [Bool.false_eq_true, false_and, if_false] at h0 ⊢
    split_ifs
    · exact h0
    · exact le_rfl
  have : 0 ≤ fs / n := by positivity
  gcongr

end Verif.Sim
