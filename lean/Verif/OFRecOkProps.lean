import Verif.OFRecOkLemmas

/-! C118: on noise-free events the fits do return, and what they return is the truth. -/

namespace Verif.OF
open Verif Verif.Dft

variable {n : ℕ} [NeZero n]

/-- **C118.**  The fit with delay, with legal arguments whose window and direction admit the true pulse. -/
theorem withdelay_recovers (T : ZMod n → ℝ) (psd : ZMod n → WithTop ℝ) (fs : ℝ) (ac : Bool) (A : ℝ) (k : ℤ)
    (hfs : 0 < fs) (hpsd : ∀ j, 0 < psd j) (hA : A ≠ 0) (hT : Distinguishable fs (weight psd ac) T 2)
    (nc : Option ℤ) (o : Bool) (dir wc : ℤ) (hdir : dir = 0 ∨ dir = 1 ∨ dir = -1)
    (hwc : 0 ≤ (n : ℤ) / 2 + wc ∧ (n : ℤ) / 2 + wc < n) (hnc : ∀ m, nc = some m → 0 < m)
    (hk : Admissible n nc o none wc (k + (n : ℤ) / 2)) (h1 : dir = 1 → 0 ≤ A) (h2 : dir = -1 → A ≤ 0) :
    (withdelay (init (fun j => A * roll T (k : ZMod n) j) T psd fs ac false) nc o dir wc false).1 =
      .ok (A, k / fs, 0) := by
  have hN : 0 < traceChi2 fs (weight psd ac) T :=
    lt_of_le_of_ne (ip_nonneg _ _ _ hfs.le (weight_nonneg psd ac hpsd)) (visible_one one_le_two hT).symm
  obtain ⟨a, t, c, h⟩ := withdelay_ok (init (fun j => A * roll T (k : ZMod n) j) T psd fs ac false) o hdir hwc hnc
  obtain ⟨rfl, rfl, rfl⟩ := withdelay_exact T psd fs ac A k hfs hpsd hA hT hN nc o dir wc hk h1 h2 a t c h
  exact h

/-- **C118.**  The pile-up fit, given the true first pulse, which lies in the trace. -/
theorem pileup_recovers (T : ZMod n → ℝ) (psd : ZMod n → WithTop ℝ) (fs : ℝ) (ac : Bool) (A1 A2 : ℝ) (k1 k2 : ℤ)
    (hfs : 0 < fs) (hpsd : ∀ j, 0 < psd j) (hA : A2 ≠ 0) (hT : Distinguishable fs (weight psd ac) T 2)
    (nc : Option ℤ) (o : Bool) (dir wc : ℤ) (hdir : dir = 0 ∨ dir = 1 ∨ dir = -1)
    (hwc : 0 ≤ (n : ℤ) / 2 + wc ∧ (n : ℤ) / 2 + wc < n) (hnc : ∀ m, nc = some m → 0 < m)
    (hk1 : -(n : ℤ) ≤ k1 ∧ k1 < n)
    (hk : Admissible n nc o none wc (k2 + (n : ℤ) / 2)) (h1 : dir = 1 → 0 ≤ A2) (h2 : dir = -1 → A2 ≤ 0) :
    (pileupIterative (init (fun j => A1 * roll T (k1 : ZMod n) j + A2 * roll T (k2 : ZMod n) j) T psd fs ac false)
      A1 (k1 / fs) nc o dir wc false).1 = .ok (A2, k2 / fs, 0) := by
  have hN : 0 < traceChi2 fs (weight psd ac) T :=
    lt_of_le_of_ne (ip_nonneg _ _ _ hfs.le (weight_nonneg psd ac hpsd)) (visible_one one_le_two hT).symm
  obtain ⟨⟨a, t, c⟩, h⟩ := pileup_total (fun j => A1 * roll T (k1 : ZMod n) j + A2 * roll T (k2 : ZMod n) j) T psd fs
    ac hfs A1 _ k1 rfl hk1 nc o dir wc (by tauto) hwc hnc
  obtain ⟨rfl, rfl, rfl⟩ := pileup_exact T psd fs ac A1 A2 k1 k2 hfs hpsd hA hT hN nc o dir wc hk h1 h2 a t c h
  exact h

/-- **C118.**  The stationary pile-up fit, first pulse at delay zero and the second one elsewhere. -/
theorem stationary_recovers (T : ZMod n → ℝ) (psd : ZMod n → WithTop ℝ) (fs : ℝ) (ac : Bool) (A1 A2 : ℝ) (k : ℤ)
    (hfs : 0 < fs) (hpsd : ∀ j, 0 < psd j) (hA : A2 ≠ 0) (hT : Distinguishable fs (weight psd ac) T 3)
    (nc : Option ℤ) (o : Bool) (wc : ℤ) (hwc : 0 ≤ (n : ℤ) / 2 + wc ∧ (n : ℤ) / 2 + wc < n)
    (hnc : ∀ m, nc = some m → 0 < m) (hk : Admissible n nc o none wc (k + (n : ℤ) / 2)) (hk0 : k ≠ 0) :
    (pileupStationary (init (fun j => A1 * T j + A2 * roll T (k : ZMod n) j) T psd fs ac false) nc o wc).1 =
      .ok (A1, A2, k / fs, 0) := by
  have hN : 0 < traceChi2 fs (weight psd ac) T :=
    lt_of_le_of_ne (ip_nonneg _ _ _ hfs.le (weight_nonneg psd ac hpsd)) (visible_one (by norm_num) hT).symm
  obtain ⟨a1, a2, t, c, h⟩ := stationary_ok (fun j => A1 * T j + A2 * roll T (k : ZMod n) j)
    (hT.mono (by norm_num : 2 ≤ 3)) hwc hnc hk
  obtain ⟨rfl, rfl, rfl, rfl⟩ := stationary_exact T psd fs ac A1 A2 k hfs hpsd hA hT hN nc o wc hk hk0 a1 a2 t c h
  exact h

/-- **C118.**  The fit with a baseline. -/
theorem baseline_recovers (T : ZMod n → ℝ) (psd : ZMod n → WithTop ℝ) (fs : ℝ) (ac : Bool) (A B : ℝ) (k : ℤ)
    (hfs : 0 < fs) (hpsd : ∀ j, 0 < psd j) (hA : A ≠ 0) (hT : DistinguishableB fs (weight psd false) T 2)
    (nc : Option ℤ) (o : Bool) (dir wc : ℤ) (hdir : dir = 0 ∨ dir = 1 ∨ dir = -1)
    (hwc : 0 ≤ (n : ℤ) / 2 + wc ∧ (n : ℤ) / 2 + wc < n) (hnc : ∀ m, nc = some m → 0 < m)
    (hk : Admissible n nc o none wc (k + (n : ℤ) / 2)) (h1 : dir = 1 → 0 ≤ A) (h2 : dir = -1 → A ≤ 0) :
    baseline (init (fun j => A * roll T (k : ZMod n) j + B) T psd fs ac false) nc o dir wc false =
      .ok (A, k / fs, 0) := by
  have hnn : ∀ r, 0 ≤ traceChi2 fs (weight psd false) r := fun r =>
    ip_nonneg _ _ _ hfs.le (weight_nonneg psd false hpsd)
  obtain ⟨v1, v2⟩ := visible_base one_le_two hT
  obtain ⟨p0, hp⟩ := WithTop.ne_top_iff_exists.1 (psd0_ne_top v1)
  obtain ⟨a, t, c, h⟩ := baseline_ok (fun j => A * roll T (k : ZMod n) j + B) T psd fs ac p0 hp.symm
    (lt_of_le_of_ne (hnn _) v1.symm) (fun b => lt_of_le_of_ne (hnn _) (v2 b).symm) nc o dir wc hdir hwc hnc
  obtain ⟨rfl, rfl, rfl⟩ := baseline_exact T psd fs ac A B k hfs hpsd hA hT nc o dir wc hk h1 h2 a t c h
  exact h

/-- **C118.**  The multi-template fit with at least one background, for every window that holds the true delay and
does not begin before the trace. -/
theorem nsmb_recovers {nb : ℕ} (hnb : nb ≠ 0) {T : Fin (nb + 1) → ZMod n → ℝ} {psd : ZMod n → ℝ} {fs : ℝ}
    {F : Nsmb.Filt n nb} (hF : Nsmb.setup T psd fs = .ok F) (hpsd : ∀ f, f ≠ 0 → 0 < psd f) (hfs : 0 < fs) {k : ℤ}
    {A : Fin (nb + 1) → ℝ} {window : List ℤ} (hk : k ∈ window) (hin : ∀ i ∈ window, -(n : ℤ) ≤ i) (lf : ℕ)
    (hind : ∀ (s : ZMod n → ℝ) (b : Fin nb → ℝ), {d | s d ≠ 0}.ncard ≤ 2 →
      (∀ j, pulses (T 0) s 0 j + ∑ i, b i * T i.succ j = 0) → s = 0 ∧ b = 0) (hA : A 0 ≠ 0) :
    ∃ r, Nsmb.ofNsmb (fun j => ∑ i, A i * Nsmb.Spec.delayed T (k : ZMod n) i j) F (Nsmb.getiP F.P) fs window lf = .ok r ∧
      r.amps = A ∧ r.chi2min = 0 ∧ (∀ j, r.residT j = 0) ∧
      ∃ m : ℤ, r.tdelmin = m / fs ∧ (m : ZMod n) = (k : ZMod n) := by
  obtain ⟨r, h⟩ := ofNsmb_ok hnb (fun j => ∑ i, A i * Nsmb.Spec.delayed T (k : ZMod n) i j) F (Nsmb.getiP F.P) fs
    (List.ne_nil_of_mem hk) hin lf
  obtain ⟨h1, h2, h3⟩ := nsmb_exact hF hpsd hfs hk h
  obtain ⟨h4, h5⟩ := h3 hind hA
  exact ⟨r, h, h4, h1, h2, h5⟩

/-- A pulse of height 5 at delay −3, white noise, a window of 7 bins around −2, direction positive. -/
example : (withdelay (init (n := 8) (fun j => 5 * roll delta ((-3 : ℤ) : ZMod 8) j) delta white 1 false false)
    (some 7) false 1 (-2) false).1 = .ok (5, (-3 : ℤ) / 1, 0) := by
  refine withdelay_recovers delta white 1 false 5 (-3) one_pos (fun _ => by simp [white]) (by norm_num)
    (fun c _ h => ?_) _ _ _ _ (by tauto) (by norm_num) (by simp) ?_ (by norm_num) (by norm_num)
  · funext j
    have := white_zero h j
    rw [pulses_delta, add_zero] at this
    exact this
  · refine ⟨by norm_num, by norm_num, ?_, by simp⟩
    intro k hk
    cases hk
    simp [InWindow]

/-- Three templates on 8 bins, the signal of height 2 delayed by 3 bins, a window of three delays. -/
example : ∃ F, Nsmb.setup (![delta, fun _ => 1, fun j => if Even j.val then 1 else -1] : Fin 3 → ZMod 8 → ℝ)
    (fun _ => 1) 8 = .ok F ∧ ∃ r, Nsmb.ofNsmb (fun j => ∑ i, ![2, 7, -4] i * Nsmb.Spec.delayed
      (![delta, fun _ => 1, fun j => if Even j.val then 1 else -1] : Fin 3 → ZMod 8 → ℝ) ((3 : ℤ) : ZMod 8) i j)
      F (Nsmb.getiP F.P) 8 [-2, 0, 3] 500 = .ok r ∧ r.amps = ![2, 7, -4] ∧ r.chi2min = 0 := by
  obtain ⟨F, hF⟩ := Nsmb.setup_defined_partial (![delta, fun _ => 1, fun j => if Even j.val then 1 else -1] :
    Fin 3 → ZMod 8 → ℝ) (fun _ => 1) 8 (by norm_num) (by norm_num)
  obtain ⟨r, h, h1, h2, -⟩ := nsmb_recovers (by norm_num) hF (fun _ _ => one_pos) (by norm_num) (k := 3)
    (A := ![2, 7, -4]) (window := [-2, 0, 3]) (by simp) (by simp) 500
    (fun s b hs h => indep_ex s b hs fun j => by
      have := h j
      simpa [Fin.sum_univ_two] using this) (by simp)
  exact ⟨F, hF, r, h, h1, h2⟩

end Verif.OF
