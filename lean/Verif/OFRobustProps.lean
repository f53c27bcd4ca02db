import Verif.OFRobustLemmas
import Verif.OFRecOkProps
import Verif.OFDelayLemmas
import Verif.OFRateProps

/-!
Property C158: a disturbance of any kind (noise, further pulses, a pulse which is not exactly of the shape of the
template) moves the fits no further than its own size, as the noise weighting measures it.
-/

namespace Verif.OF
open Verif Verif.Dft

variable {n : ℕ} [NeZero n]

section Single
variable {T : ZMod n → ℝ} {psd : ZMod n → WithTop ℝ} {fs : ℝ} {ac : Bool}

/-- The amplitude without delay. -/
theorem nodelay_robust (hfs : 0 < fs) (hpsd : ∀ k, 0 < psd k) (hN : 0 < traceChi2 fs (weight psd ac) T) (a : ℝ) (wc : ℤ)
    (y x : ZMod n → ℝ) :
    |(nodelay (init (pulse T a wc y) T psd fs ac false) wc).1.1 - a| ≤
      energyResolution (init x T psd fs ac false) * Real.sqrt (traceChi2 fs (weight psd ac) y) ∧
    (nodelay (init (pulse T a wc y) T psd fs ac false) wc).1.2 ≤ traceChi2 fs (weight psd ac) y := by
  have hw := weight_nonneg psd ac hpsd
  have hcs := ip_sq_le hfs.le hw (p := roll T wc) (by rw [traceChi2_roll]; exact hN) y
  rw [traceChi2_roll] at hcs
  rw [nodelay_pulse hfs.ne' ac T hN.ne']
  simp only [add_sub_cancel_left]
  constructor
  · rw [energyResolution, init_norm]
    refine abs_le_of_sq_le_sq ?_ (by positivity)
    rw [mul_pow, Real.sq_sqrt (ip_nonneg fs _ y hfs.le hw), div_pow, div_pow, Real.sq_sqrt hN.le, one_pow,
      one_div_mul_eq_div, div_le_div_iff₀ (by positivity) hN]
    nlinarith
  · have : 0 ≤ ip fs (weight psd ac) (roll T wc) y ^ 2 / traceChi2 fs (weight psd ac) T := by positivity
    linarith

/-- In particular a pulse which has another shape than the template: the relative error of the amplitude is at most the
size of the difference of the shapes relative to that of the template. -/
theorem nodelay_shape (hfs : 0 < fs) (hpsd : ∀ k, 0 < psd k) (hN : 0 < traceChi2 fs (weight psd ac) T) (a : ℝ) (wc : ℤ)
    (S : ZMod n → ℝ) :
    |(nodelay (init (fun j => a * roll S (wc : ZMod n) j) T psd fs ac false) wc).1.1 - a| ≤
      |a| * Real.sqrt (traceChi2 fs (weight psd ac) (fun j => S j - T j) / traceChi2 fs (weight psd ac) T) := by
  have e : (fun j => a * roll S (wc : ZMod n) j) =
      pulse T a wc fun j => a * roll (fun j => S j - T j) (wc : ZMod n) j := by
    funext j
    simp only [pulse, roll]
    ring
  rw [e]
  refine (nodelay_robust hfs hpsd hN a wc _ 0).1.trans (le_of_eq ?_)
  have e2 : traceChi2 fs (weight psd ac) (fun j => a * roll (fun j => S j - T j) (wc : ZMod n) j) =
      a ^ 2 * traceChi2 fs (weight psd ac) (fun j => S j - T j) := by
    rw [← ip_self, ip_smul_right, ip_comm, ip_smul_right, ip_self, traceChi2_roll]
    ring
  rw [e2, energyResolution, init_norm, Real.sqrt_mul (sq_nonneg a), Real.sqrt_sq_eq_abs,
    Real.sqrt_div' _ hN.le]
  ring

/-- The fit with delay: the pulse found differs from the true one by at most four times the chi-square of the
disturbance, and so do, in units of the resolution, the heights. -/
theorem withdelay_robust (hfs : 0 < fs) (hpsd : ∀ k, 0 < psd k) (hN : 0 < traceChi2 fs (weight psd ac) T) {a : ℝ} {m : ℤ}
    {nc : Option ℤ} {o : Bool} {dir wc : ℤ} (hm : m ∈ Delays n nc o wc) (h1 : dir = 1 → 0 ≤ a) (h2 : dir = -1 → a ≤ 0)
    {y : ZMod n → ℝ} {A t c : ℝ}
    (h : (withdelay (init (pulse T a m y) T psd fs ac false) nc o dir wc false).1 = .ok (A, t, c)) (x : ZMod n → ℝ) :
    c ≤ traceChi2 fs (weight psd ac) y ∧
    (∃ d : ℤ, t = d / fs ∧ traceChi2 fs (weight psd ac) (fun j => A * roll T (d : ZMod n) j - a * roll T (m : ZMod n) j) ≤
      4 * traceChi2 fs (weight psd ac) y) ∧
    |(|A| - |a|)| ≤ 2 * energyResolution (init x T psd fs ac false) * Real.sqrt (traceChi2 fs (weight psd ac) y) := by
  have hw := weight_nonneg psd ac hpsd
  obtain ⟨⟨d, ht, hc, -⟩, -, hopt⟩ := withdelay_optimal _ T psd fs ac hN nc o dir wc A t c h
  have h3 := hopt m a hm h1 h2
  have e : resid (pulse T a m y) T a (m : ZMod n) = y := by
    funext j
    simp [resid, pulse]
  rw [e] at h3
  have hclose := close_of_best hfs.le hw (x := pulse T a m y) (truth := fun j => a * roll T (m : ZMod n) j)
    (fit := fun j => A * roll T (d : ZMod n) j) (y := y) (fun _ => rfl) (hc ▸ h3)
  refine ⟨h3, ⟨d, ht, hclose⟩, ?_⟩
  have hh := heights hfs.le hw hN hclose
  rw [energyResolution, init_norm]
  refine abs_le_of_sq_le_sq ?_ (by positivity)
  rw [mul_pow, Real.sq_sqrt (ip_nonneg fs _ y hfs.le hw), mul_pow, div_pow, Real.sq_sqrt hN.le, one_pow]
  have : (2 : ℝ) ^ 2 * (1 / traceChi2 fs (weight psd ac) T) * traceChi2 fs (weight psd ac) y =
      4 * traceChi2 fs (weight psd ac) y / traceChi2 fs (weight psd ac) T := by
    ring
  rw [this, le_div_iff₀ hN]
  exact hh

/-- If no pulse of any height at another delay comes that close to the true one, nor does the absence of a pulse, the
delay is exactly right, and so is the sign; the amplitude is off by at most the resolution times the size of the
disturbance. -/
theorem withdelay_exact_delay (hfs : 0 < fs) (hpsd : ∀ k, 0 < psd k) (hN : 0 < traceChi2 fs (weight psd ac) T) {a : ℝ}
    {m : ℤ} {nc : Option ℤ} {o : Bool} {dir wc : ℤ} (hm : m ∈ Delays n nc o wc) (h1 : dir = 1 → 0 ≤ a)
    (h2 : dir = -1 → a ≤ 0) {y : ZMod n → ℝ} {A t c : ℝ}
    (h : (withdelay (init (pulse T a m y) T psd fs ac false) nc o dir wc false).1 = .ok (A, t, c))
    (h0 : 4 * traceChi2 fs (weight psd ac) y < a ^ 2 * traceChi2 fs (weight psd ac) T)
    (hd : ∀ d ∈ others n nc o wc m, ∀ b, 4 * traceChi2 fs (weight psd ac) y <
      traceChi2 fs (weight psd ac) (fun j => b * roll T (d : ZMod n) j - a * roll T (m : ZMod n) j)) (x : ZMod n → ℝ) :
    t = m / fs ∧ 0 < A * a ∧
    |A - a| ≤ energyResolution (init x T psd fs ac false) * Real.sqrt (traceChi2 fs (weight psd ac) y) := by
  have hw := weight_nonneg psd ac hpsd
  obtain ⟨-, ⟨d, ht, hclose⟩, -⟩ := withdelay_robust hfs hpsd hN hm h1 h2 h x
  have hA : A ≠ 0 := by
    rintro rfl
    have := heights hfs.le hw hN hclose
    rw [abs_zero, zero_sub, neg_sq, sq_abs] at this
    linarith
  have hdm : d = m ∧ A = readSfTd (init (pulse T a m y) T psd fs ac false) (d : ZMod n) := by
    obtain ⟨d', hd', e1, e2⟩ : ∃ d ∈ Delays n nc o wc, A = readSfTd (init (pulse T a m y) T psd fs ac false) (d : ZMod n) ∧
        t = d / fs := (withdelay_where h).resolve_left hA
    have e3 : d' = d := by
      rw [ht, div_left_inj' hfs.ne'] at e2
      exact_mod_cast e2.symm
    subst e3
    refine ⟨?_, e1⟩
    by_contra hne
    exact absurd hclose (not_le.2 (hd d' ⟨hd', hne⟩ A))
  obtain ⟨rfl, e1⟩ := hdm
  have hr : |A - a| ≤ energyResolution (init x T psd fs ac false) * Real.sqrt (traceChi2 fs (weight psd ac) y) := by
    have hcs := ip_sq_le hfs.le hw (p := roll T d) (by rw [traceChi2_roll]; exact hN) y
    rw [traceChi2_roll] at hcs
    rw [e1, sfTd_pulse hN, add_sub_cancel_left, energyResolution, init_norm]
    refine abs_le_of_sq_le_sq ?_ (by positivity)
    rw [mul_pow, Real.sq_sqrt (ip_nonneg fs _ y hfs.le hw), div_pow, div_pow, Real.sq_sqrt hN.le, one_pow,
      one_div_mul_eq_div, div_le_div_iff₀ (by positivity) hN]
    nlinarith
  refine ⟨ht, ?_, hr⟩
  have hq : (A - a) ^ 2 < a ^ 2 := by
    have h3 := ip_nonneg fs _ y hfs.le hw
    have h4 : (A - a) ^ 2 ≤ traceChi2 fs (weight psd ac) y / traceChi2 fs (weight psd ac) T := by
      rw [← sq_abs (A - a)]
      refine (pow_le_pow_left₀ (abs_nonneg _) hr 2).trans (le_of_eq ?_)
      rw [mul_pow, Real.sq_sqrt h3, (resolution_sq hN).2]
      ring
    rw [le_div_iff₀ hN] at h4
    have h5 : 0 ≤ traceChi2 fs (weight psd ac) y := h3
    nlinarith
  nlinarith [sq_nonneg A]

/-- The pile-up fit: what the first pulse given to it gets wrong is part of the disturbance. -/
theorem pileup_robust (hfs : 0 < fs) (hpsd : ∀ k, 0 < psd k) (hN : 0 < traceChi2 fs (weight psd ac) T) {A1 A2 a1 : ℝ}
    {k1 k2 m1 : ℤ} {nc : Option ℤ} {o : Bool} {dir wc : ℤ} (hm : k2 ∈ Delays n nc o wc) (h1 : dir = 1 → 0 ≤ A2)
    (h2 : dir = -1 → A2 ≤ 0) {y : ZMod n → ℝ} {a2 t2 c : ℝ}
    (h : (pileupIterative (init (fun j => A1 * roll T (k1 : ZMod n) j + A2 * roll T (k2 : ZMod n) j + y j) T psd fs ac false)
      a1 (m1 / fs) nc o dir wc false).1 = .ok (a2, t2, c)) :
    ∃ d : ℤ, t2 = d / fs ∧
      traceChi2 fs (weight psd ac) (fun j => a2 * roll T (d : ZMod n) j - A2 * roll T (k2 : ZMod n) j) ≤
        4 * traceChi2 fs (weight psd ac)
          (fun j => y j + (A1 * roll T (k1 : ZMod n) j - a1 * roll T (m1 : ZMod n) j)) := by
  have hw := weight_nonneg psd ac hpsd
  obtain ⟨⟨d, ht, hc, -⟩, -, -, -, hopt⟩ := pileup_optimal_partial _ T psd fs ac hfs hN a1 _ m1 rfl nc o dir wc a2 t2 c h
  have h3 := hopt k2 A2 hm h1 h2
  refine ⟨d, ht, close_of_best hfs.le hw
    (x := fun j => A1 * roll T (k1 : ZMod n) j + A2 * roll T (k2 : ZMod n) j + y j - a1 * roll T (m1 : ZMod n) j)
    (fun j => by ring) ?_⟩
  have e : resid2 (fun j => A1 * roll T (k1 : ZMod n) j + A2 * roll T (k2 : ZMod n) j + y j) T a1 (m1 : ZMod n) A2
      (k2 : ZMod n) = fun j => y j + (A1 * roll T (k1 : ZMod n) j - a1 * roll T (m1 : ZMod n) j) := by
    funext j
    simp only [resid2]
    ring
  rw [e, hc] at h3
  exact h3

/-- The stationary pile-up fit. -/
theorem stationary_robust (hfs : 0 < fs) (hpsd : ∀ k, 0 < psd k) (hN : 0 < traceChi2 fs (weight psd ac) T) {A1 A2 : ℝ}
    {k : ℤ} {nc : Option ℤ} {o : Bool} {wc : ℤ} (hk : k ∈ Delays n nc o wc) (hk0 : (k : ZMod n) ≠ 0) {y : ZMod n → ℝ}
    {a1 a2 t2 c : ℝ}
    (h : (pileupStationary (init (fun j => A1 * T j + A2 * roll T (k : ZMod n) j + y j) T psd fs ac false) nc o wc).1 =
      .ok (a1, a2, t2, c)) :
    ∃ d : ℤ, t2 = d / fs ∧
      traceChi2 fs (weight psd ac) (fun j => (a1 * T j + a2 * roll T (d : ZMod n) j) -
        (A1 * T j + A2 * roll T (k : ZMod n) j)) ≤ 4 * traceChi2 fs (weight psd ac) y := by
  have hw := weight_nonneg psd ac hpsd
  obtain ⟨d, ht, -, hc, hopt⟩ := stationary_optimal_partial _ T psd fs ac hfs hpsd hN nc o wc a1 a2 t2 c h
  have h3 := hopt k hk hk0 A1 A2
  refine ⟨d, ht, close_of_best hfs.le hw (x := fun j => A1 * T j + A2 * roll T (k : ZMod n) j + y j) (fun _ => rfl) ?_⟩
  have e : resid2 (fun j => A1 * T j + A2 * roll T (k : ZMod n) j + y j) T A1 0 A2 (k : ZMod n) = y := by
    funext j
    simp only [resid2, roll, sub_zero]
    ring
  rw [e, hc] at h3
  refine le_trans (le_of_eq ?_) h3
  congr 1
  funext j
  simp only [resid2, roll, sub_zero]
  ring

/-- The fit with a baseline, without constraints. -/
theorem baseline_robust (hfs : 0 < fs) (hpsd : ∀ k, 0 < psd k) {a u : ℝ} {k : ℤ} {o : Bool} {wc : ℤ} {y : ZMod n → ℝ}
    {A t c : ℝ}
    (h : baseline (init (fun j => a * roll T (k : ZMod n) j + u + y j) T psd fs ac false) none o 0 wc false =
      .ok (A, t, c)) :
    c ≤ traceChi2 fs (weight psd false) y ∧
    ∃ (d : ℤ) (b : ℝ), t = d / fs ∧
      traceChi2 fs (weight psd false) (fun j => (A * roll T (d : ZMod n) j + b) - (a * roll T (k : ZMod n) j + u)) ≤
        4 * traceChi2 fs (weight psd false) y := by
  have hw := weight_nonneg psd false hpsd
  obtain ⟨b, -, ⟨d, ht, hc, -⟩, -, -, -, hopt⟩ := baseline_optimal _ T psd fs ac hfs hpsd none o 0 wc A t c h
  have h3 := hopt rfl rfl a (k : ZMod n) u
  have e : residB (fun j => a * roll T (k : ZMod n) j + u + y j) T a (k : ZMod n) u = y := by
    funext j
    simp only [residB]
    ring
  rw [e] at h3
  refine ⟨h3, d, b, ht, close_of_best hfs.le hw (x := fun j => a * roll T (k : ZMod n) j + u + y j) (fun _ => rfl) ?_⟩
  rw [hc] at h3
  refine le_trans (le_of_eq ?_) h3
  congr 1
  funext j
  simp only [residB]
  ring

end Single

/-- The multi-template fit. -/
theorem nsmb_robust {nb : ℕ} {T : Fin (nb + 1) → ZMod n → ℝ} {psd : ZMod n → ℝ} {fs : ℝ} {F : Nsmb.Filt n nb}
    (hF : Nsmb.setup T psd fs = .ok F) (hpsd : ∀ f, f ≠ 0 → 0 < psd f) (hfs : 0 < fs) {k : ℤ} {A : Fin (nb + 1) → ℝ}
    {window : List ℤ} (hk : k ∈ window) {lf : ℕ} {y : ZMod n → ℝ} {r : Nsmb.Fit n nb}
    (h : Nsmb.ofNsmb (fun j => (∑ i, A i * Nsmb.Spec.delayed T (k : ZMod n) i j) + y j) F (Nsmb.getiP F.P) fs window lf =
      .ok r) :
    r.chi2min ≤ Nsmb.Spec.power (Nsmb.Spec.noise psd fs) y ∧
    ∃ m : ℤ, r.tdelmin = m / fs ∧ Nsmb.Spec.power (Nsmb.Spec.noise psd fs)
        (fun j => (∑ i, r.amps i * Nsmb.Spec.delayed T (m : ZMod n) i j) - ∑ i, A i * Nsmb.Spec.delayed T (k : ZMod n) i j) ≤
      4 * Nsmb.Spec.power (Nsmb.Spec.noise psd fs) y := by
  have hpos := Nsmb.noise_pos (Nsmb.setup_ok hF).1 hpsd hfs
  obtain ⟨d, -, ⟨m, hm, hmd⟩, -, hc, hopt⟩ := Nsmb.nsmb_optimal hF hpsd hfs h
  have h3 := hopt k hk A
  have e : Nsmb.Spec.chi2 (Nsmb.Spec.noise psd fs) (fun j => (∑ i, A i * Nsmb.Spec.delayed T (k : ZMod n) i j) + y j) T
      (k : ZMod n) A = Nsmb.Spec.power (Nsmb.Spec.noise psd fs) y := by
    unfold Nsmb.Spec.chi2
    congr 1
    funext j
    simp [Nsmb.Spec.resTrace]
  rw [e] at h3
  refine ⟨h3, m, hm, ?_⟩
  rw [hc] at h3
  have e2 : (fun j => (∑ i, r.amps i * Nsmb.Spec.delayed T (m : ZMod n) i j) -
      ∑ i, A i * Nsmb.Spec.delayed T (k : ZMod n) i j) = fun j => y j -
        Nsmb.Spec.resTrace (fun j => (∑ i, A i * Nsmb.Spec.delayed T (k : ZMod n) i j) + y j)
          (Nsmb.Spec.delayed T (d : ZMod n)) r.amps j := by
    funext j
    simp only [Nsmb.Spec.resTrace, hmd]
    ring
  rw [e2]
  refine (power_two hpos _ _).trans ?_
  unfold Nsmb.Spec.chi2 at h3
  linarith

/-- A pulse of height 10 three bins early, with a disturbance of height 1 elsewhere. -/
example : ∃ A c : ℝ, (withdelay (init (n := 8) (pulse delta 10 (-3) delta) delta white 1 false false) none false 1 0
    false).1 = .ok (A, (-3 : ℤ) / 1, c) ∧ 0 < A * 10 := by
  have hN : 0 < traceChi2 1 (weight white false) (delta : ZMod 8 → ℝ) := by rw [delta_norm]; norm_num
  have hy : traceChi2 1 (weight white false) (delta : ZMod 8 → ℝ) = 1 := by rw [delta_norm]; norm_num
  have hp : ∀ k : ZMod 8, (0 : WithTop ℝ) < white k := fun _ => by simp [white]
  obtain ⟨A, t, c, h⟩ := search_finishes (pulse delta 10 (-3) delta) (delta : ZMod 8 → ℝ) white 1 false (nc := none) false
    (dir := 1) (wc := 0) (by tauto) (by norm_num) (by simp)
  have key := withdelay_exact_delay one_pos hp hN (m := -3) ⟨by norm_num, by norm_num, by simp, by simp⟩ (by norm_num)
    (by norm_num) h (by rw [hy]; norm_num) ?_ 0
  · exact ⟨A, c, by rw [h, key.1], key.2.1⟩
  · rintro d ⟨⟨d1, d2, -⟩, hd⟩ b
    rw [hy, traceChi2_white, div_one]
    have hne : (-3 : ZMod 8) - (d : ZMod 8) ≠ 0 := fun e => by
      have e' : (((-3 - d : ℤ)) : ZMod 8) = 0 := by push_cast; exact e
      rw [ZMod.intCast_zmod_eq_zero_iff_dvd] at e'
      push_cast at d1 d2 e'
      omega
    refine lt_of_lt_of_le ?_ (Finset.single_le_sum (fun j _ => sq_nonneg _) (Finset.mem_univ (-3 : ZMod 8)))
    simp only [roll, delta, Int.cast_neg, Int.cast_ofNat, sub_self, if_true, if_neg hne]
    norm_num

/-- The other fits return as well, whatever the disturbance. -/
example (y : ZMod 8 → ℝ) : (∃ r, (pileupIterative (init (fun j => 5 * roll delta ((0 : ℤ) : ZMod 8) j +
      3 * roll delta ((2 : ℤ) : ZMod 8) j + y j) delta white 1 false false) 4 ((0 : ℤ) / 1) none false 0 0 false).1 = .ok r) ∧
    (∃ a1 a2 t c, (pileupStationary (init (fun j => 5 * delta j + 3 * roll delta ((2 : ℤ) : ZMod 8) j + y j) delta white 1
      false false) none false 0).1 = .ok (a1, a2, t, c)) ∧
    (∃ A t c, baseline (init (fun j => 5 * roll delta ((2 : ℤ) : ZMod 8) j + 7 + y j) delta white 1 false false) none false 0 0
      false = .ok (A, t, c)) ∧
    ∃ F, Nsmb.setup (![delta, fun _ => 1, fun j => if Even j.val then 1 else -1] : Fin 3 → ZMod 8 → ℝ) (fun _ => 1) 8 = .ok F ∧
      ∃ r, Nsmb.ofNsmb (fun j => (∑ i, ![2, 7, -4] i * Nsmb.Spec.delayed
        (![delta, fun _ => 1, fun j => if Even j.val then 1 else -1] : Fin 3 → ZMod 8 → ℝ) ((3 : ℤ) : ZMod 8) i j) + y j)
        F (Nsmb.getiP F.P) 8 [-2, 0, 3] 500 = .ok r := by
  refine ⟨pileup_total _ _ _ _ _ one_pos _ _ 0 rfl (by norm_num) _ _ _ _ (by tauto) (by norm_num) (by simp), ?_, ?_, ?_⟩
  · refine stationary_ok (i := 2) _ (fun c _ h => ?_) (by norm_num) (by simp) ⟨by norm_num, by norm_num, by simp, by simp⟩
    funext j
    have := white_zero h j
    rw [pulses_delta, add_zero] at this
    exact this
  · refine baseline_defined _ _ _ _ _ one_pos (fun _ => by simp [white]) (fun _ => by simp [white]) (fun b => ?_) _ _ _ _
      (by tauto) (by norm_num) (by simp)
    by_cases hb : b = 0
    · exact ⟨0, by simp [delta, hb]⟩
    · exact ⟨1, fun e => hb (by rw [← e, delta, if_neg (by decide)])⟩
  · obtain ⟨F, hF⟩ := Nsmb.setup_defined_partial (![delta, fun _ => 1, fun j => if Even j.val then 1 else -1] :
      Fin 3 → ZMod 8 → ℝ) (fun _ => 1) 8 (by norm_num) (by norm_num)
    obtain ⟨r, hr, -⟩ := Nsmb.nsmb_defined (n := 8) (by norm_num) (fun j => (∑ i, ![2, 7, -4] i * Nsmb.Spec.delayed
        (![delta, fun _ => 1, fun j => if Even j.val then 1 else -1] : Fin 3 → ZMod 8 → ℝ) ((3 : ℤ) : ZMod 8) i j) + y j)
      F (Nsmb.getiP F.P) (fs := 8) (by norm_num) (window := [-2, 0, 3]) (by simp) (by simp) 500
    exact ⟨F, hF, r, hr⟩

end Verif.OF
