import Verif.OFRecSpec
import Verif.OFRecLemmas
import Verif.OFEquivProps
import Verif.OFPairProps
import Verif.NsmbProps

/-! C118: noise-free events are recovered exactly. -/

namespace Verif.OF
open Verif Verif.Dft

variable {n : ℕ} [NeZero n]

/-- White noise and a template of one bin satisfy the assumption on the template for any number of pulses. -/
example (r : ℕ) : Distinguishable 1 (weight white false) (delta : ZMod 8 → ℝ) r := by
  intro c _ h
  funext j
  have := white_zero h j
  rw [pulses_delta, add_zero] at this
  exact this

/-- With a baseline, on more than two bins. -/
example : DistinguishableB 1 (weight white false) (delta : ZMod 8 → ℝ) 2 := by
  intro c b hc h
  have hj : ∀ j, c j + b = 0 := fun j => by rw [← pulses_delta]; exact white_zero h j
  have hb : b = 0 := by
    rcases one_empty hc (show (0 : ZMod 8) ≠ 1 by decide) (show (0 : ZMod 8) ≠ 2 by decide)
      (show (1 : ZMod 8) ≠ 2 by decide) with e | e | e
    · have := hj 0; rw [e] at this; linarith
    · have := hj 1; rw [e] at this; linarith
    · have := hj 2; rw [e] at this; linarith
  exact ⟨funext fun j => by have := hj j; rw [hb] at this; simpa using this, hb⟩

/-- **C118.**  The fit with delay. -/
theorem withdelay_exact (T : ZMod n → ℝ) (psd : ZMod n → WithTop ℝ) (fs : ℝ) (ac : Bool) (A : ℝ) (k : ℤ)
    (hfs : 0 < fs) (hpsd : ∀ j, 0 < psd j) (hA : A ≠ 0) (hT : Distinguishable fs (weight psd ac) T 2)
    (hN : 0 < traceChi2 fs (weight psd ac) T)
    (nc : Option ℤ) (o : Bool) (dir wc : ℤ) (hk : Admissible n nc o none wc (k + (n : ℤ) / 2))
    (h1 : dir = 1 → 0 ≤ A) (h2 : dir = -1 → A ≤ 0) (a t c : ℝ)
    (h : (withdelay (init (fun j => A * roll T (k : ZMod n) j) T psd fs ac false) nc o dir wc
      false).1 = .ok (a, t, c)) : a = A ∧ t = k / fs ∧ c = 0 := by
  obtain ⟨⟨d, ht, hc, hd⟩, -, hopt⟩ := withdelay_optimal _ T psd fs ac hN nc o dir wc a t c h
  have h3 := hopt k A hk h1 h2
  rw [chi2_zero_trace fs _ (show resid _ T A (k : ZMod n) = fun _ => 0 by funext j; simp [resid])] at h3
  have h5 : 0 ≤ c := by rw [hc]; exact ip_nonneg _ _ _ hfs.le (weight_nonneg psd ac hpsd)
  have h6 : c = 0 := le_antisymm h3 h5
  rw [h6] at hc
  obtain ⟨e1, e2⟩ := same_pulse hT hA hc.symm
  rcases hd with hd | ⟨hd, -⟩
  · have := same_delay e2 ⟨hd.1, hd.2.1⟩ ⟨hk.1, hk.2.1⟩
    subst this
    exact ⟨e1, ht, h6⟩
  · exact absurd (e1.symm.trans hd) hA

/-- **C118.**  The pile-up fit, given the true first pulse. -/
theorem pileup_exact (T : ZMod n → ℝ) (psd : ZMod n → WithTop ℝ) (fs : ℝ) (ac : Bool) (A1 A2 : ℝ) (k1 k2 : ℤ)
    (hfs : 0 < fs) (hpsd : ∀ j, 0 < psd j) (hA : A2 ≠ 0) (hT : Distinguishable fs (weight psd ac) T 2)
    (hN : 0 < traceChi2 fs (weight psd ac) T)
    (nc : Option ℤ) (o : Bool) (dir wc : ℤ) (hk : Admissible n nc o none wc (k2 + (n : ℤ) / 2))
    (h1 : dir = 1 → 0 ≤ A2) (h2 : dir = -1 → A2 ≤ 0) (a t c : ℝ)
    (h : (pileupIterative (init (fun j => A1 * roll T (k1 : ZMod n) j + A2 * roll T (k2 : ZMod n) j) T psd fs ac
      false) A1 (k1 / fs) nc o dir wc false).1 = .ok (a, t, c)) : a = A2 ∧ t = k2 / fs ∧ c = 0 := by
  obtain ⟨⟨d, ht, hc, hd⟩, -, -, -, hopt⟩ :=
    pileup_optimal_partial _ T psd fs ac hfs hN A1 _ k1 rfl nc o dir wc a t c h
  have h3 := hopt k2 A2 hk h1 h2
  rw [chi2_zero_trace fs _ (show resid2 _ T A1 (k1 : ZMod n) A2 (k2 : ZMod n) = fun _ => 0 by
    funext j; simp [resid2])] at h3
  have h5 : 0 ≤ c := by rw [hc]; exact ip_nonneg _ _ _ hfs.le (weight_nonneg psd ac hpsd)
  have h6 : c = 0 := le_antisymm h3 h5
  rw [h6] at hc
  have e : resid2 (fun j => A1 * roll T (k1 : ZMod n) j + A2 * roll T (k2 : ZMod n) j) T A1 (k1 : ZMod n) a
      (d : ZMod n) = fun j => A2 * roll T (k2 : ZMod n) j - a * roll T (d : ZMod n) j := by
    funext j
    unfold resid2
    ring
  rw [e] at hc
  obtain ⟨e1, e2⟩ := same_pulse hT hA hc.symm
  rcases hd with hd | ⟨hd, -⟩
  · have := same_delay e2 ⟨hd.1, hd.2.1⟩ ⟨hk.1, hk.2.1⟩
    subst this
    exact ⟨e1, ht, h6⟩
  · exact absurd (e1.symm.trans hd) hA

/-- **C118.**  The stationary pile-up fit, first pulse at delay zero and the second one elsewhere. -/
theorem stationary_exact (T : ZMod n → ℝ) (psd : ZMod n → WithTop ℝ) (fs : ℝ) (ac : Bool) (A1 A2 : ℝ) (k : ℤ)
    (hfs : 0 < fs) (hpsd : ∀ j, 0 < psd j) (hA : A2 ≠ 0) (hT : Distinguishable fs (weight psd ac) T 3)
    (hN : 0 < traceChi2 fs (weight psd ac) T)
    (nc : Option ℤ) (o : Bool) (wc : ℤ) (hk : Admissible n nc o none wc (k + (n : ℤ) / 2)) (hk0 : k ≠ 0)
    (a1 a2 t c : ℝ)
    (h : (pileupStationary (init (fun j => A1 * T j + A2 * roll T (k : ZMod n) j) T psd fs ac false) nc o wc).1
      = .ok (a1, a2, t, c)) : a1 = A1 ∧ a2 = A2 ∧ t = k / fs ∧ c = 0 := by
  obtain ⟨d, ht, hd, hc, hopt⟩ := stationary_optimal_partial _ T psd fs ac hfs hpsd hN nc o wc a1 a2 t c h
  have hroll0 : roll T 0 = T := by funext j; simp [roll]
  have hkz : (k : ZMod n) ≠ 0 := by
    intro e
    refine hk0 (same_delay (n := n) (by rw [e]; simp) ⟨hk.1, hk.2.1⟩ ⟨by omega, ?_⟩)
    have : (0 : ℤ) < n := by exact_mod_cast NeZero.pos n
    omega
  have h3 := hopt k hk hkz A1 A2
  rw [chi2_zero_trace fs _ (show resid2 _ T A1 0 A2 (k : ZMod n) = fun _ => 0 by
    funext j; simp [resid2, hroll0])] at h3
  have h5 : 0 ≤ c := by rw [hc]; exact ip_nonneg _ _ _ hfs.le (weight_nonneg psd ac hpsd)
  have h6 : c = 0 := le_antisymm h3 h5
  rw [h6] at hc
  have e : pulses T ((Pi.single 0 (A1 - a1) + Pi.single (k : ZMod n) A2) - Pi.single (d : ZMod n) a2) 0 =
      resid2 (fun j => A1 * T j + A2 * roll T (k : ZMod n) j) T a1 0 a2 (d : ZMod n) := by
    have e1 := pulses_sub T (Pi.single 0 (A1 - a1) + Pi.single (k : ZMod n) A2) (Pi.single (d : ZMod n) a2) 0 0
    have e2 := pulses_add T (Pi.single 0 (A1 - a1)) (Pi.single (k : ZMod n) A2) 0 0
    simp only [pulses_single, sub_self, add_zero] at e1 e2
    rw [e1, e2]
    funext j
    unfold resid2
    rw [hroll0]
    ring
  have h0 := hT (Pi.single 0 (A1 - a1) + Pi.single (k : ZMod n) A2 - Pi.single (d : ZMod n) a2)
    (ncard_le {0, (k : ZMod n), (d : ZMod n)} (fun x hx => by
    by_contra hn
    simp only [Finset.mem_insert, Finset.mem_singleton, not_or] at hn
    exact hx (by simp [Pi.single_eq_of_ne hn.1, Pi.single_eq_of_ne hn.2.1, Pi.single_eq_of_ne hn.2.2]))
    Finset.card_le_three) (by rw [e]; exact hc.symm)
  have e1 := congrFun h0 (k : ZMod n)
  simp only [Pi.sub_apply, Pi.add_apply, Pi.single_eq_same, Pi.zero_apply, Pi.single_eq_of_ne hkz] at e1
  have hdk : (d : ZMod n) = (k : ZMod n) := by
    by_contra hne
    rw [Pi.single_eq_of_ne (Ne.symm hne)] at e1
    exact hA (by linarith)
  rw [hdk] at h0 e1
  rw [Pi.single_eq_same] at e1
  have e2 := congrFun h0 0
  simp only [Pi.sub_apply, Pi.add_apply, Pi.single_eq_same, Pi.zero_apply, Pi.single_eq_of_ne (Ne.symm hkz)] at e2
  have := same_delay hdk ⟨hd.1, hd.2.1⟩ ⟨hk.1, hk.2.1⟩
  subst this
  exact ⟨by linarith, by linarith, ht, h6⟩

/-- **C118.**  The fit with a baseline: the noise of the zero bin counts whatever the coupling. -/
theorem baseline_exact (T : ZMod n → ℝ) (psd : ZMod n → WithTop ℝ) (fs : ℝ) (ac : Bool) (A B : ℝ) (k : ℤ)
    (hfs : 0 < fs) (hpsd : ∀ j, 0 < psd j) (hA : A ≠ 0) (hT : DistinguishableB fs (weight psd false) T 2)
    (nc : Option ℤ) (o : Bool) (dir wc : ℤ) (hk : Admissible n nc o none wc (k + (n : ℤ) / 2))
    (h1 : dir = 1 → 0 ≤ A) (h2 : dir = -1 → A ≤ 0) (a t c : ℝ)
    (h : baseline (init (fun j => A * roll T (k : ZMod n) j + B) T psd fs ac false) nc o dir wc false =
      .ok (a, t, c)) : a = A ∧ t = k / fs ∧ c = 0 := by
  obtain ⟨b, ⟨a', m', hjoint⟩, ⟨d, ht, hc, hd⟩, -, -, hopt, -⟩ :=
    baseline_optimal _ T psd fs ac hfs hpsd nc o dir wc a t c h
  have hz : ∀ r, 0 ≤ traceChi2 fs (weight psd false) r := fun r =>
    ip_nonneg _ _ _ hfs.le (weight_nonneg psd false hpsd)
  have hres : ∀ (a' : ℝ) (m' : ZMod n) (b' : ℝ), residB (fun j => A * roll T (k : ZMod n) j + B) T a' m' b' =
      pulses T (Pi.single (k : ZMod n) A - Pi.single m' a') (B - b') := by
    intro a' m' b'
    rw [pulses_sub, pulses_single, pulses_single]
    funext j
    unfold residB
    ring
  have hsupp : ∀ (a' : ℝ) (m' : ZMod n), {x | (Pi.single (k : ZMod n) A - Pi.single m' a' : ZMod n → ℝ) x ≠ 0}.ncard
      ≤ 2 := by
    intro a' m'
    refine ncard_le {(k : ZMod n), m'} (fun x hx => ?_) Finset.card_le_two
    by_contra hn
    simp only [Finset.mem_insert, Finset.mem_singleton, not_or] at hn
    exact hx (by simp [Pi.single_eq_of_ne hn.1, Pi.single_eq_of_ne hn.2])
  have hz0 : traceChi2 fs (weight psd false) (residB (fun j => A * roll T (k : ZMod n) j + B) T A (k : ZMod n) B) = 0 :=
    chi2_zero_trace fs _ (by funext j; simp [residB])
  have hb : b = B := by
    have h3 := hjoint A (k : ZMod n) B
    rw [hz0] at h3
    have h4 := le_antisymm h3 (hz _)
    rw [hres] at h4
    have := (hT _ _ (hsupp _ _) h4).2
    linarith
  subst hb
  have h6 : c = 0 := le_antisymm (by rw [← hz0]; exact hopt k A hk h1 h2) (by rw [hc]; exact hz _)
  rw [h6, hres] at hc
  have h0 := (hT _ _ (hsupp _ _) hc.symm).1
  have e1 := congrFun h0 (k : ZMod n)
  simp only [Pi.sub_apply, Pi.single_eq_same, Pi.zero_apply] at e1
  have hdk : (d : ZMod n) = (k : ZMod n) := by
    by_contra hne
    rw [Pi.single_eq_of_ne (Ne.symm hne)] at e1
    exact hA (by linarith)
  rw [hdk, Pi.single_eq_same] at e1
  rcases hd with hd | ⟨hd, -⟩
  · have := same_delay hdk ⟨hd.1, hd.2.1⟩ ⟨hk.1, hk.2.1⟩
    subst this
    exact ⟨by linarith, ht, h6⟩
  · exact absurd (by linarith) hA

/-- **C118.**  The multi-template fit: the residual vanishes; if the templates are independent (the signal at any
two delays and all the backgrounds), amplitudes and delay are the true ones. -/
theorem nsmb_exact {nb : ℕ} {T : Fin (nb + 1) → ZMod n → ℝ} {psd : ZMod n → ℝ} {fs : ℝ} {F : Nsmb.Filt n nb}
    (hF : Nsmb.setup T psd fs = .ok F) (hpsd : ∀ f, f ≠ 0 → 0 < psd f) (hfs : 0 < fs) {k : ℤ} {A : Fin (nb + 1) → ℝ}
    {window : List ℤ} (hk : k ∈ window) {lf : ℕ} {r : Nsmb.Fit n nb}
    (h : Nsmb.ofNsmb (fun j => ∑ i, A i * Nsmb.Spec.delayed T (k : ZMod n) i j) F (Nsmb.getiP F.P) fs window lf =
      .ok r) :
    r.chi2min = 0 ∧ (∀ j, r.residT j = 0) ∧
    ((∀ (s : ZMod n → ℝ) (b : Fin nb → ℝ), {d | s d ≠ 0}.ncard ≤ 2 →
        (∀ j, pulses (T 0) s 0 j + ∑ i, b i * T i.succ j = 0) → s = 0 ∧ b = 0) →
      A 0 ≠ 0 → r.amps = A ∧ ∃ m : ℤ, r.tdelmin = m / fs ∧ (m : ZMod n) = (k : ZMod n)) := by
  obtain ⟨d, -, ⟨m, hm, hmd⟩, hres, hchi, hopt⟩ := Nsmb.nsmb_optimal hF hpsd hfs h
  have hJ : ∀ f, 0 < Nsmb.Spec.noise psd fs f := Nsmb.noise_pos (Nsmb.setup_ok hF).1 hpsd hfs
  have h0 : Nsmb.Spec.chi2 (Nsmb.Spec.noise psd fs) (fun j => ∑ i, A i * Nsmb.Spec.delayed T (k : ZMod n) i j) T
      (k : ZMod n) A = 0 := by
    have e : Nsmb.Spec.resTrace (fun j => ∑ i, A i * Nsmb.Spec.delayed T (k : ZMod n) i j)
        (Nsmb.Spec.delayed T (k : ZMod n)) A = fun _ => 0 := by
      funext j
      simp [Nsmb.Spec.resTrace]
    have hz : fftR (fun _ : ZMod n => (0 : ℝ)) = 0 := by
      funext f
      rw [fftR_apply]
      simp
    unfold Nsmb.Spec.chi2
    rw [e]
    simp [Nsmb.Spec.power, hz]
  have hc : r.chi2min = 0 := by
    refine le_antisymm (by rw [← h0]; exact hopt k hk A) ?_
    rw [hchi]
    exact Nsmb.power_nonneg hJ _
  have hr : ∀ j, r.residT j = 0 := by
    rw [hres]
    refine Nsmb.power_eq_zero hJ ?_
    rw [hc] at hchi
    exact hchi.symm
  refine ⟨hc, hr, fun hind hA => ?_⟩
  have hd0 : ∀ t, Nsmb.Spec.delayed T t 0 = roll (T 0) t := fun t => if_pos rfl
  have hds : ∀ t i, Nsmb.Spec.delayed T t (Fin.succ i) = T i.succ := fun t i => if_neg (Fin.succ_ne_zero i)
  obtain ⟨hs, hb⟩ := hind (Pi.single (k : ZMod n) (A 0) - Pi.single (d : ZMod n) (r.amps 0))
    (fun i => A i.succ - r.amps i.succ)
    (ncard_le {(k : ZMod n), (d : ZMod n)} (fun x hx => by
      by_contra hn
      simp only [Finset.mem_insert, Finset.mem_singleton, not_or] at hn
      exact hx (by simp [Pi.single_eq_of_ne hn.1, Pi.single_eq_of_ne hn.2])) Finset.card_le_two)
    (fun j => by
      have e := hr j
      rw [hres] at e
      simp only [Nsmb.Spec.resTrace, Fin.sum_univ_succ, hd0, hds] at e
      have e2 := congrFun (pulses_sub (T 0) (Pi.single (k : ZMod n) (A 0)) (Pi.single (d : ZMod n) (r.amps 0)) 0 0) j
      simp only [pulses_single, sub_self, add_zero] at e2
      rw [e2]
      simp only [sub_mul, Finset.sum_sub_distrib]
      linear_combination e)
  have e1 := congrFun hs (k : ZMod n)
  simp only [Pi.sub_apply, Pi.single_eq_same, Pi.zero_apply] at e1
  have hdk : (d : ZMod n) = (k : ZMod n) := by
    by_contra hne
    rw [Pi.single_eq_of_ne (Ne.symm hne)] at e1
    exact hA (by linarith)
  rw [hdk, Pi.single_eq_same] at e1
  refine ⟨?_, m, hm, hmd.trans hdk⟩
  funext i
  refine Fin.cases (by linarith) (fun i => ?_) i
  have := congrFun hb i
  simp only [Pi.zero_apply] at this
  linarith

/-- Independent templates on 8 bins: a signal of one bin, a constant and an alternating background. -/
example : ∀ (s : ZMod 8 → ℝ) (b : Fin 2 → ℝ), {d | s d ≠ 0}.ncard ≤ 2 →
    (∀ j, pulses (delta : ZMod 8 → ℝ) s 0 j +
      ∑ i, b i * (![fun _ => 1, fun j => if Even j.val then 1 else -1] : Fin 2 → ZMod 8 → ℝ) i j = 0) →
    s = 0 ∧ b = 0 := indep_ex

end Verif.OF
