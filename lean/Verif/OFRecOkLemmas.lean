import Verif.OFRecProps

/-! Helper lemmas for C118: the fits return on legal arguments. -/

namespace Verif.OF
open Verif Verif.Dft

variable {n : ℕ} [NeZero n]

omit [NeZero n] in
/-- A legal search returns. -/
theorem search_ok (amps chi : ZMod n → ℝ) {nc : Option ℤ} (o : Bool) {dir wc : ℤ}
    (hdir : dir = 0 ∨ dir = 1 ∨ dir = -1) (hwc : 0 ≤ (n : ℤ) / 2 + wc ∧ (n : ℤ) / 2 + wc < n)
    (hk : ∀ k, nc = some k → 0 < k) : ∃ r, search amps chi nc o dir wc = .ok r := by
  rcases hdir with rfl | rfl | rfl <;>
    simp only [search, directionMask] <;> exact argmin_total _ _ _ _ _ _ hwc hk

theorem withdelay_ok (st : State n) {nc : Option ℤ} (o : Bool) {dir wc : ℤ}
    (hdir : dir = 0 ∨ dir = 1 ∨ dir = -1) (hwc : 0 ≤ (n : ℤ) / 2 + wc ∧ (n : ℤ) / 2 + wc < n)
    (hk : ∀ k, nc = some k → 0 < k) : ∃ a t c, (withdelay st nc o dir wc false).1 = .ok (a, t, c) := by
  obtain ⟨r, hr⟩ := search_ok (readAmps st) (readChi st) o hdir hwc hk
  simp only [withdelay, hr, pick]
  cases r <;> simp

/-- One shifted template, up to sign, is visible beside the template at delay zero. -/
theorem visible_pair {fs : ℝ} {wt T : ZMod n → ℝ} (hT : Distinguishable fs wt T 2) {d : ZMod n} (hd : d ≠ 0) (e : ℝ) :
    traceChi2 fs wt (fun j => T j - e * roll T d j) ≠ 0 := by
  intro h
  have hroll0 : roll T 0 = T := by funext j; simp [roll]
  have e1 := pulses_sub T (Pi.single 0 1) (Pi.single d e) 0 0
  simp only [pulses_single, sub_self, add_zero, one_mul, hroll0] at e1
  have h0 := hT (Pi.single 0 1 - Pi.single d e) (ncard_le {0, d} (fun x hx => by
    by_contra hn
    simp only [Finset.mem_insert, Finset.mem_singleton, not_or] at hn
    exact hx (by simp [Pi.single_eq_of_ne hn.1, Pi.single_eq_of_ne hn.2])) Finset.card_le_two) (by rw [e1]; exact h)
  have := congrFun h0 0
  simp [Pi.single_eq_of_ne (Ne.symm hd)] at this

theorem stationary_ok (x : ZMod n → ℝ) {T : ZMod n → ℝ} {psd : ZMod n → WithTop ℝ} {fs : ℝ} {ac : Bool}
    (hT : Distinguishable fs (weight psd ac) T 2) {nc : Option ℤ} {o : Bool} {wc : ℤ}
    (hwc : 0 ≤ (n : ℤ) / 2 + wc ∧ (n : ℤ) / 2 + wc < n) (hk : ∀ k, nc = some k → 0 < k) {i : ℤ}
    (hi : Admissible n nc o none wc i) :
    ∃ a1 a2 t c, (pileupStationary (init x T psd fs ac false) nc o wc).1 = .ok (a1, a2, t, c) := by
  have hnan : ¬ (pileupStationary (init x T psd fs ac false) nc o wc).1 = .error .nan := by
    rw [stationary_nan_iff]
    rintro ⟨-, -, d, -, hd, h | h⟩
    · exact visible_pair hT hd 1 h
    · exact visible_pair hT hd (-1) h
  revert hnan
  simp only [pileupStationary]
  obtain ⟨r, hr⟩ := argmin_total n (asIdx (roll (statChi (init x T psd fs ac false)) ((n / 2 : ℕ) : ZMod n))) nc o
    none wc hwc hk
  rw [hr]
  cases r with
  | none => exact absurd hi ((argmin_none_iff _ _ _ _ _ _ _ hr).1 rfl i)
  | some m =>
    intro hnan
    dsimp only at hnan ⊢
    split_ifs at hnan ⊢ with hd
    · exact absurd rfl hnan
    · exact ⟨_, _, _, _, rfl⟩

/-- A template told apart from its shifted copies is itself visible. -/
theorem visible_one {fs : ℝ} {wt T : ZMod n → ℝ} {r : ℕ} (hr : 1 ≤ r) (hT : Distinguishable fs wt T r) :
    traceChi2 fs wt T ≠ 0 := by
  intro h
  have hroll0 : roll T 0 = T := by funext j; simp [roll]
  have e1 := pulses_single T 0 1 0
  simp only [hroll0, one_mul, add_zero] at e1
  have h0 := hT (Pi.single 0 1) (ncard_le {0} (fun x hx => by
    by_contra hn
    simp only [Finset.mem_singleton] at hn
    exact hx (by simp [Pi.single_eq_of_ne hn])) (by simpa using hr)) (by rw [e1]; exact h)
  have := congrFun h0 0
  simp at this

theorem Distinguishable.mono {fs : ℝ} {wt T : ZMod n → ℝ} {r s : ℕ} (h : Distinguishable fs wt T s) (hrs : r ≤ s) :
    Distinguishable fs wt T r := fun c hc h0 => h c (hc.trans hrs) h0

/-- With a baseline: a constant, and the template on a constant, are visible. -/
theorem visible_base {fs : ℝ} {wt T : ZMod n → ℝ} {r : ℕ} (hr : 1 ≤ r) (hT : DistinguishableB fs wt T r) :
    traceChi2 fs wt (one : ZMod n → ℝ) ≠ 0 ∧ ∀ b : ℝ, traceChi2 fs wt (fun j => T j - b * one j) ≠ 0 := by
  have hroll0 : roll T 0 = T := by funext j; simp [roll]
  constructor
  · intro h
    have e : pulses T 0 1 = (one : ZMod n → ℝ) := by funext j; simp [pulses, one]
    have h0 := (hT 0 1 (by simp) (by rw [e]; exact h)).2
    exact one_ne_zero h0
  · intro b h
    have e : pulses T (Pi.single 0 1) (-b) = fun j => T j - b * one j := by
      rw [pulses_single, hroll0]
      funext j
      simp [one, sub_eq_add_neg]
    have h0 := (hT (Pi.single 0 1) (-b) (ncard_le {0} (fun x hx => by
      by_contra hn
      simp only [Finset.mem_singleton] at hn
      exact hx (by simp [Pi.single_eq_of_ne hn])) (by simpa using hr)) (by rw [e]; exact h)).1
    have := congrFun h0 0
    simp at this

/-- The noise of the zero bin is then finite. -/
theorem psd0_ne_top {fs : ℝ} {psd : ZMod n → WithTop ℝ} (h : traceChi2 fs (weight psd false) (one : ZMod n → ℝ) ≠ 0) :
    psd 0 ≠ ⊤ := by
  intro ht
  apply h
  refine Finset.sum_eq_zero fun k _ => ?_
  rw [fftR_one]
  by_cases hk : k = 0
  · subst hk
    simp [weight, recip, ht]
  · simp [hk]

/-- The multi-template fit with at least one background returns for every window that is not empty and
begins in the trace. -/
theorem ofNsmb_ok {nb : ℕ} (hnb : nb ≠ 0) (p : ZMod n → ℝ) (F : Nsmb.Filt n nb)
    (iP : ZMod n → Matrix (Fin (nb + 1)) (Fin (nb + 1)) ℝ) (fs : ℝ) {window : List ℤ} (hw : window ≠ [])
    (hin : ∀ i ∈ window, -(n : ℤ) ≤ i) (lf : ℕ) : ∃ r, Nsmb.ofNsmb p F iP fs window lf = .ok r := by
  have hn : (0 : ℤ) < n := by exact_mod_cast NeZero.pos n
  obtain ⟨ind, hind⟩ := Nsmb.pickIdx_defined (n := n) (chi := Nsmb.chi2T F.psddnu F.phi iP p)
    (win := window.map (Nsmb.wrapIdx n)) (by simpa using hw) (fun i hi => by
      obtain ⟨j, hj, rfl⟩ := List.mem_map.1 hi
      have := hin j hj
      unfold Nsmb.wrapIdx
      simp only
      have h1 := Int.emod_nonneg (if j < 0 then (n : ℤ) + j else j) hn.ne'
      have h2 := Int.emod_lt_of_pos (if j < 0 then (n : ℤ) + j else j) hn
      split_ifs at h1 h2 ⊢ <;> omega)
  unfold Nsmb.ofNsmb
  simp only [hnb, if_false, hind]
  exact ⟨_, rfl⟩

end Verif.OF
