import Verif.OFLeakSpec
import Verif.NsmbStatLemmas

/-! Auxiliary lemmas of property C159. -/

namespace Verif.OF
open Verif Verif.Dft

variable {n : ℕ} [NeZero n] {psd : ZMod n → WithTop ℝ} {fs : ℝ} {ac : Bool} {T : ZMod n → ℝ}

theorem likeness_eq (wt : ZMod n → ℝ) (i j : ℤ) :
    likeness fs wt T i j = ip fs wt (roll T (i : ZMod n)) (roll T (j : ZMod n)) / traceChi2 fs wt T := by
  rw [likeness, overlap_eq]

theorem ip_pair (wt u : ZMod n → ℝ) (A1 : ℝ) (k1 : ℤ) (A2 : ℝ) (k2 : ℤ) (x : ZMod n → ℝ) :
    ip fs wt u (pair T A1 k1 A2 k2 x) = A1 * ip fs wt u (roll T (k1 : ZMod n)) +
      A2 * ip fs wt u (roll T (k2 : ZMod n)) + ip fs wt u x := by
  unfold pair
  rw [ip_add_right fs _ u (fun j => A1 * roll T (k1 : ZMod n) j + A2 * roll T (k2 : ZMod n) j), ip_add_right,
    ip_smul_right, ip_smul_right]

theorem readTimes_bin (x : ZMod n → ℝ) {k : ℤ} (hk : -((n : ℤ) / 2) ≤ k ∧ k ≤ (n : ℤ) / 2 - ((n : ℤ) + 1) % 2) :
    readTimes (init x T psd fs ac false) ((k + (n : ℤ) / 2 : ℤ) : ZMod n) = k / fs := by
  have h0 : 0 ≤ k + (n : ℤ) / 2 := by omega
  have h1 : k + (n : ℤ) / 2 < n := by omega
  obtain ⟨i, hi⟩ := Int.eq_ofNat_of_zero_le h0
  have : (((k + (n : ℤ) / 2 : ℤ) : ZMod n)).val = i := by
    rw [hi, Int.cast_natCast, ZMod.val_natCast, Nat.mod_eq_of_lt (by exact_mod_cast hi ▸ h1)]
  show ((((k + (n : ℤ) / 2 : ℤ) : ZMod n).val : ℝ) - ((n / 2 : ℕ) : ℝ)) / fs = _
  rw [this]
  have h2 : (i : ℝ) = ((k + ((n / 2 : ℕ) : ℤ) : ℤ) : ℝ) := by
    rw [← Int.cast_natCast, ← hi]; simp
  rw [h2, Int.cast_add, Int.cast_natCast]
  ring

/-- The pile-up fit at a given delay. -/
theorem pile_one (hfs : 0 < fs) (hN : traceChi2 fs (weight psd ac) T ≠ 0) (x : ZMod n → ℝ) (a1 : ℝ) {m1 k : ℤ}
    (hm : -(n : ℤ) ≤ m1 ∧ m1 < n) (hk : -((n : ℤ) / 2) ≤ k ∧ k ≤ (n : ℤ) / 2 - ((n : ℤ) + 1) % 2) :
    let N := traceChi2 fs (weight psd ac) T
    let b := (ip fs (weight psd ac) (roll T (k : ZMod n)) x -
      a1 * ip fs (weight psd ac) (roll T (m1 : ZMod n)) (roll T (k : ZMod n))) / N
    (pileupIterative (init x T psd fs ac false) a1 (m1 / fs) (some 1) false 0 k false).1 =
      .ok (b, k / fs, traceChi2 fs (weight psd ac) (resid x T a1 (m1 : ZMod n)) - b ^ 2 * N) := by
  intro N b
  have hidx : ((k + (n : ℤ) / 2 : ℤ) : ZMod n) - ((n / 2 : ℕ) : ZMod n) = (k : ZMod n) := by
    rw [show (n : ℤ) / 2 = ((n / 2 : ℕ) : ℤ) by simp, Int.cast_add, Int.cast_natCast]
    ring
  have hb : pileupA2 (init x T psd fs ac false) a1 (m1 / fs) (k : ZMod n) = b := by
    unfold pileupA2
    rw [init_sfTd, init_norm, init_tfTdAt x T psd fs ac hfs.ne' _ m1 _ rfl, ip_comm fs _ (roll T (k : ZMod n)) (roll T _),
      ← sub_div]
  have hi := (t1Index_int x T psd fs ac false hfs m1 _ rfl).2.2 (by omega)
  have hN' : (init x T psd fs ac false).norm ≠ 0 := by rw [init_norm]; exact hN
  have hbase : readChi0 (init x T psd fs ac false) + pileupChit (init x T psd fs ac false) a1 (m1 / fs) =
      traceChi2 fs (weight psd ac) (resid x T a1 (m1 : ZMod n)) := by
    rw [← resid2_zero x T a1 (m1 : ZMod n) 0, pile_square x T psd fs ac hfs hN a1 m1 _ rfl]
    ring
  have hs : search (roll (pileupA2 (init x T psd fs ac false) a1 (m1 / fs)) ((n / 2 : ℕ) : ZMod n))
      (roll (pileupChi (init x T psd fs ac false) a1 (m1 / fs)) ((n / 2 : ℕ) : ZMod n)) (some 1) false 0 k =
      .ok (some (k + (n : ℤ) / 2)) := by
    unfold search
    have : ∀ f : ℤ → ℝ, directionMask f 0 = .ok none := fun f => by simp [directionMask]
    rw [this]
    exact argmin_one _ hk
  simp only [pileupIterative]
  rw [if_neg (not_not.2 hi), hs]
  simp only [Bool.false_eq_true, if_false, roll, hidx, readTimes_bin x hk, hb]
  rw [pile_chi _ hN', hb, hbase, init_norm]

end Verif.OF
