import Verif.OFHistory
import Verif.OFEquivLemmas

/-! Properties C33 (history independence) and C32 (AC coupling ignores the baseline). -/

namespace Verif.OF
open Verif Verif.Dft

variable {n : ℕ} [NeZero n]

/-- C33.  After any sequence of method calls (fits, resolutions, `update_signal`), every method
returns exactly what it returns on a fresh object built with the signal last given. -/
theorem history_independent (x T : ZMod n → ℝ) (psd : ZMod n → WithTop ℝ) (fs : ℝ) (ac b : Bool)
    (ops : List (Op n)) (op : Op n) :
    (step (run (init x T psd fs ac b) ops) op).1 =
      (step (init (lastSignal x ops) T psd fs ac b) op).1 := by
  obtain ⟨h1, h2⟩ := run_inv T psd fs ac b ops x (init x T psd fs ac b) (inv_init x T psd fs ac b) rfl
  rw [h1.out op, h2]

-- a history that fills every cache and then replaces the signal
example : lastSignal (n := 3) (fun _ => 0) [.withdelay none false 0 0 true, .nodelay 1,
    .updateSignal (fun _ => 5), .pileupStationary none false 0] = fun _ => 5 := rfl

/-! ### C32 -/

/-- Adding a constant to the signal. -/
def offset (x : ZMod n → ℝ) (c : ℝ) : ZMod n → ℝ := fun j => x j + c

/-- C32.  With AC coupling every method of an object whose signal has a constant added returns what
it returns without (the baseline fit is covered by `baseline_offset_invariant`). -/
theorem ac_offset_invariant (x T : ZMod n → ℝ) (psd : ZMod n → WithTop ℝ) (fs : ℝ) (b : Bool)
    (c : ℝ) (op : Op n) (hop : ∀ nc o d wc i, op ≠ .baseline nc o d wc i) :
    (step (init (offset x c) T psd fs true b) op).1 = (step (init x T psd fs true b) op).1 := by
  set s1 := init (offset x c) T psd fs true b with hs1
  set s0 := init x T psd fs true b with hs0
  have hv : ∀ k, k ≠ 0 → s1.v k = s0.v k := by
    intro k hk
    rw [hs1, hs0, init_v, init_v]
    unfold offset
    rw [fftR_add x (fun _ => c), fftR_const, if_neg hk, add_zero]
  have hw : s1.w = s0.w := rfl
  have hw0 : s0.w 0 = 0 := by rw [hs0, init_w]; simp [weight]
  have hphi : s1.phi = s0.phi := rfl
  have hphi0 : s0.phi 0 = 0 := by
    show starRingEnd ℂ (s0.s 0) * ((s0.w 0 : ℝ) : ℂ) = 0
    rw [hw0]; simp
  have hsf : s1.signalfilt = s0.signalfilt := by
    funext k
    show s1.phi k * s1.v k / (s1.norm : ℂ) = s0.phi k * s0.v k / (s0.norm : ℂ)
    rw [hphi]
    by_cases hk : k = 0
    · rw [hk, hphi0]; simp
    · rw [hv k hk]; rfl
  have hnorm : s1.norm = s0.norm := rfl
  have hfreq : readFreqs s1 = readFreqs s0 := rfl
  have hdf : s1.df = s0.df := rfl
  have hfs : s1.fs = s0.fs := rfl
  have hs : s1.s = s0.s := rfl
  have htimes : readTimes s1 = readTimes s0 := rfl
  have hchi0 : readChi0 s1 = readChi0 s0 := by
    show ((∑ k, starRingEnd ℂ (s1.v k) * (s1.w k : ℂ) * s1.v k) * (s1.df : ℂ)).re =
      ((∑ k, starRingEnd ℂ (s0.v k) * (s0.w k : ℂ) * s0.v k) * (s0.df : ℂ)).re
    rw [hdf]
    congr 2
    refine Finset.sum_congr rfl fun k _ => ?_
    by_cases hk : k = 0
    · rw [hk, hw, hw0]; simp
    · rw [hv k hk, hw]
  have hsfTd : readSfTd s1 = readSfTd s0 := by
    show (fun m => (ifft (fun k => s1.signalfilt k * (n : ℂ)) m).re * s1.df) = _
    rw [hsf]; rfl
  have hchit : readChit s1 = readChit s0 := by
    show (fun m => (readSfTd s1 m) ^ 2 * s1.norm) = _
    rw [hsfTd]; rfl
  have hchi : readChi s1 = readChi s0 := by
    show (roll (fun m => readChi0 s1 - readChit s1 m) ((n / 2 : ℕ) : ZMod n)) = _
    rw [hchi0, hchit]; rfl
  have hamps : readAmps s1 = readAmps s0 := by
    show (roll (readSfTd s1) ((n / 2 : ℕ) : ZMod n)) = _
    rw [hsfTd]; rfl
  have t1 : ∀ t, tfTdAt s1 t = tfTdAt s0 t := fun t => rfl
  have t2 : tfTd s1 = tfTd s0 := rfl
  have t3 : ∀ t, t1Index s1 t = t1Index s0 t := fun _ => rfl
  have t4 : ∀ a t, pileupA2 s1 a t = pileupA2 s0 a t := by
    intro a t; unfold pileupA2; rw [hsfTd, t1, hnorm]
  have t5 : ∀ a t, pileupChit s1 a t = pileupChit s0 a t := by
    intro a t; unfold pileupChit; rw [hsfTd, t3, hnorm]
  have t6 : ∀ a t, pileupChi s1 a t = pileupChi s0 a t := by
    intro a t; unfold pileupChi; simp only [t4, t5, t1, hchi0, hsfTd, hnorm]
  have q1 : statA1 s1 = statA1 s0 := by unfold statA1; rw [hsfTd, t2, hnorm]
  have q2 : statA2 s1 = statA2 s0 := by unfold statA2; rw [hsfTd, t2, hnorm]
  have q3 : statChi s1 = statChi s0 := by
    unfold statChi; simp only [q1, q2, t2, hchi0, hsfTd, hnorm]
  clear_value s0 s1
  cases op with
  | updateSignal x => rfl
  | energyResolution => simp only [step, energyResolution, hnorm]
  | timeResolution a => simp only [step, timeResolution, hfreq, hs, hw, hdf]
  | chi2Nopulse => simp only [step, chi2Nopulse, hchi0]
  | chi2Lowfreq a t f =>
    simp only [step, chi2Lowfreq, hfreq, hs, hw, hdf]
    congr 2
    refine Finset.sum_congr rfl fun k _ => ?_
    by_cases hk : k = 0
    · rw [hk, hw0]; simp
    · rw [hv k hk]
  | nodelay wc => simp only [step, nodelay, hfreq, hchi0, hdf, hnorm, hfs, hsf]
  | withdelay nc o d wc i => simp only [step, withdelay, hchi0, hchi, hamps, hfs]
  | pileupIterative a1 t1 nc o d wc i =>
    simp only [step, pileupIterative, t3, t4, t5, t6, hchi0, htimes, hfs]
    split_ifs <;> rfl
  | pileupStationary nc o wc => simp only [step, pileupStationary, q1, q2, q3, t2, htimes, hnorm]
  | baseline nc o d wc i => exact absurd rfl (hop nc o d wc i)

/-- Without AC coupling the claim is false: a constant added to the signal changes the amplitude. -/
theorem dc_offset_matters :
    (step (init (n := 2) (offset (fun _ => 0) 1) delta white 1 false false) (.nodelay 0)).1 ≠
    (step (init (n := 2) (fun _ => 0) delta white 1 false false) (.nodelay 0)).1 := by
  have h : ∀ x : ZMod 2 → ℝ, (nodelay (init x delta white 1 false false) 0).1.1 = x 0 := by
    intro x
    rw [init_nodelay_amp _ _ _ _ _ one_ne_zero, delta_sfTd _ one_ne_zero]; simp
  simp only [step, h, offset]
  simp

end Verif.OF
