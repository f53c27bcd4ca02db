import Verif.OFEquivLemmas
import Verif.OFProps

/-! Properties C30 (exact recovery), C31 (equivariance), C32 (AC coupling ignores the baseline). -/

namespace Verif.OF
open Verif Verif.Dft

variable {n : ℕ} [NeZero n]

/-! ### C30 -/

/-- At the true delay the fit without delay returns the true amplitude and chi-square zero. -/
theorem recovery_nodelay (T : ZMod n → ℝ) (psd : ZMod n → WithTop ℝ) (fs : ℝ) (ac : Bool) (a : ℝ)
    (k : ℤ) (hfs : 0 < fs) (hN : 0 < traceChi2 fs (weight psd ac) T) :
    (nodelay (init (fun j => a * roll T (k : ZMod n) j) T psd fs ac false) k).1 = (a, 0) := by
  have h0 : traceChi2 fs (weight psd ac) (fun _ : ZMod n => (0 : ℝ)) = 0 := by
    have := traceChi2_expand1 fs (weight psd ac) T T 1
    rw [ip_self] at this
    simp only [one_mul, sub_self] at this
    rw [this]; ring
  have hamp : (nodelay (init (fun j => a * roll T (k : ZMod n) j) T psd fs ac false) k).1.1 = a := by
    rw [init_nodelay_amp _ T psd fs ac hfs.ne', sfTd_smul, init_sfTd, init_norm, ip_self,
      traceChi2_roll]
    field_simp
  refine Prod.ext hamp ?_
  obtain ⟨h1, -⟩ := nodelay_optimal (fun j => a * roll T (k : ZMod n) j) T psd fs ac k hfs hN a _
    (Prod.ext hamp rfl)
  have hr : resid (fun j => a * roll T (k : ZMod n) j) T a (k : ZMod n) = fun _ => 0 := by
    funext j; simp [resid]
  exact h1.trans ((congrArg _ hr).trans h0)

/-- The fit with delay returns chi-square zero whenever the window admits the true delay and the
direction constraint admits the true sign; its amplitude and delay then reproduce the trace as far
as the noise weighting can see. -/
theorem recovery_withdelay (T : ZMod n → ℝ) (psd : ZMod n → WithTop ℝ) (fs : ℝ) (ac : Bool) (A : ℝ)
    (k : ℤ) (hfs : 0 < fs) (hpsd : ∀ j, 0 < psd j) (hN : 0 < traceChi2 fs (weight psd ac) T)
    (nc : Option ℤ) (o : Bool) (dir wc : ℤ) (hk : Admissible n nc o none wc (k + (n : ℤ) / 2))
    (h1 : dir = 1 → 0 ≤ A) (h2 : dir = -1 → A ≤ 0) (a t c : ℝ)
    (h : (withdelay (init (fun j => A * roll T (k : ZMod n) j) T psd fs ac false) nc o dir wc
      false).1 = .ok (a, t, c)) :
    c = 0 ∧ ∃ d : ℤ, t = d / fs ∧
      traceChi2 fs (weight psd ac) (resid (fun j => A * roll T (k : ZMod n) j) T a (d : ZMod n)) = 0 := by
  obtain ⟨⟨d, ht, hc, -⟩, -, hopt⟩ := withdelay_optimal _ T psd fs ac hN nc o dir wc a t c h
  have h3 := hopt k A hk h1 h2
  have h0 : traceChi2 fs (weight psd ac) (resid (fun j => A * roll T (k : ZMod n) j) T A (k : ZMod n))
      = 0 := by
    have h4 := (nodelay_optimal (fun j => A * roll T (k : ZMod n) j) T psd fs ac k hfs hN A 0
      (recovery_nodelay T psd fs ac A k hfs hN)).1
    exact h4.symm
  rw [h0] at h3
  have h5 : 0 ≤ c := by rw [hc]; exact ip_nonneg _ _ _ hfs.le (weight_nonneg psd ac hpsd)
  have h6 : c = 0 := le_antisymm h3 h5
  exact ⟨h6, d, ht, by rw [← hc, h6]⟩

-- a delay inside a window: `nconstrain=3`, `windowcenter=1` on 8 bins admits delay 2
example : Admissible 8 (some 3) false none 1 (1 + 8 / 2) := by
  refine ⟨by norm_num, by norm_num, ?_, by simp⟩
  intro k hk; cases hk; simp [InWindow]

/-! ### C31 -/

/-- Scaling the signal by `c ≠ 0` scales the amplitude by `c`, the chi-square by `c²` and leaves the
delay, for every window, and for interpolated fits.  (A negative `c` flips the direction constraint.) -/
theorem withdelay_scale (x T : ZMod n → ℝ) (psd : ZMod n → WithTop ℝ) (fs : ℝ) (ac : Bool) (c : ℝ)
    (hc : c ≠ 0) (nc : Option ℤ) (o : Bool) (dir wc : ℤ) (interp : Bool) :
    (withdelay (init (fun j => c * x j) T psd fs ac false) nc o (if 0 < c then dir else -dir) wc
      interp).1 = scaleRes c (withdelay (init x T psd fs ac false) nc o dir wc interp).1 := by
  have hA : readAmps (init (fun j => c * x j) T psd fs ac false) =
      fun m => c * readAmps (init x T psd fs ac false) m := by
    funext m; rw [init_amps, init_amps, sfTd_smul]
  have hX : readChi (init (fun j => c * x j) T psd fs ac false) =
      fun m => c ^ 2 * readChi (init x T psd fs ac false) m := by
    funext m
    rw [init_chi, init_chi, sfTd_smul, chi0_smul, norm_eq (fun j => c * x j) x]; ring
  have h0 := chi0_smul x T psd fs ac c
  have hf : ∀ z, (init z T psd fs ac false).fs = fs := fun _ => rfl
  simp only [withdelay, hA, hX, h0, hf, search_scale _ _ _ hc, pick]
  cases search (readAmps (init x T psd fs ac false)) (readChi (init x T psd fs ac false)) nc o dir wc with
  | error e => rfl
  | ok r =>
    cases r with
    | none => simp [scaleRes]
    | some i =>
      simp only
      cases interp with
      | false => simp [scaleRes]
      | true =>
        simp only [if_true, interpolateOf_scale _ _ _ hc]
        cases interpolateOf (readAmps (init x T psd fs ac false))
          (readChi (init x T psd fs ac false)) i (1 / fs) with
        | error e => rfl
        | ok q => obtain ⟨q1, q2, q3⟩ := q; rfl

/-- The fit without delay is linear in the signal, and its chi-square quadratic. -/
theorem nodelay_linear (x y T : ZMod n → ℝ) (psd : ZMod n → WithTop ℝ) (fs : ℝ) (ac : Bool)
    (hfs : fs ≠ 0) (c : ℝ) (wc : ℤ) :
    (nodelay (init (fun j => x j + y j) T psd fs ac false) wc).1.1 =
      (nodelay (init x T psd fs ac false) wc).1.1 + (nodelay (init y T psd fs ac false) wc).1.1 ∧
    (nodelay (init (fun j => c * x j) T psd fs ac false) wc).1.1 =
      c * (nodelay (init x T psd fs ac false) wc).1.1 ∧
    (nodelay (init (fun j => c * x j) T psd fs ac false) wc).1.2 =
      c ^ 2 * (nodelay (init x T psd fs ac false) wc).1.2 := by
  have h2 : (nodelay (init (fun j => c * x j) T psd fs ac false) wc).1.1 =
      c * (nodelay (init x T psd fs ac false) wc).1.1 := by
    rw [init_nodelay_amp _ _ _ _ _ hfs, init_nodelay_amp _ _ _ _ _ hfs, sfTd_smul]
  refine ⟨?_, h2, ?_⟩
  · rw [init_nodelay_amp _ _ _ _ _ hfs, init_nodelay_amp _ _ _ _ _ hfs,
      init_nodelay_amp _ _ _ _ _ hfs, sfTd_add]
  · have h3 : ∀ z, (nodelay (init z T psd fs ac false) wc).1.2 =
        readChi0 (init z T psd fs ac false)
        - (nodelay (init z T psd fs ac false) wc).1.1 ^ 2 * (init z T psd fs ac false).norm :=
      fun _ => rfl
    rw [h3, h3, h2, chi0_smul, norm_eq (fun j => c * x j) x]; ring

/-- Amplitude-vs-delay arrays add when signals add. -/
theorem delay_arrays_additive (x y T : ZMod n → ℝ) (psd : ZMod n → WithTop ℝ) (fs : ℝ) (ac : Bool)
    (i : ZMod n) :
    readAmps (init (fun j => x j + y j) T psd fs ac false) i =
      readAmps (init x T psd fs ac false) i + readAmps (init y T psd fs ac false) i := by
  rw [init_amps, init_amps, init_amps, sfTd_add]

/-- Delaying the signal circularly by `k` bins delays the amplitude and chi-square arrays by `k`. -/
theorem delay_arrays_shift (x T : ZMod n → ℝ) (psd : ZMod n → WithTop ℝ) (fs : ℝ) (ac : Bool)
    (k i : ZMod n) :
    readAmps (init (roll x k) T psd fs ac false) (i + k) = readAmps (init x T psd fs ac false) i ∧
    readChi (init (roll x k) T psd fs ac false) (i + k) = readChi (init x T psd fs ac false) i := by
  have e1 : i + k - ((n / 2 : ℕ) : ZMod n) - k = i - ((n / 2 : ℕ) : ZMod n) := by ring
  constructor
  · rw [init_amps, init_amps, sfTd_roll, e1]
  · rw [init_chi, init_chi, sfTd_roll, e1, chi0_roll, norm_eq (roll x k) x]

/-- Fitting the delayed signal at the delayed position gives the same answer. -/
theorem nodelay_shift (x T : ZMod n → ℝ) (psd : ZMod n → WithTop ℝ) (fs : ℝ) (ac : Bool)
    (hfs : fs ≠ 0) (k wc : ℤ) :
    (nodelay (init (roll x (k : ZMod n)) T psd fs ac false) (wc + k)).1 =
      (nodelay (init x T psd fs ac false) wc).1 := by
  have h1 : (nodelay (init (roll x (k : ZMod n)) T psd fs ac false) (wc + k)).1.1 =
      (nodelay (init x T psd fs ac false) wc).1.1 := by
    rw [init_nodelay_amp _ _ _ _ _ hfs, init_nodelay_amp _ _ _ _ _ hfs, sfTd_roll, Int.cast_add,
      add_sub_cancel_right]
  refine Prod.ext h1 ?_
  show readChi0 (init (roll x (k : ZMod n)) T psd fs ac false)
      - (nodelay (init (roll x (k : ZMod n)) T psd fs ac false) (wc + k)).1.1 ^ 2 * _ =
    readChi0 (init x T psd fs ac false) - (nodelay (init x T psd fs ac false) wc).1.1 ^ 2 * _
  rw [h1, chi0_roll, norm_eq (roll x (k : ZMod n)) x]

/-- The unconstrained minimum chi-square does not depend on where the signal sits in the trace. -/
theorem withdelay_chi2_shift (x T : ZMod n → ℝ) (psd : ZMod n → WithTop ℝ) (fs : ℝ) (ac : Bool)
    (hN : 0 < traceChi2 fs (weight psd ac) T) (k : ZMod n) (a t c a' t' c' : ℝ)
    (h : (withdelay (init x T psd fs ac false) none false 0 0 false).1 = .ok (a, t, c))
    (h' : (withdelay (init (roll x k) T psd fs ac false) none false 0 0 false).1 = .ok (a', t', c')) :
    c = c' := by
  have hr : ∀ b m, traceChi2 fs (weight psd ac) (resid (roll x k) T b (m + k)) =
      traceChi2 fs (weight psd ac) (resid x T b m) := by
    intro b m
    rw [resid_square _ _ _ _ _ hN.ne', resid_square _ _ _ _ _ hN.ne', sfTd_roll,
      add_sub_cancel_right, chi0_roll, norm_eq (roll x k) x]
  obtain ⟨a1, d1, c1, e1, f1, g1⟩ := withdelay_global x T psd fs ac hN
  obtain ⟨a2, d2, c2, e2, f2, g2⟩ := withdelay_global (roll x k) T psd fs ac hN
  rw [e1] at h; rw [e2] at h'
  simp only [Except.ok.injEq, Prod.mk.injEq] at h h'
  rw [← h.2.2, ← h'.2.2]
  apply le_antisymm
  · have := g1 ((d2 : ZMod n) - k) a2
    rw [← hr, sub_add_cancel, ← f2] at this
    exact this
  · have := g2 ((d1 : ZMod n) + k) a1
    rw [hr, ← f1] at this
    exact this

end Verif.OF
