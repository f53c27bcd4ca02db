import Verif.NsmbProps
import Verif.NsmbOFSpec
import Verif.OFPairProps

/-!
Helper lemmas for comparing the multi-template fit with `OptimumFilter`.
-/

namespace Verif.Nsmb
open Verif Verif.Dft Verif.Nsmb.Spec

variable {n : ℕ} [NeZero n] {nb : ℕ}

/-- The two chi-squares have the same normalisation. -/
theorem power_eq_traceChi2 (psd : ZMod n → ℝ) {fs : ℝ} (hfs : 0 < fs) (r : ZMod n → ℝ) :
    power (noise psd fs) r = OF.traceChi2 fs (OF.weight (dcPsd psd) false) r := by
  unfold power OF.traceChi2
  refine Finset.sum_congr rfl fun k _ => ?_
  have hn : (n : ℝ) ≠ 0 := by exact_mod_cast NeZero.ne n
  have hw : OF.weight (dcPsd psd) false k = 1 / (if k = 0 then psd 1 else psd k) := by
    simp [OF.weight, dcPsd, recip]
  rw [hw]
  unfold noise
  generalize (if k = 0 then psd 1 else psd k) = q
  rw [norm_div, norm_div, Complex.norm_natCast, Complex.norm_real, Real.norm_of_nonneg hfs.le]
  by_cases hq : q = 0
  · simp [hq]
  · field_simp

theorem dcPsd_pos {psd : ZMod n → ℝ} (hn : n ≠ 1) (hpsd : ∀ f, f ≠ 0 → 0 < psd f) (k : ZMod n) :
    0 < dcPsd psd k := by
  have h1 : (1 : ZMod n) ≠ 0 := by
    have : Fact (1 < n) := ⟨by have := NeZero.ne n; omega⟩
    exact one_ne_zero
  unfold dcPsd
  split_ifs with h
  · exact_mod_cast hpsd 1 h1
  · exact_mod_cast hpsd k h

omit [NeZero n] in
/-- The residual of amplitudes, with the signal template apart. -/
theorem resTrace_split (p : ZMod n → ℝ) (T : Fin (nb + 1) → ZMod n → ℝ) (t : ZMod n)
    (a : Fin (nb + 1) → ℝ) (j : ZMod n) :
    resTrace p (delayed T t) a j = p j - a 0 * roll (T 0) t j - ∑ i : Fin nb, a i.succ * T i.succ j := by
  unfold resTrace
  rw [Fin.sum_univ_succ]
  simp [delayed, Fin.succ_ne_zero]
  ring

omit [NeZero n] in
/-- Backgrounds at zero give the pulse alone. -/
theorem resTrace_single (p : ZMod n → ℝ) (T : Fin (nb + 1) → ZMod n → ℝ) (t : ZMod n) (a : ℝ) :
    resTrace p (delayed T t) (Fin.cons a fun _ => 0) = OF.resid p (T 0) a t := by
  funext j
  rw [resTrace_split]
  simp [OF.resid]

/-- Example templates: a spike and two backgrounds of height `c`. -/
def ofExT (c : ℝ) : Fin 3 → ZMod 8 → ℝ := Fin.cons (fun j => if j = 0 then 1 else 0) fun _ _ => c

theorem ofExT_pos (c : ℝ) : 0 < OF.traceChi2 8 (OF.weight (dcPsd fun _ : ZMod 8 => (1 : ℝ)) false) (ofExT c 0) := by
  refine OF.traceChi2_pos 8 (by norm_num) _ (dcPsd_pos (by norm_num) fun _ _ => one_pos) ?_ _ ?_
  · intro k; simp [dcPsd]
  · intro h; simpa [ofExT] using congrFun h 0

end Verif.Nsmb
