import Verif.NsmbProps

/-! Property C77: the setup of the multi-template fit followed by the fit. -/

namespace Verif.Nsmb
open Verif Verif.Dft

variable {n : ℕ} [NeZero n]

/-- With two or more backgrounds the setup works and so does the fit of every trace which follows it, for every non-empty window of
delays not below `-n`; it reports a delay within half a trace.  Missing: one background and none. -/
theorem setup_and_fit_partial {nb : ℕ} (hnb : 2 ≤ nb) (T : Fin (nb + 1) → ZMod n → ℝ) (psd : ZMod n → ℝ) {fs : ℝ} (hfs : 0 < fs)
    (hn : n ≠ 1) {window : List ℤ} (h0 : window ≠ []) (hw : ∀ i ∈ window, -(n : ℤ) ≤ i) (lf : ℕ) :
    ∃ F, setup T psd fs = .ok F ∧ ∀ p, ∃ r, ofNsmb p F (getiP F.P) fs window lf = .ok r ∧ |r.tdelmin| ≤ n / 2 / fs := by
  obtain ⟨F, hF⟩ := setup_defined_partial T psd fs hn (by omega)
  exact ⟨F, hF, fun p => nsmb_defined (by omega) p F (getiP F.P) hfs h0 hw lf⟩

/-- Non-vacuity: two backgrounds, four delays. -/
example : ∃ F, setup exT exPsd 8 = .ok F ∧ ∀ p, ∃ r, ofNsmb p F (getiP F.P) 8 [-2, 0, 3, 11] 500 = .ok r ∧ |r.tdelmin| ≤ 8 / 2 / 8 := by
  simpa using setup_and_fit_partial (by norm_num) exT exPsd (fs := 8) (by norm_num) (by norm_num) (window := [-2, 0, 3, 11]) (by simp)
    (by decide) 500

/-- Whatever the templates and the trace, one background or none make the setup or the fit raise. -/
theorem few_backgrounds_violated {nb : ℕ} (hnb : nb < 2) (T : Fin (nb + 1) → ZMod n → ℝ) (psd : ZMod n → ℝ) (fs : ℝ) :
    ¬∃ F, setup T psd fs = .ok F ∧ ∃ p window lf r, ofNsmb p F (getiP F.P) fs window lf = .ok r := by
  rintro ⟨F, hF, p, w, lf, r, hr⟩
  interval_cases nb
  · obtain ⟨e, he⟩ := no_background_violated p F (getiP F.P) fs w lf
    rw [he] at hr
    cases hr
  · by_cases hn : n = 1
    · unfold setup at hF
      rw [if_pos hn] at hF
      cases hF
    · rw [setup_single_violated T psd fs hn] at hF
      cases hF

end Verif.Nsmb
