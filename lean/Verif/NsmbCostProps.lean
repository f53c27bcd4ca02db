import Verif.NsmbCostLemmas
import Verif.NsmbIntEx

/-!
C169: what backgrounds cost.  The matrix of `of_nsmb_getiP` is the covariance matrix of the amplitudes (C119); here it
is compared for different sets of backgrounds.
-/

namespace Verif.Nsmb
open Verif Verif.Dft Verif.Nsmb.Spec Matrix

variable {n : ℕ} [NeZero n] {nb nb' : ℕ} {T : Fin (nb + 1) → ZMod n → ℝ} {T' : Fin (nb' + 1) → ZMod n → ℝ}
  {psd : ZMod n → ℝ} {fs : ℝ} {F : Filt n nb} {F' : Filt n nb'}

/-- With more backgrounds no amplitude has a smaller variance.  The templates `T` are among the templates `T'`, `σ` says
where. -/
theorem more_backgrounds (hF : setup T psd fs = .ok F) (hF' : setup T' psd fs = .ok F') (hpsd : ∀ f, f ≠ 0 → 0 < psd f)
    (hfs : 0 < fs) {σ : Fin (nb + 1) → Fin (nb' + 1)} (hσ : Function.Injective σ) (h0 : σ 0 = 0)
    (hT : ∀ i, T' (σ i) = T i) (t : ZMod n) (hI : Indep (delayed T' t)) (i : Fin (nb + 1)) :
    getiP F.P t i i ≤ getiP F'.P t (σ i) (σ i) := by
  have hd : ∀ i, delayed T' t (σ i) = delayed T t i := by
    intro i
    have : σ i = 0 ↔ i = 0 := by
      rw [← h0]
      exact hσ.eq_iff
    simp only [delayed, this, hT]
  have hpos := noise_pos (setup_ok hF).1 hpsd hfs
  have hI' : Indep (delayed T t) := by
    intro x hx
    have := hI (spread σ x) fun τ => by
      rw [spread_sum σ x fun j => delayed T' t j τ]
      simpa only [hd] using hx τ
    funext i
    rw [← spread_at hσ x i, this]
    rfl
  obtain ⟨a1, -, a3⟩ := gram_indep hpos hI
  obtain ⟨-, -, b3⟩ := gram_indep hpos hI'
  rw [(fit_event hF hpsd hfs t 0 (T 0)).1, (fit_event hF' hpsd hfs t 0 (T' 0)).1]
  refine inverse_part hσ (gram_symm _ _) a1 a3 ?_ i
  convert b3 using 2
  ext i j
  simp only [submatrix_apply, of_apply, hd]

/-- The variance of the signal is never below the squared energy resolution of the optimum filter for the signal
template alone; it is equal to it exactly if the signal, at that delay, does not overlap with any background. -/
theorem backgrounds_cost (hF : setup T psd fs = .ok F) (hpsd : ∀ f, f ≠ 0 → 0 < psd f) (hfs : 0 < fs) (t : ZMod n)
    (hI : Indep (delayed T t)) (x : ZMod n → ℝ) :
    OF.energyResolution (OF.init x (T 0) (dcPsd psd) fs false false) ^ 2 ≤ getiP F.P t 0 0 ∧
    (OF.energyResolution (OF.init x (T 0) (dcPsd psd) fs false false) ^ 2 = getiP F.P t 0 0 ↔
      ∀ i : Fin nb, OF.overlap fs (OF.weight (dcPsd psd) false) (roll (T 0) t) (T i.succ) = 0) := by
  have hpos := noise_pos (setup_ok hF).1 hpsd hfs
  obtain ⟨a1, a2, a3⟩ := gram_indep hpos hI
  obtain ⟨c0, c1, c2⟩ := inverse_entry (gram_symm _ _) a1 a2 a3 (0 : Fin (nb + 1))
  have hN : (of fun i j => ipR (Spec.noise psd fs) (delayed T t i) (delayed T t j) : Matrix _ _ ℝ) 0 0 =
      OF.traceChi2 fs (OF.weight (dcPsd psd) false) (T 0) := by
    rw [of_apply, ipR_eq psd hfs, OF.ip_self]
    simp only [delayed, if_true]
    exact OF.traceChi2_roll _ _ _ _
  rw [hN] at c0 c1 c2
  have hE : OF.energyResolution (OF.init x (T 0) (dcPsd psd) fs false false) ^ 2 =
      1 / OF.traceChi2 fs (OF.weight (dcPsd psd) false) (T 0) := by
    unfold OF.energyResolution
    rw [OF.init_norm, div_pow, one_pow, Real.sq_sqrt c0.le]
  rw [hE, (fit_event hF hpsd hfs t 0 (T 0)).1]
  refine ⟨c1, c2.trans ⟨fun h i => ?_, fun h j hj => ?_⟩⟩
  · have := h i.succ (Fin.succ_ne_zero i)
    rw [of_apply, ipR_eq psd hfs] at this
    rw [OF.overlap_eq]
    simpa [delayed, Fin.succ_ne_zero] using this
  · obtain ⟨i, rfl⟩ := Fin.exists_succ_eq.2 hj
    have := h i
    rw [OF.overlap_eq] at this
    rw [of_apply, ipR_eq psd hfs]
    simpa [delayed, Fin.succ_ne_zero] using this

/-- A signal and two backgrounds, and the same with two more. -/
example (t : ZMod 8) : ∃ F, setup (fun i : Fin 3 => exT (Fin.castLE (by norm_num) i)) exPsd 8 = .ok F ∧
    ∀ i : Fin 3, getiP F.P t i i ≤ getiP exF.P t (Fin.castLE (by norm_num) i) (Fin.castLE (by norm_num) i) := by
  have h : ∃ F : Filt 8 2, setup (fun i : Fin 3 => exT (Fin.castLE (by norm_num) i)) exPsd 8 = .ok F := by
    unfold setup
    rw [if_neg (by norm_num), if_neg (by norm_num)]
    exact ⟨_, rfl⟩
  obtain ⟨F, hF⟩ := h
  exact ⟨F, hF, more_backgrounds hF exF_setup exPsd_pos (by norm_num) (Fin.castLE_injective (by norm_num)) rfl
    (fun _ => rfl) t (by rw [ex_delayed]; exact ex_indep)⟩

/-- There the signal is constant and the backgrounds are balanced: they do not overlap, and cost nothing. -/
example (t : ZMod 8) (x : ZMod 8 → ℝ) :
    OF.energyResolution (OF.init x (exT 0) (dcPsd exPsd) 8 false false) ^ 2 = getiP exF.P t 0 0 := by
  refine (backgrounds_cost exF_setup exPsd_pos (by norm_num) t (by rw [ex_delayed]; exact ex_indep) x).2.2 fun i => ?_
  have hw : dcPsd exPsd = (OF.white : ZMod 8 → WithTop ℝ) := by
    funext k
    simp [dcPsd, exPsd, OF.white]
  have h0 : roll (exT 0) t = exT 0 := by
    have := congrFun (ex_delayed t) 0
    rwa [delayed_zero] at this
  rw [OF.overlap_eq, hw, OF.ip_white, h0]
  have sum8 : ∀ f : ZMod 8 → ℝ, ∑ k, f k = f 0 + f 1 + f 2 + f 3 + f 4 + f 5 + f 6 + f 7 := fun f => Fin.sum_univ_eight f
  rw [sum8]
  fin_cases i <;> simp [exT, tr]

end Verif.Nsmb
