import Verif.NsmbProps
import Verif.NsmbIntLemmas

/-!
A concrete call of `of_nsmb_con` with a search over all delays: four bins, a one-bin signal and two
flat backgrounds; the best delay is two bins.
-/

namespace Verif.Nsmb

open Verif.Dft Verif.Nsmb.Spec Matrix

/-- The numbers: templates at each delay, trace, fitted amplitudes, residuals and chi2. -/
def vS : ZMod 4 → Fin (2 + 1) → ZMod 4 → ℚ := fun t => ![fun τ => if τ = t then 1 else 0,
  (![1, 1, 0, 0] : Fin 4 → ℚ), (![0, 0, 1, 1] : Fin 4 → ℚ)]
def vP : ZMod 4 → ℚ := (![2, 1, 5, 1] : Fin 4 → ℚ)
def vA : ZMod 4 → Fin (2 + 1) → ℚ :=
  (![![1, 1, 3], ![-1, 2, 3], ![4, 3 / 2, 1], ![-4, 3 / 2, 5]] : Fin 4 → Fin 3 → ℚ)
def vR : ZMod 4 → ZMod 4 → ℚ := (![![0, 0, 2, -2], ![0, 0, 2, -2], ![1 / 2, -1 / 2, 0, 0],
  ![1 / 2, -1 / 2, 0, 0]] : Fin 4 → Fin 4 → ℚ)
def vC : ZMod 4 → ℚ := (![2, 2, 1 / 8, 1 / 8] : Fin 4 → ℚ)

/-- Templates: a one-bin signal, and two flat backgrounds. -/
def inT (i : Fin (2 + 1)) (τ : ZMod 4) : ℝ := (vS 0 i τ : ℝ)

/-- Trace. -/
def inP (τ : ZMod 4) : ℝ := (vP τ : ℝ)

/-- Amplitudes at each delay. -/
def inA (t : ZMod 4) (i : Fin (2 + 1)) : ℝ := (vA t i : ℝ)

/-- The chi2 curve. -/
def inChi (t : ZMod 4) : ℝ := (vC t : ℝ)

theorem v_roll : ∀ t τ, vS 0 0 (τ - t) = vS t 0 τ := by decide +kernel
theorem v_bg : ∀ t i τ, i ≠ 0 → vS 0 i τ = vS t i τ := by decide +kernel
theorem v_res : ∀ t τ, vP τ - ∑ i, vA t i * vS t i τ = vR t τ := by decide +kernel
theorem v_orth : ∀ t i, vS t i 0 * vR t 0 + vS t i 1 * vR t 1 + vS t i 2 * vR t 2 +
    vS t i 3 * vR t 3 = 0 := by decide +kernel
theorem v_ne : ∀ t i, vA t i ≠ 0 := by decide +kernel
theorem v_chi : ∀ t, (vR t 0 * vR t 0 + vR t 1 * vR t 1 + vR t 2 * vR t 2 + vR t 3 * vR t 3) / 4 =
    vC t := by decide +kernel

/-- White noise. -/
def inPsd : ZMod 4 → ℝ := fun _ => 1

theorem inPsd_pos : ∀ f, f ≠ 0 → 0 < inPsd f := fun _ _ => one_pos

theorem in_noise : noise inPsd 4 = fun _ => 1 := by
  funext f
  unfold noise inPsd
  norm_num

theorem sum4 (g : ZMod 4 → ℝ) : ∑ τ, g τ = g 0 + g 1 + g 2 + g 3 :=
  Fin.sum_univ_four (f := (g : Fin 4 → ℝ))

theorem in_setup : ∃ F, setup inT inPsd 4 = .ok F := by
  unfold setup
  rw [if_neg (by norm_num), if_neg (by norm_num)]
  exact ⟨_, rfl⟩

/-- The delayed templates. -/
theorem in_delayed (t : ZMod 4) : delayed inT t = fun i τ => (vS t i τ : ℝ) := by
  funext i τ
  unfold delayed inT
  by_cases hi : i = 0
  · subst hi
    rw [if_pos rfl, roll, v_roll]
  · rw [if_neg hi, v_bg t i τ hi]

theorem in_indep (t : ZMod 4) : Indep (delayed inT t) := by
  intro x hx
  rw [in_delayed] at hx
  have h : ∀ τ, x 0 * (vS t 0 τ : ℝ) + x 1 * (vS t 1 τ : ℝ) + x 2 * (vS t 2 τ : ℝ) = 0 := by
    intro τ
    have := hx τ
    rwa [Fin.sum_univ_three] at this
  -- the bin next to the signal in the other half, and in the same half
  have b1 : ∀ t : ZMod 4, ∃ τ, vS t 0 τ = 0 ∧ vS t 1 τ = 1 ∧ vS t 2 τ = 0 := by decide +kernel
  have b2 : ∀ t : ZMod 4, ∃ τ, vS t 0 τ = 0 ∧ vS t 1 τ = 0 ∧ vS t 2 τ = 1 := by decide +kernel
  have b0 : ∀ t : ZMod 4, vS t 0 t = 1 := by decide +kernel
  have x1 : x 1 = 0 := by
    obtain ⟨τ, h0, h1, h2⟩ := b1 t
    have := h τ
    rw [h0, h1, h2] at this
    simpa using this
  have x2 : x 2 = 0 := by
    obtain ⟨τ, h0, h1, h2⟩ := b2 t
    have := h τ
    rw [h0, h1, h2] at this
    simpa using this
  have x0 : x 0 = 0 := by
    have := h t
    rw [b0, x1, x2] at this
    simpa using this
  funext i
  fin_cases i
  exacts [x0, x1, x2]

/-- White noise: the inner product is the plain one. -/
theorem in_ip (x y : ZMod 4 → ℝ) : ipR (noise inPsd 4) x y =
    (x 0 * y 0 + x 1 * y 1 + x 2 * y 2 + x 3 * y 3) / 4 := by
  rw [in_noise, ipR_flat 1 one_ne_zero, sum4]
  norm_num

theorem in_res (t : ZMod 4) : resTrace inP (delayed inT t) (inA t) = fun τ => (vR t τ : ℝ) := by
  rw [in_delayed]
  funext τ
  unfold resTrace inP inA
  rw [← v_res]
  push_cast
  rfl

theorem in_orth (t : ZMod 4) (i : Fin (2 + 1)) :
    ipR (noise inPsd 4) (delayed inT t i) (resTrace inP (delayed inT t) (inA t)) = 0 := by
  rw [in_res, in_ip, in_delayed, div_eq_zero_iff]
  left
  beta_reduce
  exact_mod_cast v_orth t i

theorem in_aT {F : Filt 4 2} (hF : setup inT inPsd 4 = .ok F) (t : ZMod 4) :
    aT F.phi (getiP F.P) inP t = inA t := by
  rw [aT, getiP, (setup_ok hF).2.2.2.2.2.1, slice_P_eq, qt_setup hF]
  exact lsq_explicit (noise_pos (by norm_num) inPsd_pos (by norm_num)) (in_indep t) (in_orth t)

theorem in_conStep {F : Filt 4 2} (hF : setup inT inPsd 4 = .ok F) (t : ZMod 4) :
    conStep F inP (fun _ => 0) t = .ok (inA t) := by
  rw [← in_aT hF]
  refine con_allowed_partial hF (by norm_num) inP _ t fun i => ?_
  rw [in_aT hF]
  refine ⟨⟨fun h => by norm_num at h, fun h => by norm_num at h⟩, ?_⟩
  exact Rat.cast_ne_zero.2 (v_ne t i)

theorem in_conAmps {F : Filt 4 2} (hF : setup inT inPsd 4 = .ok F) (t : ZMod 4) :
    conAmps F inP (fun _ => 0) t = inA t := by
  unfold conAmps
  rw [in_conStep hF]

theorem in_chi {F : Filt 4 2} (hF : setup inT inPsd 4 = .ok F) (t : ZMod 4) :
    conChi2 F inP t (inA t) = inChi t := by
  obtain ⟨m, hm⟩ := conStep_mask (in_conStep hF t)
  rw [(maskFit_spec hF inPsd_pos (by norm_num) hm).2.1, chi2, in_res, power_eq_ip]
  refine (in_ip _ _).trans ?_
  unfold inChi
  rw [← v_chi]
  push_cast
  rfl

theorem in_pick : pickIdx inChi (OF.arange 0 (4 : ℕ)) = .ok 2 := by
  obtain ⟨k, hk⟩ := pickIdx_defined (chi := inChi) (win := OF.arange 0 (4 : ℕ)) (by decide) (by
    intro i hi; rw [OF.mem_arange] at hi; constructor <;> push_cast at * <;> omega)
  obtain ⟨h1, h2, h3, h4⟩ := pick_arange hk
  rw [hk]
  have c0 : inChi ((0 : ℤ) : ZMod 4) = 2 := by
      rw [inChi, show vC ((0 : ℤ) : ZMod 4) = 2 by decide +kernel]; norm_num
  have c1 : inChi ((1 : ℤ) : ZMod 4) = 2 := by
      rw [inChi, show vC ((1 : ℤ) : ZMod 4) = 2 by decide +kernel]; norm_num
  have c2 : inChi ((2 : ℤ) : ZMod 4) = 1 / 8 := by
      rw [inChi, show vC ((2 : ℤ) : ZMod 4) = 1 / 8 by decide +kernel]; norm_num
  have c3 : inChi ((3 : ℤ) : ZMod 4) = 1 / 8 := by
      rw [inChi, show vC ((3 : ℤ) : ZMod 4) = 1 / 8 by decide +kernel]; norm_num
  have : k = 0 ∨ k = 1 ∨ k = 2 ∨ k = 3 := by push_cast at h2; omega
  rcases this with rfl | rfl | rfl | rfl
  · have := h3 2 (by norm_num) (by norm_num); rw [c0, c2] at this; norm_num at this
  · have := h3 2 (by norm_num) (by norm_num); rw [c1, c2] at this; norm_num at this
  · rfl
  · have := h4 2 (by norm_num) (by norm_num); rw [c2, c3] at this; norm_num at this

/-- The whole call, with one further window of three bins. -/
theorem in_call {F : Filt 4 2} (hF : setup inT inPsd 4 = .ok F) :
    ∃ r, ofNsmbCon inP F 4 (fun _ => 0) (OF.arange 0 (4 : ℕ)) [OF.arange (-1) 2] 500 = .ok r ∧
      r.tdelmin ≠ -1 / 4 := by
  have hf : firstErr F inP (fun _ => 0) = none := by
    unfold firstErr
    rw [List.findSome?_eq_none_iff]
    intro k _
    rw [in_conStep hF]
  have hw : ∃ w, winFit inChi (fun t => inA t 0) 4 (OF.arange (-1) 2) = .ok w := by
    obtain ⟨k, hk⟩ := pickIdx_defined (chi := roll inChi ((4 / 2 : ℕ) : ZMod 4))
      (win := OF.arange (-1) 2) (by decide) (by
      intro i hi; rw [OF.mem_arange] at hi; constructor <;> push_cast at * <;> omega)
    unfold winFit
    simp only [hk]
    rw [if_neg (by decide)]
    exact ⟨_, rfl⟩
  obtain ⟨w, hw⟩ := hw
  have hi := interp_value (k := 1) (x := 1 / 2) (h := 1 / 4) (y0 := 2) (y1 := 1 / 8) (y2 := 1 / 8)
    (a0 := -1) (a1 := 4) (a2 := -4) (pts := (List.range 4).map fun (k : ℕ) =>
      ((k : ℝ) * (1 / 4), inChi (k : ZMod 4), inA (k : ZMod 4) 0)) (by norm_num) (by
    rw [take_drop_range _ (by norm_num)]
    have c1 : inChi ((1 : ℕ) : ZMod 4) = 2 := by
      rw [inChi, show vC ((1 : ℕ) : ZMod 4) = 2 by decide +kernel]; norm_num
    have c2 : inChi ((2 : ℕ) : ZMod 4) = 1 / 8 := by
      rw [inChi, show vC ((2 : ℕ) : ZMod 4) = 1 / 8 by decide +kernel]; norm_num
    have c3 : inChi ((3 : ℕ) : ZMod 4) = 1 / 8 := by
      rw [inChi, show vC ((3 : ℕ) : ZMod 4) = 1 / 8 by decide +kernel]; norm_num
    have a1 : inA ((1 : ℕ) : ZMod 4) 0 = -1 := by
      rw [inA, show vA ((1 : ℕ) : ZMod 4) 0 = -1 by decide +kernel]; norm_num
    have a2 : inA ((2 : ℕ) : ZMod 4) 0 = 4 := by
      rw [inA, show vA ((2 : ℕ) : ZMod 4) 0 = 4 by decide +kernel]; norm_num
    have a3 : inA ((3 : ℕ) : ZMod 4) 0 = -4 := by
      rw [inA, show vA ((3 : ℕ) : ZMod 4) 0 = -4 by decide +kernel]; norm_num
    simp only [Nat.reduceAdd, c1, c2, c3, a1, a2, a3]
    norm_num) (by norm_num) le_rfl
  unfold ofNsmbCon
  rw [hf]
  simp only [in_pick, in_conAmps hF, in_chi hF, winFits, hw]
  rw [show ((2 : ℤ)) = ((1 : ℕ) : ℤ) + 1 by norm_num, hi]
  refine ⟨_, rfl, ?_⟩
  simp only [tdel]
  norm_num

end Verif.Nsmb
