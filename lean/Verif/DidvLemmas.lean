import Verif.DidvSpec

/-! Lemmas for the dI/dV formulas. -/

namespace Verif.Didv
open Verif

theorem one_add_jw_ne (f t : ℝ) : 1 + jw f * t ≠ 0 := by
  intro h
  have := congrArg Complex.re h
  simp [jw] at this

theorem onePoleZ_eq (f A tau2 : ℝ) : onePoleZ f A tau2 = Z1 A tau2 (jw f) := rfl

theorem twoPoleZ_eq (f A B tau1 tau2 : ℝ) : twoPoleZ f A B tau1 tau2 = Z2 A B tau1 tau2 (jw f) := rfl

theorem threePoleZ_eq {f A B C tau1 tau2 tau3 : ℝ} {z : ℂ}
    (h : threePoleZ f A B C tau1 tau2 tau3 = .ok z) : z = Z3 A B C tau1 tau2 tau3 (jw f) := by
  unfold threePoleZ at h
  split at h
  · cases h
  · exact (Except.ok.inj h).symm

theorem conj_jw (f : ℝ) : starRingEnd ℂ (jw f) = jw (-f) := by
  simp [jw]
  exact Or.inl (Complex.conj_ofNat 2)

/-- The polynomial form of a two-pole fall time. -/
theorem fallTime2_poly {A B tau1 tau2 τ : ℝ} (hτ : τ ≠ 0) :
    (1 + (-1 / (τ : ℂ)) * tau1 ≠ 0 ↔ τ ≠ tau1) ∧
    (τ ≠ tau1 → (Z2 A B tau1 tau2 (-1 / (τ : ℂ)) = 0 ↔
      (A + B) * τ ^ 2 - A * (tau1 + tau2) * τ + A * tau1 * tau2 = 0)) := by
  have hc : (τ : ℂ) ≠ 0 := Complex.ofReal_ne_zero.2 hτ
  have e1 : ∀ x : ℝ, 1 + (-1 / (τ : ℂ)) * x = ((τ - x : ℝ) : ℂ) / τ := by
    intro x
    push_cast
    field_simp
    ring
  refine ⟨?_, fun h1 => ?_⟩
  · rw [e1, ne_eq, div_eq_zero_iff, not_or, Complex.ofReal_eq_zero, sub_eq_zero]
    exact ⟨fun h => h.1, fun h => ⟨h, hc⟩⟩
  · unfold Z2
    rw [e1, e1]
    have hd : ((τ - tau1 : ℝ) : ℂ) ≠ 0 := Complex.ofReal_ne_zero.2 (sub_ne_zero.2 h1)
    have : (A : ℂ) * (((τ - tau2 : ℝ) : ℂ) / τ) + B / (((τ - tau1 : ℝ) : ℂ) / τ) =
        (((A + B) * τ ^ 2 - A * (tau1 + tau2) * τ + A * tau1 * tau2 : ℝ) : ℂ) /
          (τ * ((τ - tau1 : ℝ) : ℂ)) := by
      field_simp
      push_cast
      ring
    rw [this, div_eq_zero_iff, Complex.ofReal_eq_zero]
    exact ⟨fun h => h.resolve_right (mul_ne_zero hc hd), Or.inl⟩

/-- The polynomial form of a three-pole fall time. -/
theorem fallTime3_poly {A B C tau1 tau2 tau3 τ : ℝ} (hτ : τ ≠ 0) :
    (1 + (-1 / (τ : ℂ)) * tau3 ≠ 0 ↔ τ ≠ tau3) ∧
    (τ ≠ tau3 → (1 + (-1 / (τ : ℂ)) * tau1 - C / (1 + (-1 / (τ : ℂ)) * tau3) ≠ 0 ↔
      (τ - tau1) * (τ - tau3) - C * τ ^ 2 ≠ 0)) ∧
    (τ ≠ tau3 → (τ - tau1) * (τ - tau3) - C * τ ^ 2 ≠ 0 →
      (Z3 A B C tau1 tau2 tau3 (-1 / (τ : ℂ)) = 0 ↔
        A * (τ - tau2) * ((τ - tau1) * (τ - tau3) - C * τ ^ 2) + B * τ ^ 2 * (τ - tau3) = 0)) := by
  have hc : (τ : ℂ) ≠ 0 := Complex.ofReal_ne_zero.2 hτ
  have e1 : ∀ x : ℝ, 1 + (-1 / (τ : ℂ)) * x = ((τ - x : ℝ) : ℂ) / τ := by
    intro x
    push_cast
    field_simp
    ring
  have e2 : τ ≠ tau3 → ((τ - tau1 : ℝ) : ℂ) / τ - C / (((τ - tau3 : ℝ) : ℂ) / τ) =
      (((τ - tau1) * (τ - tau3) - C * τ ^ 2 : ℝ) : ℂ) / (τ * ((τ - tau3 : ℝ) : ℂ)) := by
    intro h3
    have hd : ((τ - tau3 : ℝ) : ℂ) ≠ 0 := Complex.ofReal_ne_zero.2 (sub_ne_zero.2 h3)
    push_cast at hd ⊢
    field_simp
  refine ⟨?_, fun h3 => ?_, fun h3 hD => ?_⟩
  · rw [e1, ne_eq, div_eq_zero_iff, not_or, Complex.ofReal_eq_zero, sub_eq_zero]
    exact ⟨fun h => h.1, fun h => ⟨h, hc⟩⟩
  · have hd : ((τ - tau3 : ℝ) : ℂ) ≠ 0 := Complex.ofReal_ne_zero.2 (sub_ne_zero.2 h3)
    rw [e1, e1, e2 h3, ne_eq, div_eq_zero_iff, not_or, Complex.ofReal_eq_zero]
    exact ⟨fun h => h.1, fun h => ⟨h, mul_ne_zero hc hd⟩⟩
  · have hd : ((τ - tau3 : ℝ) : ℂ) ≠ 0 := Complex.ofReal_ne_zero.2 (sub_ne_zero.2 h3)
    have hD' := Complex.ofReal_ne_zero.2 hD
    unfold Z3
    rw [e1, e1, e1, e2 h3]
    have : (A : ℂ) * (((τ - tau2 : ℝ) : ℂ) / τ) + B / ((((τ - tau1) * (τ - tau3) - C * τ ^ 2 : ℝ) : ℂ) /
        (τ * ((τ - tau3 : ℝ) : ℂ))) =
        ((A * (τ - tau2) * ((τ - tau1) * (τ - tau3) - C * τ ^ 2) + B * τ ^ 2 * (τ - tau3) : ℝ) : ℂ) /
          (τ * (((τ - tau1) * (τ - tau3) - C * τ ^ 2 : ℝ) : ℂ)) := by
      rw [div_div_eq_mul_div, mul_div_assoc', div_add_div _ _ hc hD']
      congr 1
      push_cast
      ring
    rw [this, div_eq_zero_iff, Complex.ofReal_eq_zero]
    exact ⟨fun h => h.resolve_right (mul_ne_zero hc hD'), Or.inl⟩

end Verif.Didv
