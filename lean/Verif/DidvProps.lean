import Verif.DidvLemmas

/-! Properties C43 (parameter conversion), C44 (impedance formulas) and C45, C69 (fall times). -/

namespace Verif.Didv
open Verif

/-! ### C43: conversions -/

/-- TES parameters to fit parameters and back: the identity. -/
theorem tes_roundtrip {rsh rp r0 beta l L tau0 gratio tau3 dt : ℝ} (hl : l ≠ 1) (hr : r0 ≠ 0)
    (hb : beta ≠ -2) (hA : rsh + rp + r0 * (1 + beta) ≠ 0) (h1 : rsh + rp ≠ 0) :
    (∃ q, convertFrom [rsh, rp, L, dt] = .ok q ∧ q.length = 3 ∧
      ∀ r r', convertTo q rsh r r' = .ok [rsh, rp, L, dt]) ∧
    (∃ q, convertFrom [rsh, rp, r0, beta, l, L, tau0, dt] = .ok q ∧ q.length = 5 ∧
      convertTo q rsh r0 rp = .ok [rsh, rp, r0, beta, l, L, tau0, dt]) ∧
    (∃ q, convertFrom [rsh, rp, r0, beta, l, L, tau0, gratio, tau3, dt] = .ok q ∧ q.length = 7 ∧
      convertTo q rsh r0 rp = .ok [rsh, rp, r0, beta, l, L, tau0, gratio, tau3, dt]) := by
  have hl' : 1 - l ≠ 0 := sub_ne_zero.2 hl.symm
  have hb' : 2 + beta ≠ 0 := fun h => hb (by linarith)
  have eD : rsh + rp + r0 * (1 + beta) + r0 * l / (1 - l) * (2 + beta) + r0 - (rsh + rp) =
      r0 * (2 + beta) / (1 - l) := by
    field_simp
    ring
  have hD : r0 * (2 + beta) / (1 - l) ≠ 0 := div_ne_zero (mul_ne_zero hr hb') hl'
  have eN : rsh + rp + r0 * (1 + beta) + r0 - (rsh + rp) = r0 * (2 + beta) := by ring
  have ebeta : (rsh + rp + r0 * (1 + beta) - (rsh + rp)) / r0 - 1 = beta := by
    field_simp
    ring
  have el : r0 * l / (1 - l) * (2 + beta) / (r0 * (2 + beta) / (1 - l)) = l := by field_simp
  have eL : (rsh + rp + r0 * (1 + beta)) * (L / (rsh + rp + r0 * (1 + beta))) = L := by field_simp
  have et : ∀ t : ℝ, t / (1 - l) * (r0 * (2 + beta)) / (r0 * (2 + beta) / (1 - l)) = t := by
    intro t
    field_simp
  refine ⟨⟨_, if_neg h1, rfl, fun _ _ => ?_⟩, ⟨_, if_neg (not_or.2 ⟨hl', hA⟩), rfl, ?_⟩,
    ⟨_, if_neg (not_or.2 ⟨hl', hA⟩), rfl, ?_⟩⟩
  · simp only [convertTo, add_sub_cancel_left, mul_div_cancel₀ _ h1]
  · simp only [convertTo]
    rw [if_neg (not_or.2 ⟨hr, by rw [eD]; exact hD⟩), eD, eN, ebeta, el, eL, et]
  · simp only [convertTo]
    rw [if_neg (not_or.2 ⟨hr, by rw [eD]; exact hD⟩), eD, eN, ebeta, el, eL, et, et]

/-- Fit parameters to TES parameters and back: the identity. -/
theorem fit_roundtrip {rsh rp r0 A B C tau1 tau2 tau3 dt : ℝ} (hA : A ≠ 0) (hr : r0 ≠ 0)
    (hD : A + B + r0 - (rsh + rp) ≠ 0) (hN : A + r0 - (rsh + rp) ≠ 0) :
    (∃ q, convertTo [A, tau2, dt] rsh r0 rp = .ok q ∧ q.length = 4 ∧
      convertFrom q = .ok [A, tau2, dt]) ∧
    (∃ q, convertTo [A, B, tau1, tau2, dt] rsh r0 rp = .ok q ∧ q.length = 8 ∧
      convertFrom q = .ok [A, B, tau1, tau2, dt]) ∧
    (∃ q, convertTo [A, B, C, tau1, tau2, tau3, dt] rsh r0 rp = .ok q ∧ q.length = 10 ∧
      convertFrom q = .ok [A, B, C, tau1, tau2, tau3, dt]) := by
  have e1 : rsh + (A - rsh) = A := by ring
  have eA : rsh + rp + r0 * (1 + ((A - (rsh + rp)) / r0 - 1)) = A := by
    field_simp
    ring
  have el : 1 - B / (A + B + r0 - (rsh + rp)) = (A + r0 - (rsh + rp)) / (A + B + r0 - (rsh + rp)) := by
    rw [eq_div_iff hD, sub_mul, div_mul_cancel₀ _ hD]
    ring
  have hl : (A + r0 - (rsh + rp)) / (A + B + r0 - (rsh + rp)) ≠ 0 := div_ne_zero hN hD
  have eB : r0 * (B / (A + B + r0 - (rsh + rp))) /
      ((A + r0 - (rsh + rp)) / (A + B + r0 - (rsh + rp))) * (2 + ((A - (rsh + rp)) / r0 - 1)) = B := by
    have e2 : 2 + ((A - (rsh + rp)) / r0 - 1) = (A + r0 - (rsh + rp)) / r0 := by
      field_simp
      ring
    have e3 : r0 * (B / (A + B + r0 - (rsh + rp))) = r0 * B / (A + B + r0 - (rsh + rp)) := by ring
    rw [e2, e3, div_div_div_cancel_right₀ hD]
    field_simp
  have et : ∀ t : ℝ, t * (A + r0 - (rsh + rp)) / (A + B + r0 - (rsh + rp)) /
      ((A + r0 - (rsh + rp)) / (A + B + r0 - (rsh + rp))) = t := by
    intro t
    rw [div_div_div_cancel_right₀ hD, mul_div_cancel_right₀ _ hN]
  refine ⟨⟨_, rfl, rfl, ?_⟩, ⟨_, if_neg (not_or.2 ⟨hr, hD⟩), rfl, ?_⟩,
    ⟨_, if_neg (not_or.2 ⟨hr, hD⟩), rfl, ?_⟩⟩
  · simp only [convertFrom, e1]
    rw [if_neg hA, mul_div_cancel_left₀ _ hA]
  · simp only [convertFrom]
    rw [eA, el, if_neg (not_or.2 ⟨hl, hA⟩), eB, et, mul_div_cancel_left₀ _ hA]
  · simp only [convertFrom]
    rw [eA, el, if_neg (not_or.2 ⟨hl, hA⟩), eB, et, et, mul_div_cancel_left₀ _ hA]

/-- Typical values are off the singular set. -/
example : (2 : ℝ) ≠ 1 ∧ (3 / 10 : ℝ) ≠ 0 ∧ (1 / 2 : ℝ) ≠ -2 ∧
    (5 / 1000 : ℝ) + 5 / 1000 + 3 / 10 * (1 + 1 / 2) ≠ 0 ∧ (5 / 1000 : ℝ) + 5 / 1000 ≠ 0 := by norm_num

/-! ### C44: impedance and admittance -/

/-- Model selection and formulas: with all nine parameters the three-pole formula of the documentation, with
the seven of the two-pole model (and not both others) the two-pole formula, with `rsh`, `rp`, `L` (and
not all of the two-pole parameters) the one-pole formula, otherwise ValueError. -/
theorem compleximpedance_doc (f rsh rp r0 beta l L tau0 gratio tau3 : ℝ) (hl : l ≠ 1)
    (hA : rsh + rp + r0 * (1 + beta) ≠ 0) (h1 : rsh + rp ≠ 0) :
    (docThreeDen f l tau0 gratio tau3 ≠ 0 →
      compleximpedance f ⟨some rsh, some rp, some r0, some beta, some l, some L, some tau0,
        some gratio, some tau3⟩ = .ok (docThree f rsh rp r0 beta l L tau0 gratio tau3)) ∧
    (∀ g t, g = none ∨ t = none →
      compleximpedance f ⟨some rsh, some rp, some r0, some beta, some l, some L, some tau0, g, t⟩ =
        .ok (docTwo f rsh rp r0 beta l L tau0)) ∧
    (∀ x0 xb xl xt g t, x0 = none ∨ xb = none ∨ xl = none ∨ xt = none →
      compleximpedance f ⟨some rsh, some rp, x0, xb, xl, some L, xt, g, t⟩ =
        .ok (docOne f rsh rp L)) ∧
    (∀ a : Args, a.rsh = none ∨ a.rp = none ∨ a.L = none →
      compleximpedance f a = .error .valueError) := by
  have hl' : 1 - l ≠ 0 := sub_ne_zero.2 hl.symm
  have hlc : (1 : ℂ) - l ≠ 0 := by exact_mod_cast hl'
  have hAc : (rsh : ℂ) + rp + r0 * (1 + beta) ≠ 0 := by exact_mod_cast hA
  have h1c : (rsh : ℂ) + rp ≠ 0 := by exact_mod_cast h1
  have eel : ∀ x : ℂ, ((rsh : ℂ) + rp + r0 * (1 + beta)) *
      (1 + x * (L / (rsh + rp + r0 * (1 + beta)))) = rsh + rp + x * L + r0 * (1 + beta) := by
    intro x
    field_simp
    ring
  refine ⟨fun hD => ?_, ?_, ?_, ?_⟩
  · have e : poleExtractor ⟨some rsh, some rp, some r0, some beta, some l, some L, some tau0,
        some gratio, some tau3⟩ = .ok 3 := rfl
    unfold compleximpedance
    simp only [e, Option.getD_some, convertFrom]
    rw [if_neg (not_or.2 ⟨hl', hA⟩)]
    simp only [threePoleZ]
    have eD : 1 + jw f * ((tau0 / (1 - l) : ℝ) : ℂ) -
        ((gratio / (1 - l) : ℝ) : ℂ) / (1 + jw f * tau3) = docThreeDen f l tau0 gratio tau3 := by
      unfold docThreeDen jw
      push_cast
      ring
    rw [eD, if_neg hD]
    congr 1
    unfold docThree
    push_cast
    rw [eel]
    congr 2
    ring
  · intro g t hgt
    have e : poleExtractor ⟨some rsh, some rp, some r0, some beta, some l, some L, some tau0, g, t⟩ =
        .ok 2 := by
      unfold poleExtractor
      rw [if_neg, if_pos (by simp)]
      rcases hgt with rfl | rfl <;> simp
    unfold compleximpedance
    simp only [e, Option.getD_some, convertFrom]
    rw [if_neg (not_or.2 ⟨hl', hA⟩)]
    simp only [twoPoleZ]
    congr 1
    unfold docTwo
    push_cast
    rw [eel]
    unfold jw
    congr 2
    · ring
    · ring
  · intro x0 xb xl xt g t h
    have e : poleExtractor ⟨some rsh, some rp, x0, xb, xl, some L, xt, g, t⟩ = .ok 1 := by
      unfold poleExtractor
      rw [if_neg, if_neg, if_pos (by simp)]
      · rcases h with rfl | rfl | rfl | rfl <;> simp
      · rcases h with rfl | rfl | rfl | rfl <;> simp
    unfold compleximpedance
    simp only [e, Option.getD_some, convertFrom]
    rw [if_neg h1]
    simp only [onePoleZ]
    congr 1
    unfold docOne jw
    push_cast
    field_simp
  · intro a h
    have e : poleExtractor a = .error .valueError := by
      unfold poleExtractor
      rw [if_neg, if_neg, if_neg]
      · rcases h with h | h | h <;> simp [h]
      · rcases h with h | h | h <;> simp [h]
      · rcases h with h | h | h <;> simp [h]
    unfold compleximpedance
    rw [e]

/-- The admittance is the reciprocal of the impedance; it is undefined exactly where the impedance is
undefined or zero. -/
theorem complexadmittance_recip (f : ℝ) (a : Args) (y : ℂ) :
    complexadmittance f a = .ok y ↔ ∃ z, compleximpedance f a = .ok z ∧ z ≠ 0 ∧ z * y = 1 := by
  unfold complexadmittance
  cases h : compleximpedance f a with
  | error e => simp
  | ok z =>
    simp only [recipZ]
    by_cases hz : z = 0
    · rw [if_pos hz]
      simp [hz]
    · rw [if_neg hz]
      constructor
      · intro h
        cases h
        exact ⟨z, rfl, hz, mul_one_div_cancel hz⟩
      · rintro ⟨z', e, _, hy⟩
        cases e
        rw [eq_comm, ← hy, mul_div_cancel_left₀ _ hz]

/-- Negative frequencies carry the complex conjugate: a real voltage gives a real current. -/
theorem compleximpedance_conj {f : ℝ} {a : Args} {z : ℂ} (h : compleximpedance f a = .ok z) :
    compleximpedance (-f) a = .ok (starRingEnd ℂ z) := by
  have key1 : ∀ A t : ℝ, onePoleZ (-f) A t = starRingEnd ℂ (onePoleZ f A t) := by
    intro A t
    simp only [onePoleZ, ← conj_jw, map_mul, map_add, map_one, Complex.conj_ofReal]
  have key2 : ∀ A B t u : ℝ, twoPoleZ (-f) A B t u = starRingEnd ℂ (twoPoleZ f A B t u) := by
    intro A B t u
    simp only [twoPoleZ, ← conj_jw, map_mul, map_add, map_one, map_div₀, Complex.conj_ofReal]
  have key3 : ∀ (A B C t u v : ℝ) (z : ℂ), threePoleZ f A B C t u v = .ok z →
      threePoleZ (-f) A B C t u v = .ok (starRingEnd ℂ z) := by
    intro A B C t u v z hz
    unfold threePoleZ at hz ⊢
    have e : 1 + jw (-f) * t - C / (1 + jw (-f) * v) =
        starRingEnd ℂ (1 + jw f * t - C / (1 + jw f * v)) := by
      simp only [← conj_jw, map_mul, map_add, map_sub, map_one, map_div₀, Complex.conj_ofReal]
    rw [e]
    by_cases h0 : 1 + jw f * t - C / (1 + jw f * v) = 0
    · rw [if_pos h0] at hz; cases hz
    · rw [if_neg h0] at hz
      rw [if_neg (by rwa [map_eq_zero])]
      cases hz
      congr 1
      simp only [← conj_jw, map_mul, map_add, map_sub, map_one, map_div₀, Complex.conj_ofReal]
  unfold compleximpedance at h ⊢
  revert h
  cases hp : poleExtractor a with
  | error e => simp
  | ok p =>
    simp only
    match p with
    | 0 => 
      simp only
      split
      · simp
      · exact key3 _ _ _ _ _ _ _
      · simp
    | 1 =>
      simp only
      split
      · simp
      · intro h
        cases h
        rw [key1]
      · simp
    | 2 =>
      simp only
      split
      · simp
      · intro h
        cases h
        rw [key2]
      · simp
    | k + 3 =>
      simp only
      split
      · simp
      · exact key3 _ _ _ _ _ _ _
      · simp

/-- The documentation lists the two-pole parameters without `tau0`.  Leaving `tau0` out does not raise: the
one-pole formula is used and the four TES parameters are ignored. -/
theorem missing_tau0_ignored (f rsh rp r0 beta l L : ℝ) (h1 : rsh + rp ≠ 0) :
    compleximpedance f ⟨some rsh, some rp, some r0, some beta, some l, some L, none, none, none⟩ =
      .ok (docOne f rsh rp L) := by
  have e : poleExtractor ⟨some rsh, some rp, some r0, some beta, some l, some L, none, none, none⟩ =
      .ok 1 := by
    simp [poleExtractor]
  have h1c : (rsh : ℂ) + rp ≠ 0 := by exact_mod_cast h1
  unfold compleximpedance
  simp only [e, Option.getD_some, convertFrom]
  rw [if_neg h1]
  simp only [onePoleZ]
  congr 1
  unfold docOne jw
  push_cast
  field_simp

/-- The three-pole denominator is non-zero for typical values at zero frequency. -/
example : docThreeDen 0 2 1 (1 / 2) 1 ≠ 0 := by
  norm_num [docThreeDen]

/-! ### C45: fall times -/

/-- The impedances of the code are the impedances of the models on the imaginary axis, and the admittances
their inverses. -/
theorem pole_models (f A B C tau1 tau2 tau3 : ℝ) :
    onePoleZ f A tau2 = Z1 A tau2 (2 * Real.pi * f * Complex.I) ∧
    twoPoleZ f A B tau1 tau2 = Z2 A B tau1 tau2 (2 * Real.pi * f * Complex.I) ∧
    (∀ z, threePoleZ f A B C tau1 tau2 tau3 = .ok z → z = Z3 A B C tau1 tau2 tau3 (2 * Real.pi * f * Complex.I)) ∧
    (∀ y, onePoleY f A tau2 = .ok y → y * Z1 A tau2 (2 * Real.pi * f * Complex.I) = 1) ∧
    (∀ y, twoPoleY f A B tau1 tau2 = .ok y → y * Z2 A B tau1 tau2 (2 * Real.pi * f * Complex.I) = 1) ∧
    (∀ y, threePoleY f A B C tau1 tau2 tau3 = .ok y →
      y * Z3 A B C tau1 tau2 tau3 (2 * Real.pi * f * Complex.I) = 1) := by
  have hw : 2 * Real.pi * f * Complex.I = jw f := by unfold jw; ring
  have hr : ∀ {z y : ℂ}, recipZ z = .ok y → y * z = 1 := by
    intro z y h
    unfold recipZ at h
    split_ifs at h with hz
    cases h
    field_simp
  rw [hw]
  refine ⟨onePoleZ_eq .., twoPoleZ_eq .., fun z h => threePoleZ_eq h, fun y h => hr h, fun y h => hr h, ?_⟩
  intro y h
  unfold threePoleY at h
  cases hz : threePoleZ f A B C tau1 tau2 tau3 with
  | error e => rw [hz] at h; cases h
  | ok z =>
    rw [hz] at h
    rw [← threePoleZ_eq hz]
    exact hr h

/-- The three-pole admittance exists at zero frequency. -/
example : ∃ y, threePoleY 0 1 1 (1 / 2) 1 1 1 = .ok y := by
  unfold threePoleY threePoleZ recipZ jw
  norm_num

/-- One pole: the only fall time of the response is the value returned. -/
theorem falltimes_one {A tau2 dt : ℝ} (hA : A ≠ 0) (ht : tau2 ≠ 0)
    (s2 : ((ℝ × ℝ) → ℝ × ℝ) → ℝ × ℝ → ℝ × ℝ)
    (s3 : ((ℝ × ℝ × ℝ) → ℝ × ℝ × ℝ) → ℝ × ℝ × ℝ → ℝ × ℝ × ℝ) :
    ∃ ts, findPoleFallTimes s2 s3 [A, tau2, dt] = .ok ts ∧ ∀ τ, IsFallTime1 A tau2 τ ↔ τ ∈ ts := by
  refine ⟨_, rfl, fun τ => ?_⟩
  rw [List.mem_singleton]
  unfold IsFallTime1 Z1
  constructor
  · rintro ⟨h0, h⟩
    have hc : (τ : ℂ) ≠ 0 := Complex.ofReal_ne_zero.2 h0
    rcases mul_eq_zero.1 h with h | h
    · exact absurd (Complex.ofReal_eq_zero.1 h) hA
    · field_simp at h
      have : (τ : ℂ) = tau2 := by linear_combination h
      exact_mod_cast this
  · rintro rfl
    have hc : (τ : ℂ) ≠ 0 := Complex.ofReal_ne_zero.2 ht
    refine ⟨ht, ?_⟩
    field_simp
    ring

/-- Two poles: if the equation solver has found a root, the values returned are sorted and are exactly the
real fall times of the response. -/
theorem falltimes_two {A B tau1 tau2 dt : ℝ} (hA : A ≠ 0) (hB : B ≠ 0) (hAB : A + B ≠ 0)
    (h1 : tau1 ≠ 0) (h2 : tau2 ≠ 0) (s2 : ((ℝ × ℝ) → ℝ × ℝ) → ℝ × ℝ → ℝ × ℝ)
    (s3 : ((ℝ × ℝ × ℝ) → ℝ × ℝ × ℝ) → ℝ × ℝ × ℝ → ℝ × ℝ × ℝ)
    (hs : ∀ (F : ℝ × ℝ → ℝ × ℝ) x, (∃ p, F p = (0, 0)) → F (s2 F x) = (0, 0))
    (hroot : ∃ p, twoPoleEqs A B tau1 tau2 p = (0, 0)) :
    ∃ ts, findPoleFallTimes s2 s3 [A, B, tau1, tau2, dt] = .ok ts ∧ ts.Pairwise (· ≤ ·) ∧
      ts.length = 2 ∧ ∀ τ, IsFallTime2 A B tau1 tau2 τ ↔ τ ∈ ts := by
  have hp := hs _ (tau1, tau2) hroot
  refine ⟨_, if_neg hAB, List.pairwise_insertionSort _ _, by rw [List.length_insertionSort]; rfl, ?_⟩
  intro τ
  rw [List.mem_insertionSort]
  generalize s2 (twoPoleEqs A B tau1 tau2) (tau1, tau2) = p at hp
  unfold twoPoleEqs at hp
  rw [Prod.mk.injEq] at hp
  obtain ⟨e1, e2⟩ := hp
  have E1 : (A + B) * (p.1 + p.2) = A * (tau1 + tau2) := by
    rw [sub_eq_zero.1 e1]
    field_simp
  have E2 : (A + B) * (p.1 * p.2) = A * tau1 * tau2 := by
    rw [sub_eq_zero.1 e2]
    field_simp
  have hfac : ∀ τ, (A + B) * τ ^ 2 - A * (tau1 + tau2) * τ + A * tau1 * tau2 =
      (A + B) * ((τ - p.1) * (τ - p.2)) := by
    intro τ
    rw [← E1, ← E2]
    ring
  have hmem : τ ∈ [p.1, p.2] ↔ τ = p.1 ∨ τ = p.2 := by simp
  rw [hmem]
  constructor
  · rintro ⟨h0, hd, hz⟩
    obtain ⟨i1, i2⟩ := fallTime2_poly (A := A) (B := B) (tau1 := tau1) (tau2 := tau2) h0
    have := (i2 (i1.1 hd)).1 hz
    rw [hfac] at this
    rcases mul_eq_zero.1 ((mul_eq_zero.1 this).resolve_left hAB) with h | h
    · exact Or.inl (sub_eq_zero.1 h)
    · exact Or.inr (sub_eq_zero.1 h)
  · intro h
    have hP : (A + B) * τ ^ 2 - A * (tau1 + tau2) * τ + A * tau1 * tau2 = 0 := by
      rw [hfac]
      rcases h with h | h <;> rw [h] <;> ring
    have h0 : τ ≠ 0 := by
      rintro rfl
      have : A * tau1 * tau2 = 0 := by linarith
      exact mul_ne_zero (mul_ne_zero hA h1) h2 this
    obtain ⟨i1, i2⟩ := fallTime2_poly (A := A) (B := B) (tau1 := tau1) (tau2 := tau2) h0
    have hne : τ ≠ tau1 := by
      rintro rfl
      have : B * τ ^ 2 = 0 := by linear_combination hP
      exact mul_ne_zero hB (pow_ne_zero 2 h1) this
    exact ⟨h0, i1.2 hne, (i2 hne).2 hP⟩

/-- Three poles: if the equation solver has found a root, the values returned are sorted and are exactly the
real fall times of the response. -/
theorem falltimes_three {A B C tau1 tau2 tau3 dt : ℝ} (hA : A ≠ 0) (hB : B ≠ 0) (hC : C ≠ 0)
    (hM : A * (1 - C) + B ≠ 0) (h1 : tau1 ≠ 0) (h2 : tau2 ≠ 0) (h3 : tau3 ≠ 0) (h23 : tau2 ≠ tau3)
    (s2 : ((ℝ × ℝ) → ℝ × ℝ) → ℝ × ℝ → ℝ × ℝ)
    (s3 : ((ℝ × ℝ × ℝ) → ℝ × ℝ × ℝ) → ℝ × ℝ × ℝ → ℝ × ℝ × ℝ)
    (hs : ∀ (F : ℝ × ℝ × ℝ → ℝ × ℝ × ℝ) x, (∃ p, F p = (0, 0, 0)) → F (s3 F x) = (0, 0, 0))
    (hroot : ∃ p, threePoleEqs A B C tau1 tau2 tau3 p = (0, 0, 0)) :
    ∃ ts, findPoleFallTimes s2 s3 [A, B, C, tau1, tau2, tau3, dt] = .ok ts ∧
      ts.Pairwise (· ≤ ·) ∧ ts.length = 3 ∧
      ∀ τ, IsFallTime3 A B C tau1 tau2 tau3 τ ↔ τ ∈ ts := by
  have hp := hs _ (tau1, tau2, tau3) hroot
  refine ⟨_, if_neg hM, List.pairwise_insertionSort _ _, by rw [List.length_insertionSort]; rfl, ?_⟩
  intro τ
  rw [List.mem_insertionSort]
  generalize s3 (threePoleEqs A B C tau1 tau2 tau3) (tau1, tau2, tau3) = p at hp
  unfold threePoleEqs at hp
  rw [Prod.mk.injEq, Prod.mk.injEq] at hp
  obtain ⟨e1, e2, e3⟩ := hp
  have E1 : (A * (1 - C) + B) * (p.1 + p.2.1 + p.2.2) =
      A * tau1 + A * (1 - C) * tau2 + (A + B) * tau3 := by
    rw [sub_eq_zero.1 e1, mul_div_cancel₀ _ hM]
  have E2 : (A * (1 - C) + B) * (p.1 * p.2.1 + p.1 * p.2.2 + p.2.1 * p.2.2) =
      (tau1 * tau2 + tau1 * tau3 + tau2 * tau3) * A := by
    rw [sub_eq_zero.1 e2, mul_div_cancel₀ _ hM]
  have E3 : (A * (1 - C) + B) * (p.1 * p.2.1 * p.2.2) = tau1 * tau2 * tau3 * A := by
    rw [sub_eq_zero.1 e3, mul_div_cancel₀ _ hM]
  have hfac : ∀ τ, A * (τ - tau2) * ((τ - tau1) * (τ - tau3) - C * τ ^ 2) + B * τ ^ 2 * (τ - tau3) =
      (A * (1 - C) + B) * ((τ - p.1) * (τ - p.2.1) * (τ - p.2.2)) := by
    intro τ
    linear_combination τ ^ 2 * E1 - τ * E2 + E3
  have hmem : τ ∈ [p.1, p.2.1, p.2.2] ↔ τ = p.1 ∨ τ = p.2.1 ∨ τ = p.2.2 := by simp
  rw [hmem]
  constructor
  · rintro ⟨h0, hd3, hd, hz⟩
    obtain ⟨i1, i2, i3⟩ := fallTime3_poly (A := A) (B := B) (C := C) (tau1 := tau1) (tau2 := tau2)
      (tau3 := tau3) h0
    have n3 := i1.1 hd3
    have := (i3 n3 ((i2 n3).1 hd)).1 hz
    rw [hfac] at this
    rcases mul_eq_zero.1 ((mul_eq_zero.1 this).resolve_left hM) with h | h
    · rcases mul_eq_zero.1 h with h | h
      · exact Or.inl (sub_eq_zero.1 h)
      · exact Or.inr (Or.inl (sub_eq_zero.1 h))
    · exact Or.inr (Or.inr (sub_eq_zero.1 h))
  · intro h
    have hP : A * (τ - tau2) * ((τ - tau1) * (τ - tau3) - C * τ ^ 2) + B * τ ^ 2 * (τ - tau3) = 0 := by
      rw [hfac]
      rcases h with h | h | h <;> rw [h] <;> ring
    have h0 : τ ≠ 0 := by
      rintro rfl
      have : A * tau1 * tau2 * tau3 = 0 := by linear_combination -hP
      exact mul_ne_zero (mul_ne_zero (mul_ne_zero hA h1) h2) h3 this
    obtain ⟨i1, i2, i3⟩ := fallTime3_poly (A := A) (B := B) (C := C) (tau1 := tau1) (tau2 := tau2)
      (tau3 := tau3) h0
    have n3 : τ ≠ tau3 := by
      rintro rfl
      have : A * (τ - tau2) * C * τ ^ 2 = 0 := by linear_combination -hP
      exact mul_ne_zero (mul_ne_zero (mul_ne_zero hA (sub_ne_zero.2 h23.symm)) hC)
        (pow_ne_zero 2 h0) this
    have hD : (τ - tau1) * (τ - tau3) - C * τ ^ 2 ≠ 0 := by
      intro hD
      rw [hD, mul_zero, zero_add] at hP
      exact mul_ne_zero (mul_ne_zero hB (pow_ne_zero 2 h0)) (sub_ne_zero.2 n3) hP
    exact ⟨h0, i1.2 n3, (i2 n3).2 hD, (i3 n3 hD).2 hP⟩

/-- The hypotheses can be met: a two-pole model with fall times 2 and 12, and a three-pole model with
a root. -/
example : twoPoleEqs 1 (-1 / 2) 3 4 (12, 2) = (0, 0) ∧ (1 : ℝ) + -1 / 2 ≠ 0 ∧
    threePoleEqs 1 (-3) (-3) (-4) (1 / 2) (-4) (2, 2, 2) = (0, 0, 0) := by
  refine ⟨?_, by norm_num, ?_⟩ <;> norm_num [twoPoleEqs, threePoleEqs]

/-! ### C69: no real fall times -/

/-- The equations solved for the fall times have a real solution exactly if the response is not
oscillating. -/
theorem twoPole_solvable_iff {A B tau1 tau2 : ℝ} (hAB : A + B ≠ 0) :
    (∃ p, twoPoleEqs A B tau1 tau2 p = (0, 0)) ↔ ¬ Underdamped A B tau1 tau2 := by
  have hsq : 0 < (A + B) ^ 2 := by positivity
  unfold Underdamped twoPoleEqs
  simp only [Prod.mk.injEq]
  constructor
  · rintro ⟨⟨p, q⟩, e1, e2⟩
    simp only at e1 e2
    have E1 : (A + B) * (p + q) = A * (tau1 + tau2) := by
      rw [sub_eq_zero.1 e1]; field_simp
    have E2 : (A + B) * (p * q) = A * tau1 * tau2 := by
      rw [sub_eq_zero.1 e2]; field_simp
    rw [not_lt]
    have h1 : A ^ 2 * (tau1 + tau2) ^ 2 = (A + B) ^ 2 * (p + q) ^ 2 := by
      rw [← mul_pow, ← E1, mul_pow]
    have h2 : 4 * A * (A + B) * (tau1 * tau2) = (A + B) ^ 2 * (4 * (p * q)) := by
      rw [show 4 * A * (A + B) * (tau1 * tau2) = 4 * (A + B) * (A * tau1 * tau2) by ring, ← E2]; ring
    rw [h1, h2]
    exact mul_le_mul_of_nonneg_left (by nlinarith [sq_nonneg (p - q)]) hsq.le
  · intro h
    rw [not_lt] at h
    set D := A ^ 2 * (tau1 + tau2) ^ 2 - 4 * A * (A + B) * (tau1 * tau2) with hD
    have hD0 : 0 ≤ D := by linarith
    obtain ⟨w, hs⟩ : ∃ w, w * w = D := ⟨_, Real.mul_self_sqrt hD0⟩
    refine ⟨((A * (tau1 + tau2) - w) / (2 * (A + B)),
      (A * (tau1 + tau2) + w) / (2 * (A + B))), ?_, ?_⟩
    · simp only; field_simp; ring
    · simp only
      have : (A * (tau1 + tau2) - w) / (2 * (A + B)) *
          ((A * (tau1 + tau2) + w) / (2 * (A + B))) =
          (A ^ 2 * (tau1 + tau2) ^ 2 - D) / (4 * (A + B) ^ 2) := by
        rw [← hs]; field_simp; ring
      rw [this, hD]; field_simp; ring

/-- **C69 (partial).**  If the response is not oscillating and the equation solver finds a solution
whenever there is one, the values returned are sorted and are exactly the real fall times of the
response.

Missing: oscillating responses, see `falltimes_underdamped_violated`. -/
theorem falltimes_overdamped_partial {A B tau1 tau2 dt : ℝ} (hA : A ≠ 0) (hB : B ≠ 0)
    (hAB : A + B ≠ 0) (h1 : tau1 ≠ 0) (h2 : tau2 ≠ 0) (s2 : ((ℝ × ℝ) → ℝ × ℝ) → ℝ × ℝ → ℝ × ℝ)
    (s3 : ((ℝ × ℝ × ℝ) → ℝ × ℝ × ℝ) → ℝ × ℝ × ℝ → ℝ × ℝ × ℝ)
    (hs : ∀ (F : ℝ × ℝ → ℝ × ℝ) x, (∃ p, F p = (0, 0)) → F (s2 F x) = (0, 0))
    (hd : ¬ Underdamped A B tau1 tau2) :
    ∃ ts, findPoleFallTimes s2 s3 [A, B, tau1, tau2, dt] = .ok ts ∧ ts.Pairwise (· ≤ ·) ∧
      ts.length = 2 ∧ ∀ τ, IsFallTime2 A B tau1 tau2 τ ↔ τ ∈ ts :=
  falltimes_two hA hB hAB h1 h2 s2 s3 hs ((twoPole_solvable_iff hAB).2 hd)

/-- A typical detector: resistances 1 and -3, time constants -1 ms and 1 µs. -/
example : ¬ Underdamped 1 (-3) (-1 / 1000) (1 / 1000000) := by unfold Underdamped; norm_num

/-- When the two eigenvalues of the response are complex the equations have no real solution: whatever
the solver returns, neither of the two reported fall times is a fall time of the response, and
nothing reports this. -/
theorem falltimes_underdamped_violated {A B tau1 tau2 : ℝ} (hd : Underdamped A B tau1 tau2) (dt : ℝ)
    (s2 : ((ℝ × ℝ) → ℝ × ℝ) → ℝ × ℝ → ℝ × ℝ)
    (s3 : ((ℝ × ℝ × ℝ) → ℝ × ℝ × ℝ) → ℝ × ℝ × ℝ → ℝ × ℝ × ℝ) :
    ∃ ts, findPoleFallTimes s2 s3 [A, B, tau1, tau2, dt] = .ok ts ∧ ts.length = 2 ∧
      (∀ p, twoPoleEqs A B tau1 tau2 p ≠ (0, 0)) ∧ ∀ τ, ¬ IsFallTime2 A B tau1 tau2 τ := by
  have hAB : A + B ≠ 0 := by
    intro h
    unfold Underdamped at hd
    rw [h] at hd
    nlinarith [sq_nonneg (A * (tau1 + tau2))]
  refine ⟨_, if_neg hAB, by rw [List.length_insertionSort]; rfl, ?_, ?_⟩
  · intro p h
    exact (twoPole_solvable_iff hAB).1 ⟨p, h⟩ hd
  · rintro τ ⟨h0, hd', hz⟩
    obtain ⟨i1, i2⟩ := fallTime2_poly (A := A) (B := B) (tau1 := tau1) (tau2 := tau2) h0
    have := (i2 (i1.1 hd')).1 hz
    unfold Underdamped at hd
    have h2 : A ^ 2 * (tau1 + tau2) ^ 2 - 4 * A * (A + B) * (tau1 * tau2) =
        (2 * (A + B) * τ - A * (tau1 + tau2)) ^ 2 -
        4 * (A + B) * ((A + B) * τ ^ 2 - A * (tau1 + tau2) * τ + A * tau1 * tau2) := by ring
    rw [this] at h2
    nlinarith [sq_nonneg (2 * (A + B) * τ - A * (tau1 + tau2))]

/-- Such fits exist. -/
example : Underdamped 1 1 1 1 ∧ Underdamped 1 (-3) (-1) 1 := by unfold Underdamped; norm_num

end Verif.Didv
