import Verif.SimSpec
import Verif.DidvProps
import Mathlib.Analysis.Convex.SpecificFunctions.Basic

/-! Helper lemmas for the noise simulation. -/

namespace Verif.Sim
open Verif

theorem kB_pos : 0 < kB := by norm_num [kB]

theorem qe_pos : 0 < qe := by norm_num [qe]

theorem jw_eq (f : ℝ) : jw f = 2 * Real.pi * f * Complex.I := by
  unfold jw
  ring

/-- A complex number with real part `a` and imaginary part `b` vanishes only if both do. -/
theorem reIm_ne {a b : ℝ} (ha : a ≠ 0) : (a : ℂ) + b * Complex.I ≠ 0 := by
  intro h
  have := congrArg Complex.re h
  simp at this
  exact ha this

theorem thermal_ne (t : TES) (f : ℝ) (hl : t.loopgain ≠ 1) :
    (1 : ℂ) - t.loopgain + 2 * Real.pi * f * t.tau0 * Complex.I ≠ 0 := by
  have := reIm_ne (a := 1 - t.loopgain) (b := 2 * Real.pi * f * t.tau0) (sub_ne_zero.2 hl.symm)
  push_cast at this
  exact this

theorem one_sub_ne {t : TES} (hl : t.loopgain ≠ 1) : (1 : ℂ) - t.loopgain ≠ 0 := by
  have := sub_ne_zero.2 hl.symm
  exact_mod_cast this

/-- The factor of the thermal pole. -/
theorem thermal_eq (t : TES) (f : ℝ) (hl : t.loopgain ≠ 1) :
    (1 : ℂ) + jw f * t.tau0 / (1 - t.loopgain) =
      (1 - t.loopgain + 2 * Real.pi * f * t.tau0 * Complex.I) / (1 - t.loopgain) := by
  have h := one_sub_ne hl
  rw [jw_eq]
  field_simp

theorem dIdV_eq (t : TES) (f : ℝ) (hl : t.loopgain ≠ 1) :
    dIdV t f = if Zted t f = 0 then .error .nan else .ok (1 / Zted t f) := by
  have h1 := one_sub_ne hl
  have h2 := thermal_ne t f hl
  have e : (t.rload + t.r0 * (1 + t.beta) + jw f * t.inductance +
      t.r0 * t.loopgain / (1 - t.loopgain) * (2 + t.beta) /
        (1 + jw f * t.tau0 / (1 - t.loopgain)) : ℂ) = Zted t f := by
    rw [thermal_eq t f hl, jw_eq]
    unfold Zted
    refine congrArg₂ (· + ·) (by ring) ?_
    generalize (1 : ℂ) - t.loopgain + 2 * Real.pi * f * t.tau0 * Complex.I = y at h2
    generalize (1 : ℂ) - t.loopgain = x at h1
    field_simp
  unfold dIdV
  rw [if_neg (sub_ne_zero.2 hl.symm)]
  simp only
  rw [e]

theorem dIdV_ok {t : TES} {f : ℝ} {y : ℂ} (h : dIdV t f = .ok y) :
    t.loopgain ≠ 1 ∧ Zted t f ≠ 0 ∧ y = 1 / Zted t f := by
  have hl : t.loopgain ≠ 1 := by
    intro hl
    unfold dIdV at h
    rw [if_pos (by rw [hl]; ring)] at h
    cases h
  rw [dIdV_eq t f hl] at h
  by_cases h0 : Zted t f = 0
  · rw [if_pos h0] at h; cases h
  · rw [if_neg h0] at h
    cases h
    exact ⟨hl, h0, rfl⟩

/-- The power response of a device in transition. -/
theorem dIdP_eq {t : TES} {f : ℝ} (h : InTransition t f) :
    dIdP t f = .ok (-(t.loopgain / (t.i0 *
      (1 - t.loopgain + 2 * Real.pi * f * t.tau0 * Complex.I) * Zted t f))) := by
  obtain ⟨hi, h0, hl, hz⟩ := h
  have h1 := one_sub_ne hl
  have h2 := thermal_ne t f hl
  have h0c : (t.loopgain : ℂ) ≠ 0 := Complex.ofReal_ne_zero.2 h0
  have hic : (t.i0 : ℂ) ≠ 0 := Complex.ofReal_ne_zero.2 hi
  have h3 : 1 - 1 / t.loopgain ≠ 0 := by
    rw [sub_ne_zero, ne_eq, eq_div_iff h0, one_mul]
    exact hl
  have h4 : (t.loopgain : ℂ) - 1 ≠ 0 := by
    intro h
    exact h1 (by linear_combination -h)
  unfold dIdP
  rw [if_neg (not_or.2 ⟨hi, not_or.2 ⟨h0, h3⟩⟩), dIdV_eq t f hl, if_neg hz]
  simp only
  rw [thermal_eq t f hl]
  congr 1
  have e : (1 : ℂ) - 1 / t.loopgain = -(1 - t.loopgain) / t.loopgain := by
    field_simp
    ring
  rw [e]
  field_simp

theorem dIdP_ok {t : TES} {f : ℝ} {y : ℂ} (h : dIdP t f = .ok y) :
    InTransition t f ∧ y ≠ 0 := by
  have ht : InTransition t f := by
    unfold dIdP at h
    by_cases h0 : t.i0 = 0 ∨ t.loopgain = 0 ∨ 1 - 1 / t.loopgain = 0
    · rw [if_pos h0] at h; cases h
    · rw [if_neg h0] at h
      push Not at h0
      cases hv : dIdV t f with
      | error e => rw [hv] at h; cases h
      | ok v =>
        obtain ⟨hl, hz, _⟩ := dIdV_ok hv
        exact ⟨h0.1, h0.2.1, hl, hz⟩
  refine ⟨ht, ?_⟩
  rw [dIdP_eq ht] at h
  cases h
  obtain ⟨hi, h0, hl, hz⟩ := ht
  refine neg_ne_zero.2 (div_ne_zero (Complex.ofReal_ne_zero.2 h0) ?_)
  exact mul_ne_zero (mul_ne_zero (Complex.ofReal_ne_zero.2 hi) (thermal_ne t f hl)) hz

theorem abs2_pos {z : ℂ} (h : z ≠ 0) : 0 < abs2 z := by
  unfold abs2
  have := norm_pos_iff.2 h
  positivity

theorem abs2_nonneg (z : ℂ) : 0 ≤ abs2 z := by
  unfold abs2
  positivity

theorem abs2_mul (z w : ℂ) : abs2 (z * w) = abs2 z * abs2 w := by
  unfold abs2
  rw [norm_mul, mul_pow]

theorem abs2_div (z w : ℂ) : abs2 (z / w) = abs2 z / abs2 w := by
  unfold abs2
  rw [norm_div, div_pow]

theorem abs2_neg (z : ℂ) : abs2 (-z) = abs2 z := by
  unfold abs2
  rw [norm_neg]

theorem abs2_real (x : ℝ) : abs2 x = x ^ 2 := by
  unfold abs2
  rw [Complex.norm_real, Real.norm_eq_abs, sq_abs]

theorem abs2_reIm (a b : ℝ) : abs2 (a + b * Complex.I) = a ^ 2 + b ^ 2 := by
  unfold abs2
  rw [← Complex.normSq_eq_norm_sq, Complex.normSq_add_mul_I]

theorem pw_ok' {x y : ℝ} (hx : 0 ≤ x ∨ ∃ k : ℤ, y = k) (h0 : x = 0 → 0 ≤ y) :
    pw x y = .ok (x ^ y) := by
  unfold pw
  rw [if_neg (fun h => hx.elim (not_le.2 h.1) h.2), if_neg (fun h => absurd (h0 h.1) (not_le.2 h.2))]

theorem pw_ok {x y : ℝ} (hx : 0 ≤ x) (h0 : x = 0 → 0 ≤ y) : pw x y = .ok (x ^ y) := pw_ok' (.inl hx) h0

theorem pw_inv {x y p : ℝ} (h : pw x y = .ok p) :
    (0 ≤ x ∨ ∃ k : ℤ, y = k) ∧ (x = 0 → 0 ≤ y) ∧ p = x ^ y := by
  unfold pw at h
  by_cases h1 : x < 0 ∧ ¬ ∃ k : ℤ, y = k
  · rw [if_pos h1] at h; cases h
  · rw [if_neg h1] at h
    by_cases h2 : x = 0 ∧ y < 0
    · rw [if_pos h2] at h; cases h
    · rw [if_neg h2] at h
      cases h
      refine ⟨?_, fun hx => not_lt.1 fun hy => h2 ⟨hx, hy⟩, rfl⟩
      by_cases hk : ∃ k : ℤ, y = k
      · exact .inr hk
      · exact .inl (not_lt.1 fun hx => h1 ⟨hx, hk⟩)

theorem squid_ok {t : TES} {f : ℝ} (h : SquidOk t f) :
    sIsquid t f = .ok ((t.squiddc * (1 + (t.squidpole / f) ^ t.squidn)) ^ 2) := by
  obtain ⟨h0, h1, h2⟩ := h
  unfold sIsquid
  rw [if_neg h0, pw_ok' h1 h2]

theorem squid_inv {t : TES} {f s : ℝ} (h : sIsquid t f = .ok s) : SquidOk t f := by
  unfold sIsquid at h
  by_cases h0 : f = 0
  · rw [if_pos h0] at h; cases h
  · rw [if_neg h0] at h
    cases hp : pw (t.squidpole / f) t.squidn with
    | error e => rw [hp] at h; cases h
    | ok p =>
      obtain ⟨h1, h2, _⟩ := pw_inv hp
      exact ⟨h0, h1, h2⟩

theorem add_ok {x y : Except Err ℝ} {z : ℝ} (h : add x y = .ok z) :
    ∃ a b, x = .ok a ∧ y = .ok b ∧ z = a + b := by
  unfold add at h
  cases x with
  | error e => cases h
  | ok a =>
    cases y with
    | error e => cases h
    | ok b =>
      cases h
      exact ⟨a, b, rfl, rfl, rfl⟩

theorem toPower_eq {t : TES} {f : ℝ} {p : ℂ} (hp : dIdP t f = .ok p) (s : ℝ) :
    toPower t f (.ok s) = .ok (s / abs2 p) := by
  unfold toPower
  rw [hp]
  simp only
  unfold div
  rw [if_neg (abs2_pos (dIdP_ok hp).2).ne']

theorem toPower_inv {t : TES} {f r : ℝ} {s : Except Err ℝ} (h : toPower t f s = .ok r) :
    ∃ a p, s = .ok a ∧ dIdP t f = .ok p ∧ r = a / abs2 p := by
  cases s with
  | error e => cases h
  | ok a =>
    cases hp : dIdP t f with
    | error e =>
      unfold toPower at h
      rw [hp] at h
      cases h
    | ok p =>
      rw [toPower_eq hp] at h
      cases h
      exact ⟨a, p, rfl, rfl, rfl⟩

/-- A device with resistance 1, loop gain 2 and unit scales. -/
noncomputable def exTES : TES := ⟨1, 1, 1, 0, 2, 1, 1, 1, 1, 1, 1, 1, 1, 5, 1, 1, 1, 1⟩

theorem exTES_transition (f : ℝ) : InTransition exTES f := by
  refine ⟨by norm_num [exTES], by norm_num [exTES], by norm_num [exTES], ?_⟩
  intro h
  have h2 := thermal_ne exTES f (by norm_num [exTES])
  have hz : (2 + 2 * Real.pi * f * Complex.I) * (-1 + 2 * Real.pi * f * Complex.I) + 4 = (0 : ℂ) := by
    have h2' : (-1 : ℂ) + 2 * Real.pi * f * Complex.I ≠ 0 := by
      have e : (1 : ℂ) - (exTES.loopgain : ℝ) + 2 * Real.pi * f * (exTES.tau0 : ℝ) * Complex.I =
        -1 + 2 * Real.pi * f * Complex.I := by norm_num [exTES]
      rwa [e] at h2
    have e : Zted exTES f = 2 + 2 * Real.pi * f * Complex.I + 4 / (-1 + 2 * Real.pi * f * Complex.I) := by
      norm_num [Zted, exTES]
    rw [e] at h
    field_simp at h
    linear_combination h
  have h3 := congrArg Complex.im hz
  simp at h3
  have h4 := congrArg Complex.re hz
  simp at h4
  have hf : f = 0 := by
    by_contra hf
    have hpi := Real.pi_pos.ne'
    have : 2 * Real.pi * f = 0 := by linarith
    simp_all
  rw [hf] at h4
  norm_num at h4

/-! ### The trapezoidal rule -/

theorem trapz_smul (c : ℝ) (l : List (ℝ × ℝ)) :
    trapz (l.map fun p => (p.1, c * p.2)) = c * trapz l := by
  induction l with
  | nil => simp [trapz]
  | cons p r ih =>
    cases r with
    | nil => simp [trapz]
    | cons q r =>
      simp only [List.map_cons, trapz] at ih ⊢
      rw [ih]
      ring

theorem trapz_mono (g h : ℝ × ℝ → ℝ) (s : ℝ) (hs : 0 ≤ s) (l : List (ℝ × ℝ)) (hl : Increasing l)
    (hgh : ∀ p ∈ l, g p ≤ h p) :
    trapz (l.map fun p => (s * p.1, g p)) ≤ trapz (l.map fun p => (s * p.1, h p)) := by
  induction l with
  | nil => simp [trapz]
  | cons p r ih =>
    cases r with
    | nil => simp [trapz]
    | cons q r =>
      simp only [List.map_cons, trapz] at ih ⊢
      have h1 := hgh p List.mem_cons_self
      have h2 := hgh q (List.mem_cons_of_mem _ List.mem_cons_self)
      have h3 : p.1 < q.1 := (List.pairwise_cons.1 hl).1 q List.mem_cons_self
      have h4 := ih (List.pairwise_cons.1 hl).2 fun x hx => hgh x (List.mem_cons_of_mem _ hx)
      have h5 : 0 ≤ s * q.1 - s * p.1 := by nlinarith
      nlinarith [mul_le_mul_of_nonneg_left (add_le_add h1 h2) h5]

theorem trapz_pos (g : ℝ × ℝ → ℝ) (s : ℝ) (hs : 0 < s) (p q : ℝ × ℝ) (l : List (ℝ × ℝ))
    (hl : Increasing (p :: q :: l)) (hg : ∀ x ∈ p :: q :: l, 0 < g x) :
    0 < trapz ((p :: q :: l).map fun p => (s * p.1, g p)) := by
  have h3 : p.1 < q.1 := (List.pairwise_cons.1 hl).1 q List.mem_cons_self
  have h1 := hg p List.mem_cons_self
  have h2 := hg q (List.mem_cons_of_mem _ List.mem_cons_self)
  have h4 : 0 ≤ trapz ((q :: l).map fun p => (s * p.1, g p)) := by
    have := trapz_mono (fun _ => 0) g s hs.le (q :: l) (List.pairwise_cons.1 hl).2
      fun x hx => (hg x (List.mem_cons_of_mem _ hx)).le
    refine le_trans (le_of_eq ?_) this
    generalize q :: l = m
    have e := trapz_smul 0 (m.map fun p => (s * p.1, (1 : ℝ)))
    simp only [List.map_map, Function.comp_def, zero_mul] at e
    rw [e]
  simp only [List.map_cons, trapz] at h4 ⊢
  have h5 : 0 < s * q.1 - s * p.1 := by nlinarith
  have : 0 < (s * q.1 - s * p.1) * (g p + g q) / 2 := by positivity
  linarith

theorem trapz_append (l m : List (ℝ × ℝ)) (p : ℝ × ℝ) :
    trapz (l ++ p :: m) = trapz (l ++ [p]) + trapz (p :: m) := by
  induction l with
  | nil => simp [trapz]
  | cons a l ih =>
    cases l with
    | nil => simp [trapz]
    | cons b l =>
      simp only [List.cons_append, trapz] at ih ⊢
      rw [ih]
      ring

theorem trapz_mirror (l : List (ℝ × ℝ)) :
    trapz (l.reverse.map fun p => (-p.1, p.2)) = trapz l := by
  induction l with
  | nil => rfl
  | cons p l ih =>
    cases l with
    | nil => simp [trapz]
    | cons q l =>
      have e : ((p :: q :: l).reverse.map fun p : ℝ × ℝ => (-p.1, p.2)) =
          (l.reverse.map fun p => (-p.1, p.2)) ++ (-q.1, q.2) :: [(-p.1, p.2)] := by simp
      have e' : ((q :: l).reverse.map fun p : ℝ × ℝ => (-p.1, p.2)) =
          (l.reverse.map fun p => (-p.1, p.2)) ++ [(-q.1, q.2)] := by simp
      rw [e, trapz_append, ← e', ih]
      simp only [trapz]
      ring

/-- Value of the integrand. -/
theorem resPoint_eq (tau eff : ℝ) (p : ℝ × ℝ) :
    resPoint tau eff p = (2 * Real.pi * p.1,
      2 * eff ^ 2 / ((1 + (2 * Real.pi * p.1 * tau) ^ 2) * (Real.pi * p.2))) := by
  unfold resPoint
  have e : abs2 (eff / (1 + 2 * Real.pi * p.1 * tau * Complex.I)) =
      eff ^ 2 / (1 + (2 * Real.pi * p.1 * tau) ^ 2) := by
    rw [abs2_div, abs2_real]
    have := abs2_reIm 1 (2 * Real.pi * p.1 * tau)
    push_cast at this
    rw [this, one_pow]
  rw [e, mul_div_assoc', div_div]

theorem energyRes_ok {pts : List (ℝ × ℝ)} {tau eff r : ℝ} (h : energyRes pts tau eff = .ok r) :
    (∀ p ∈ pts, p.2 ≠ 0) ∧ 0 < trapz (pts.map (resPoint tau eff)) ∧
      r = Real.sqrt (1 / trapz (pts.map (resPoint tau eff))) / qe := by
  unfold energyRes at h
  by_cases h0 : ∃ p ∈ pts, p.2 = 0
  · rw [if_pos h0] at h; cases h
  · rw [if_neg h0] at h
    simp only at h
    push Not at h0
    by_cases h1 : trapz (pts.map (resPoint tau eff)) ≤ 0
    · rw [if_pos h1] at h; cases h
    · rw [if_neg h1] at h
      cases h
      exact ⟨h0, not_le.1 h1, rfl⟩

theorem energyRes_of {pts : List (ℝ × ℝ)} {tau eff : ℝ} (h0 : ∀ p ∈ pts, p.2 ≠ 0)
    (h1 : 0 < trapz (pts.map (resPoint tau eff))) :
    energyRes pts tau eff = .ok (Real.sqrt (1 / trapz (pts.map (resPoint tau eff))) / qe) := by
  unfold energyRes
  rw [if_neg (by push Not; exact h0)]
  simp only
  rw [if_neg (not_le.2 h1)]

end Verif.Sim
