import Verif.IvUnitsLemmas

/-!
C129: the IV results do not depend on the units of voltage and current, on the zero of the readout, nor on
the other temperatures and channels measured.
-/

namespace Verif.Iv
open Verif LineFit

/-- The analysis in other units fails exactly when it fails in the original ones, with the same
exception. -/
theorem iv_units_error (u : Units) (o : Obj) (e : Err) :
    calcIv (u.obj o) = .error e ↔ calcIv o = .error e := by
  unfold calcIv
  rw [fits_units]
  cases o.fits with
  | error e => rfl
  | ok fits =>
    simp only [Except.map, Units.obj]
    cases o.rload with
    | none => rfl
    | some rl =>
      simp only [Option.map_some]
      by_cases h : o.data.n2 = 0
      · simp only [if_pos h]
      · simp only [if_neg h]
        constructor <;> intro h <;> cases h

/-- **Units and readout offset.**  Whatever the units of voltage and current and the zero of the readout,
the analysis gives the same physical currents, resistances and powers with the same errors. -/
theorem iv_units (u : Units) {o : Obj} {res : Result} (h : calcIv o = .ok res) :
    ∃ res', calcIv (u.obj o) = .ok res' ∧ SameIv u o res res' := by
  obtain ⟨hv, ha⟩ := u.ne
  unfold calcIv at h ⊢
  have hfit : ∀ fits fits', o.fits = .ok fits → (u.obj o).fits = .ok fits' →
      ∀ t < o.data.n0, ∀ c < o.data.n1, (fits'.getD t []).getD c ⟨0, 0, 0, 0⟩ =
        u.fit ((fits.getD t []).getD c ⟨0, 0, 0, 0⟩) := by
    intro fits fits' h h' t ht c hc
    have h1 := fits_row h ht hc
    have h2 := fits_row h' (t := t) (c := c) ht hc
    rw [row_units, show (u.obj o).normalinds = o.normalinds from rfl, rowFit_units, h1] at h2
    exact (Except.ok.inj h2).symm
  have hfu := fits_units u o
  cases hf : o.fits with
  | error e => rw [hf] at h; cases h
  | ok fits =>
    rw [hf] at h hfu
    simp only [Except.map] at hfu
    have hfit := hfit _ _ hf hfu
    rw [hfu]
    revert hfit
    generalize fits.map (List.map u.fit) = fits'
    intro hfit
    simp only at h
    cases hrl : o.rload with
    | none => rw [hrl] at h; cases h
    | some rl =>
      rw [hrl] at h
      by_cases hn : o.data.n2 = 0
      · simp only [if_pos hn] at h; cases h
      simp only [if_neg hn, Except.ok.injEq] at h
      subst h
      simp only [Units.obj, hrl, Option.map_some, if_neg hn]
      refine ⟨_, rfl, ?_⟩
      have hsq : ∀ k x : ℝ, 0 ≤ k → k * Real.sqrt x = Real.sqrt (k ^ 2 * x) := by
        intro k x hk
        rw [Real.sqrt_mul (sq_nonneg k), Real.sqrt_sq hk]
      have hav : 0 ≤ u.a * u.v := by
        have := u.pos
        rw [div_eq_mul_inv, ← inv_inv u.a] at this
        rw [show u.a * u.v = u.v / u.a * u.a ^ 2 by field_simp]
        exact mul_nonneg u.pos.le (sq_nonneg _)
      have hi : ∀ (x y : ℝ), u.a * x + u.d - (u.a * y + u.d) = u.a * (x - y) := fun x y => by ring
      have hE : ∀ (x y : ℝ), Real.sqrt ((|u.a| * x) ^ 2 + (|u.a| * y) ^ 2) =
          |u.a| * Real.sqrt (x ^ 2 + y ^ 2) := by
        intro x y
        rw [hsq _ _ (abs_nonneg _)]
        congr 1
        ring
      constructor
      · intro t ht c hc; simp only [hfit t ht c hc, Units.fit]
      · intro t ht c hc; simp only [hfit t ht c hc, Units.fit]
      · intro t ht c hc; simp only [hfit t ht c hc, Units.fit]
      · intro t ht c hc; simp only [hfit t ht c hc, Units.fit]
      · intro t ht c hc; simp only [hfit t ht c hc, Units.fit, Units.res]; ring
      · intro t ht c hc
        simp only [hfit t ht c hc, Units.fit, Units.res]
        rw [hsq _ _ u.pos.le]
        congr 1
        ring
      · intro t ht c hc i
        simp only [hfit t ht c hc, Units.fit]
        cases o.data.get t c i with
        | none => rfl
        | some r => simp only [Option.map_some, Units.reading, hi]
      · intro t ht c hc i
        simp only [hfit t ht c hc, Units.fit]
        cases o.data.get t c i with
        | none => rfl
        | some r =>
          simp only [Option.map_some, Units.reading]
          rw [hsq _ _ (abs_nonneg _)]
          congr 2
          ring
      · intro t ht c hc i
        simp only [hfit t ht c hc, Units.fit, Units.res]
        cases o.data.get t c i with
        | none => rfl
        | some r =>
          simp only [Option.map_some, Option.bind_some, Units.reading, hi, mul_eq_zero, ha, false_or]
          split_ifs with h0
          · rfl
          · simp only [Option.map_some]
            congr 1
            field_simp
      · intro t ht c hc i
        simp only [hfit t ht c hc, Units.fit, Units.res]
        cases o.data.get t c i with
        | none => rfl
        | some r =>
          simp only [Option.map_some, Option.bind_some, Units.reading, hi, mul_eq_zero, ha, false_or]
          split_ifs with h0
          · rfl
          · simp only [Option.map_some]
            rw [hsq _ _ u.pos.le]
            congr 2
            simp only [hE]
            simp only [mul_pow, sq_abs]
            generalize Real.sqrt _ = z
            field_simp
      · intro t ht c hc i
        simp only [hfit t ht c hc, Units.fit, Units.res]
        cases o.data.get t c i with
        | none => rfl
        | some r =>
          simp only [Option.map_some, Option.bind_some, Units.reading, hi, mul_eq_zero, ha, false_or]
          split_ifs with h0
          · rfl
          · simp only [Option.map_some]
            congr 1
            field_simp
      · intro t ht c hc i
        simp only [hfit t ht c hc, Units.fit, Units.res]
        cases o.data.get t c i with
        | none => rfl
        | some r =>
          simp only [Option.map_some, Units.reading, hi]
          rw [hsq _ _ hav]
          congr 2
          simp only [hE]
          simp only [mul_pow, sq_abs]
          generalize Real.sqrt _ = z
          field_simp

/-- Each temperature and channel is analysed by itself: a measurement whose rows all occur in another one
gives their results, whatever the other rows and their order. -/
theorem iv_rows {o o' : Obj} {res : Result} (h : calcIv o = .ok res)
    (hi : o'.normalinds = o.normalinds) (h2 : o'.data.n2 = o.data.n2) (hl : o'.rload ≠ none)
    (src : ℕ → ℕ → ℕ × ℕ)
    (hs : ∀ t < o'.data.n0, ∀ c < o'.data.n1, (src t c).1 < o.data.n0 ∧ (src t c).2 < o.data.n1 ∧
      SameRow o o' (src t c).1 (src t c).2 t c) :
    ∃ res', calcIv o' = .ok res' ∧ ∀ t < o'.data.n0, ∀ c < o'.data.n1,
      SameRowResult o.data.n2 res res' (src t c).1 (src t c).2 t c := by
  unfold calcIv at h ⊢
  cases hf : o.fits with
  | error e => rw [hf] at h; cases h
  | ok fits =>
  rw [hf] at h
  cases hrl : o.rload with
  | none => rw [hrl] at h; cases h
  | some rl =>
  cases hrl' : o'.rload with
  | none => exact absurd hrl' hl
  | some rl' =>
  rw [hrl] at h
  by_cases hn : o.data.n2 = 0
  · simp only [if_pos hn] at h; cases h
  simp only [if_neg hn, Except.ok.injEq] at h
  subst h
  have hrow : ∀ t < o'.data.n0, ∀ c < o'.data.n1, o'.row t c = o.row (src t c).1 (src t c).2 := by
    intro t ht c hc
    unfold Obj.row
    rw [h2]
    exact List.map_congr_left fun i hi => (hs t ht c hc).2.2.1 i (List.mem_range.1 hi)
  have hf' := fits_of (o := o')
    (g := fun t c => (fits.getD (src t c).1 []).getD (src t c).2 ⟨0, 0, 0, 0⟩) (by
      intro t ht c hc
      rw [hrow t ht c hc, hi]
      exact fits_row hf (hs t ht c hc).1 (hs t ht c hc).2.1)
  rw [hf']
  simp only [h2, if_neg hn]
  refine ⟨_, rfl, fun t ht c hc => ?_⟩
  obtain ⟨_, _, hd, hr⟩ := hs t ht c hc
  have hr0 := hr rl hrl rl' hrl'
  simp only [SameRowResult, table_getD _ _ ht hc, hr0 0 (Nat.pos_of_ne_zero hn)]
  refine ⟨trivial, trivial, trivial, trivial, trivial, trivial, fun i hi => ?_⟩
  simp only [hd i hi, hr0 i hi, and_self]

/-- The order of the bias points does not matter: with the normal points chosen by hand, the same data in
another order (`π i` is the old position of the new point `i`), the same points being called normal in any
order, give the same results. -/
theorem iv_bias_order {o o' : Obj} {res : Result} (h : calcIv o = .ok res)
    (h0 : o'.data.n0 = o.data.n0) (h1 : o'.data.n1 = o.data.n1) (h2 : o'.data.n2 = o.data.n2)
    {π : ℕ → ℕ} (hd : ∀ t c, ∀ i < o.data.n2, o'.data.get t c i = o.data.get t c (π i))
    {rl rl' : A3 ValErr} (hrl : o.rload = some rl) (hrl' : o'.rload = some rl')
    (hr : ∀ t c i, rl'.get t c i = rl.get t c 0) (hr' : ∀ t c i, rl.get t c i = rl.get t c 0)
    {inds inds' : List ℕ} (hi : o.normalinds = some (inds.map fun (i : ℕ) => (i : ℤ)))
    (hi' : o'.normalinds = some (inds'.map fun (i : ℕ) => (i : ℤ)))
    (hlt : ∀ i ∈ inds, i < o.data.n2) (hlt' : ∀ i ∈ inds', i < o.data.n2)
    (hp : (inds'.map π).Perm inds) :
    ∃ res', calcIv o' = .ok res' ∧ ∀ t < o.data.n0, ∀ c < o.data.n1,
      res'.ioff t c = res.ioff t c ∧ res'.ioffErr t c = res.ioffErr t c ∧
      res'.rfit t c = res.rfit t c ∧ res'.rfitErr t c = res.rfitErr t c ∧
      res'.rnorm t c = res.rnorm t c ∧ res'.rnormErr t c = res.rnormErr t c ∧
      ∀ i < o.data.n2, res'.ites t c i = res.ites t c (π i) ∧
        res'.itesErr t c i = res.itesErr t c (π i) ∧ res'.r0 t c i = res.r0 t c (π i) ∧
        res'.r0Err t c i = res.r0Err t c (π i) ∧ res'.ptes t c i = res.ptes t c (π i) ∧
        res'.ptesErr t c i = res.ptesErr t c (π i) := by
  unfold calcIv at h ⊢
  cases hf : o.fits with
  | error e => rw [hf] at h; cases h
  | ok fits =>
  rw [hf, hrl] at h
  by_cases hn : o.data.n2 = 0
  · simp only [if_pos hn] at h; cases h
  simp only [if_neg hn, Except.ok.injEq] at h
  subst h
  have hrow : ∀ t c, rowFit (o'.row t c) o'.normalinds = rowFit (o.row t c) o.normalinds := by
    intro t c
    unfold rowFit Obj.row
    rw [hi, hi', h2]
    simp only [List.map_map]
    rw [fancy_nat _ hlt, fancy_nat _ hlt']
    simp only
    have hq : (inds'.map (pt ∘ fun i => o'.data.get t c i)).Perm
        (inds.map (pt ∘ fun i => o.data.get t c i)) := by
      rw [List.map_congr_left (g := (pt ∘ fun i => o.data.get t c i) ∘ π) (fun i hi => by
        simp only [Function.comp_apply, hd t c i (hlt' i hi)]), ← List.map_map]
      exact hp.map _
    rw [curveFit_perm hq]
  have hf' := fits_of (o := o') (g := fun t c => (fits.getD t []).getD c ⟨0, 0, 0, 0⟩) (by
      intro t ht c hc
      rw [hrow t c]
      exact fits_row hf (h0 ▸ ht) (h1 ▸ hc))
  rw [hf', hrl']
  simp only [h2, if_neg hn]
  refine ⟨_, rfl, fun t ht c hc => ?_⟩
  simp only [table_getD _ _ (h0.symm ▸ ht) (h1.symm ▸ hc), hr]
  refine ⟨trivial, trivial, trivial, trivial, trivial, trivial, fun i hi => ?_⟩
  simp only [hd t c i hi, hr' t c (π i), and_self]

/-- Volts to microvolts, amperes to microamperes with reversed polarity of both, and the readout offset by
7. -/
noncomputable def demoUnits : Units := ⟨-1000000, -1000, 7, by norm_num⟩

/-- Non-vacuity: the measurement of three normal points in other units. -/
example : ∃ res', calcIv (demoUnits.obj (demo (some [0, 1, 2]))) = .ok res' ∧
    res'.ioff 0 0 = 7 ∧ res'.rfit 0 0 = 1000 := by
  obtain ⟨res, h, e1, e2, _, _⟩ := demo_calcIv
  obtain ⟨res', h', hs⟩ := iv_units demoUnits h
  refine ⟨res', h', ?_, ?_⟩
  · rw [hs.ioff 0 Nat.zero_lt_one 0 Nat.zero_lt_one, e1]; norm_num [demoUnits]
  · rw [hs.rfit 0 Nat.zero_lt_one 0 Nat.zero_lt_one, e2]; norm_num [demoUnits]

/-- Non-vacuity: the same row measured twice. -/
example : ∃ res', calcIv ⟨⟨2, 1, 3, fun _ _ i => some ⟨i + 1, 0, i + 1, 1⟩⟩,
    some ⟨2, 1, 3, fun _ _ _ => ⟨1 / 2, 1 / 10⟩⟩, some [0, 1, 2]⟩ = .ok res' ∧ res'.rfit 1 0 = 1 := by
  obtain ⟨res, h, e1, e2, _, _⟩ := demo_calcIv
  obtain ⟨res', h', hs⟩ := iv_rows (o' := ⟨⟨2, 1, 3, fun _ _ i => some ⟨i + 1, 0, i + 1, 1⟩⟩,
    some ⟨2, 1, 3, fun _ _ _ => ⟨1 / 2, 1 / 10⟩⟩, some [0, 1, 2]⟩) h rfl rfl (by simp)
    (fun _ _ => (0, 0)) (by
      intro t _ c _
      refine ⟨Nat.zero_lt_one, Nat.zero_lt_one, fun i _ => rfl, ?_⟩
      intro rl hrl rl' hrl' i _
      cases hrl; cases hrl'; rfl)
  exact ⟨res', h', (hs 1 (by norm_num) 0 (by norm_num)).2.2.1.trans e2⟩

/-- Non-vacuity: the bias points in reverse order, all of them called normal in yet another order. -/
example : ∃ res', calcIv ⟨⟨1, 1, 3, fun _ _ i => some ⟨(2 - i : ℕ) + 1, 0, (2 - i : ℕ) + 1, 1⟩⟩,
    some ⟨1, 1, 3, fun _ _ _ => ⟨1 / 2, 1 / 10⟩⟩, some [1, 2, 0]⟩ = .ok res' ∧ res'.rfit 0 0 = 1 := by
  obtain ⟨res, h, e1, e2, _, _⟩ := demo_calcIv
  obtain ⟨res', h', hs⟩ := iv_bias_order
    (o' := ⟨⟨1, 1, 3, fun _ _ i => some ⟨(2 - i : ℕ) + 1, 0, (2 - i : ℕ) + 1, 1⟩⟩,
      some ⟨1, 1, 3, fun _ _ _ => ⟨1 / 2, 1 / 10⟩⟩, some [1, 2, 0]⟩) (π := fun i => 2 - i)
    (inds := [0, 1, 2]) (inds' := [1, 2, 0]) h rfl rfl rfl (fun _ _ _ _ => rfl) rfl rfl
    (fun _ _ _ => rfl) (fun _ _ _ => rfl) rfl rfl (by decide) (by decide) (by decide)
  exact ⟨res', h', (hs 0 Nat.zero_lt_one 0 Nat.zero_lt_one).2.2.1.trans e2⟩

end Verif.Iv
