import Verif.UtilsLemmas
import Mathlib.Analysis.SpecialFunctions.Pow.Deriv
import Mathlib.Algebra.BigOperators.Field
import Mathlib.Tactic.Simproc.Factors
import Mathlib.Tactic.NormNum.GCD
import Mathlib.Algebra.Order.BigOperators.Ring.Finset
import Mathlib.Tactic.LinearCombination
import Mathlib.Tactic.IntervalCases
import Mathlib.Algebra.Order.Floor.Semifield

/-!
Properties of `/repo/qetpy/utils/_utils.py` (C01-C09).
-/

namespace Verif.Utils
open Verif

/-! ## C01: `shift` -/

/-- The result of an integer shift has the length of the input. -/
theorem shift_int_length (arr : List ℝ) (k : ℤ) (fill : ℝ) :
    (shift arr k fill).length = arr.length := by
  unfold shift
  simp [shiftInt_length]

/-- Entry `i` of an integer shift is `arr[i - num]` when that is a valid position. -/
theorem shift_int_moves (arr : List ℝ) (k : ℤ) (fill : ℝ) (i j : ℕ) (hi : i < arr.length)
    (hj : j < arr.length) (hij : (i : ℤ) = j + k) : (shift arr k fill)[i]? = arr[j]? := by
  unfold shift
  simp only [Int.floor_intCast, if_true]
  rw [shiftInt_getElem? _ _ _ _ hi, if_pos (by omega)]
  congr 1; omega

/-- All other entries hold the fill value. -/
theorem shift_int_fills (arr : List ℝ) (k : ℤ) (fill : ℝ) (i : ℕ) (hi : i < arr.length)
    (hno : ¬ ∃ j < arr.length, (i : ℤ) = (j : ℕ) + k) : (shift arr k fill)[i]? = some fill := by
  unfold shift
  simp only [Int.floor_intCast, if_true]
  rw [shiftInt_getElem? _ _ _ _ hi, if_neg]
  rintro ⟨h1, h2⟩
  exact hno ⟨((i : ℤ) - k).toNat, by omega, by omega⟩

/-- Shifts of the same sign compose additively. -/
theorem shift_int_comp (arr : List ℝ) (a b : ℤ) (fill : ℝ)
    (hab : (0 ≤ a ∧ 0 ≤ b) ∨ (a ≤ 0 ∧ b ≤ 0)) :
    shift (shift arr a fill) b fill = shift arr ((a + b : ℤ) : ℝ) fill := by
  unfold shift
  simp only [Int.floor_intCast, if_true]
  apply List.ext_getElem?
  intro i
  by_cases hi : i < arr.length
  · rw [shiftInt_getElem? _ b _ _ (by rwa [shiftInt_length]), shiftInt_getElem? _ (a + b) _ _ hi,
      shiftInt_length]
    by_cases h : 0 ≤ (i : ℤ) - b ∧ (i : ℤ) - b < arr.length
    · rw [if_pos h, shiftInt_getElem? _ a _ _ (by omega)]
      by_cases h2 : 0 ≤ (i : ℤ) - (a + b) ∧ (i : ℤ) - (a + b) < arr.length
      · rw [if_pos (by omega), if_pos h2]; congr 1; omega
      · rw [if_neg (by omega), if_neg h2]
    · rw [if_neg h, if_neg (by omega)]
  · rw [List.getElem?_eq_none (by rw [shiftInt_length, shiftInt_length]; omega),
      List.getElem?_eq_none (by rw [shiftInt_length]; omega)]

/-- Specification of linear interpolation in an array at a real coordinate. -/
def IsLinInterp (arr : List ℝ) (c v : ℝ) : Prop :=
  ∃ (lo : ℕ) (w : ℝ), 0 ≤ w ∧ w < 1 ∧ c = lo + w ∧
    ((w = 0 ∧ arr[lo]? = some v) ∨
      ∃ a b, arr[lo]? = some a ∧ arr[lo + 1]? = some b ∧ v = a + w * (b - a))

/-- For every real shift, integer or not, sample `i` of the result is the linear interpolation
of the input at `i - num`, or the fill value when that coordinate lies outside the array.  In
particular the integer branch and the `ndimage` branch implement the same function. -/
theorem shift_interpolates (arr : List ℝ) (num fill : ℝ) (i : ℕ) (hi : i < arr.length) :
    (0 ≤ (i : ℝ) - num ∧ (i : ℝ) - num ≤ (arr.length : ℝ) - 1 →
      ∃ v, (shift arr num fill)[i]? = some v ∧ IsLinInterp arr (i - num) v) ∧
    (¬ (0 ≤ (i : ℝ) - num ∧ (i : ℝ) - num ≤ (arr.length : ℝ) - 1) →
      (shift arr num fill)[i]? = some fill) := by
  by_cases hint : num = (⌊num⌋ : ℝ)
  · obtain ⟨k, rfl⟩ : ∃ k : ℤ, num = k := ⟨_, hint⟩
    have key : (0 ≤ (i : ℝ) - k ∧ (i : ℝ) - k ≤ (arr.length : ℝ) - 1) ↔
        (0 ≤ (i : ℤ) - k ∧ (i : ℤ) - k < arr.length) := by
      constructor
      · rintro ⟨h1, h2⟩
        have h1' : (0 : ℝ) ≤ ((i : ℤ) - k : ℤ) := by push_cast; exact h1
        have h2' : (((i : ℤ) - k : ℤ) : ℝ) ≤ ((arr.length : ℤ) - 1 : ℤ) := by push_cast; exact h2
        have h1'' : 0 ≤ (i : ℤ) - k := by exact_mod_cast h1'
        have h2'' : (i : ℤ) - k ≤ (arr.length : ℤ) - 1 := by exact_mod_cast h2'
        omega
      · rintro ⟨h1, h2⟩
        have h2' : (i : ℤ) - k ≤ (arr.length : ℤ) - 1 := by omega
        constructor
        · exact_mod_cast h1
        · exact_mod_cast h2'
    rw [key]
    unfold shift
    simp only [Int.floor_intCast, if_true]
    rw [shiftInt_getElem? _ _ _ _ hi]
    constructor
    · intro h
      rw [if_pos h]
      refine ⟨arr[((i : ℤ) - k).toNat]'(by omega), List.getElem?_eq_getElem _, ((i : ℤ) - k).toNat, 0,
        le_rfl, one_pos, ?_, Or.inl ⟨rfl, List.getElem?_eq_getElem _⟩⟩
      have : ((((i : ℤ) - k).toNat : ℤ)) = (i : ℤ) - k := by omega
      have h' : ((((i : ℤ) - k).toNat : ℤ) : ℝ) = (((i : ℤ) - k : ℤ) : ℝ) := by rw [this]
      push_cast at h'
      rw [add_zero]; exact h'.symm
    · intro h; rw [if_neg h]
  · unfold shift
    rw [if_neg hint]
    unfold ndShift
    simp only [List.getElem?_map, List.getElem?_range hi, Option.map_some]
    constructor
    · intro h
      rw [if_pos h]
      set c : ℝ := (i : ℝ) - num with hc
      have hf0 : 0 ≤ ⌊c⌋ := Int.floor_nonneg.2 h.1
      have hfl : ((⌊c⌋.toNat : ℤ)) = ⌊c⌋ := Int.toNat_of_nonneg hf0
      have hfl' : ((⌊c⌋.toNat : ℕ) : ℝ) = (⌊c⌋ : ℝ) := by exact_mod_cast congrArg (Int.cast (R := ℝ)) hfl
      have hfle : (⌊c⌋ : ℝ) ≤ c := Int.floor_le c
      have hflt : c < ⌊c⌋ + 1 := Int.lt_floor_add_one c
      have hlt : ⌊c⌋.toNat < arr.length := by
        have : ((⌊c⌋.toNat : ℕ) : ℝ) < arr.length := by rw [hfl']; linarith [h.2]
        exact_mod_cast this
      rw [List.getElem?_eq_getElem hlt]
      by_cases hlt2 : ⌊c⌋.toNat + 1 < arr.length
      · rw [List.getElem?_eq_getElem hlt2]
        refine ⟨_, rfl, ⌊c⌋.toNat, c - ⌊c⌋, by linarith, by linarith, by rw [hfl']; ring, Or.inr
          ⟨_, _, List.getElem?_eq_getElem hlt, List.getElem?_eq_getElem hlt2, by ring⟩⟩
      · rw [List.getElem?_eq_none (by omega)]
        have hw : c - ⌊c⌋ = 0 := by
          have : (arr.length : ℝ) = ((⌊c⌋.toNat + 1 : ℕ) : ℝ) := by
            congr 1; omega
          push_cast at this
          rw [hfl'] at this
          linarith [h.2]
        refine ⟨_, rfl, ⌊c⌋.toNat, 0, le_rfl, one_pos, by rw [hfl']; linarith, Or.inl
          ⟨rfl, List.getElem?_eq_getElem hlt⟩⟩
    · intro h; rw [if_neg h]

example : shift [1, 2, 3, 4] ((1 : ℤ) : ℝ) 0 = [0, 1, 2, 3] := by
  unfold shift; simp [shiftInt, Np.sliceTo, Np.clipIdx]
example : shift [1, 2, 3] ((-7 : ℤ) : ℝ) 9 = [9, 9, 9] := by
  unfold shift; simp only [Int.floor_intCast, if_true]
  simp [shiftInt, Np.sliceFrom, Np.clipIdx]

/-! ## C02: `resample_factors` -/

/-- `fs*up/down` is an integer multiple of `sgfreq` (cross-multiplied). -/
def MakesInteger (fs sg up down : ℕ) : Prop := 0 < down ∧ ∃ k : ℕ, fs * up = k * (down * sg)

/-- Non-integer input is rejected. -/
theorem resample_rejects (fs sg : ℚ) (h : fs ≠ (⌊fs⌋ : ℚ) ∨ sg ≠ (⌊sg⌋ : ℚ)) :
    resampleFactors fs sg = .error .valueError := by
  unfold resampleFactors
  by_cases h1 : fs ≠ (⌊fs⌋ : ℚ)
  · rw [if_pos h1]
  · rw [if_neg h1]
    rcases h with h | h
    · exact absurd h h1
    · rw [if_pos h]

/-- Integer input is accepted. -/
theorem resample_accepts (fs sg : ℕ) :
    resampleFactors fs sg = .ok (resampleFactorsNat fs sg) := by
  unfold resampleFactors
  simp

/-- If `sgfreq` divides `fs`, no resampling happens. -/
theorem resample_trivial (fs sg : ℕ) (hs : 0 < sg) (h : sg ∣ fs) :
    resampleFactorsNat fs sg = (1, 1) := by
  unfold resampleFactorsNat
  simp [Nat.gcd_eq_right h, Nat.div_self hs]

/-- What holds for all positive integers: `down` is the radical of the reduced numerator, so the
resampled ratio is an integer exactly when the reduced denominator divides `up`. -/
theorem resample_integer_iff (fs sg : ℕ) (hf : 0 < fs) :
    MakesInteger fs sg (resampleFactorsNat fs sg).1 (resampleFactorsNat fs sg).2 ↔
      (sg / Nat.gcd fs sg) ∣ (resampleFactorsNat fs sg).1 := by
  have hg : 0 < Nat.gcd fs sg := Nat.gcd_pos_of_pos_left _ hf
  obtain ⟨num, hnum⟩ := Nat.gcd_dvd_left fs sg
  obtain ⟨den, hden⟩ := Nat.gcd_dvd_right fs sg
  have hcop : Nat.Coprime num den := by
    have := Nat.coprime_div_gcd_div_gcd hg
    rwa [Nat.div_eq_of_eq_mul_right hg hnum, Nat.div_eq_of_eq_mul_right hg hden] at this
  have h1 : fs / Nat.gcd fs sg = num := Nat.div_eq_of_eq_mul_right hg hnum
  have h2 : sg / Nat.gcd fs sg = den := Nat.div_eq_of_eq_mul_right hg hden
  have hnum0 : 0 < num := by
    rcases Nat.eq_zero_or_pos num with h | h
    · rw [h, Nat.mul_zero] at hnum; omega
    · exact h
  rw [h2]
  set g := Nat.gcd fs sg with hgdef
  -- `down` divides `num`
  have hdown : 0 < (resampleFactorsNat fs sg).2 ∧ (resampleFactorsNat fs sg).2 ∣ num := by
    unfold resampleFactorsNat
    simp only [← hgdef, h1, h2]
    split
    · simp
    · simp only
      constructor
      · apply List.prod_pos
        intro p hp
        exact (Nat.prime_of_mem_primeFactorsList (List.mem_dedup.1 hp)).pos
      · have := List.Sublist.prod_dvd_prod (List.dedup_sublist num.primeFactorsList)
        rwa [Nat.prod_primeFactorsList hnum0.ne'] at this
  obtain ⟨hdpos, m, hm⟩ := hdown
  generalize (resampleFactorsNat fs sg).1 = up at *
  generalize (resampleFactorsNat fs sg).2 = down at *
  have hcopm : Nat.Coprime m den := Nat.Coprime.coprime_dvd_left ⟨down, by rw [hm]; ring⟩ hcop
  unfold MakesInteger
  constructor
  · rintro ⟨_, k, hk⟩
    have : den ∣ m * up := by
      refine ⟨k, ?_⟩
      have h3 : (g * down) * (m * up) = (g * down) * (den * k) := by
        calc (g * down) * (m * up) = (g * (down * m)) * up := by ring
          _ = fs * up := by rw [← hm, ← hnum]
          _ = k * (down * sg) := hk
          _ = k * (down * (g * den)) := by rw [← hden]
          _ = (g * down) * (den * k) := by ring
      exact Nat.eq_of_mul_eq_mul_left (by positivity) h3
    exact hcopm.symm.dvd_of_dvd_mul_left this
  · rintro ⟨k, hk⟩
    refine ⟨hdpos, m * k, ?_⟩
    calc fs * up = (g * num) * up := by rw [← hnum]
      _ = (g * (down * m)) * (den * k) := by rw [hm, hk]
      _ = m * k * (down * (g * den)) := by ring
      _ = m * k * (down * sg) := by rw [← hden]

/-- Partial form of the docstring promise: it holds when the reduced denominator of
`fs/sgfreq` is one or a prime. Missing: composite reduced denominators, where the promise is
false (`resample_claim_false`). -/
theorem resample_integer_partial (fs sg : ℕ) (hf : 0 < fs)
    (h : sg / Nat.gcd fs sg = 1 ∨ (sg / Nat.gcd fs sg).Prime) :
    MakesInteger fs sg (resampleFactorsNat fs sg).1 (resampleFactorsNat fs sg).2 := by
  rw [resample_integer_iff fs sg hf]
  rcases h with h | h
  · rw [h]; exact one_dvd _
  · unfold resampleFactorsNat
    have hd : (sg / Nat.gcd fs sg).primeFactorsList.dedup = [sg / Nat.gcd fs sg] := by
      rw [Nat.primeFactorsList_prime h]; rfl
    simp only [hd, List.min?_singleton]
    split_ifs
    · exact Dvd.intro_left _ rfl
    · exact Dvd.intro_left _ rfl

theorem resample_1250000_77 : resampleFactorsNat 1250000 77 = (7, 10) := by
  have h0 : Nat.gcd 1250000 77 = 1 := by norm_num
  have h1 : (1250000 : ℕ).primeFactorsList = [2, 2, 2, 2, 5, 5, 5, 5, 5, 5, 5] := by
    simp only [Nat.primeFactorsList_ofNat]
  have h2 : (77 : ℕ).primeFactorsList = [7, 11] := by simp only [Nat.primeFactorsList_ofNat]
  unfold resampleFactorsNat
  simp only [h0, Nat.div_one, h1, h2]
  rfl

/-- The docstring promise ("ensure that `fs`/`sgfreq` is an integer") is false: for a 1.25 MHz
sample rate and a 77 Hz signal generator the returned factors are `(7, 10)`. -/
theorem resample_claim_false :
    ¬ ∀ fs sg : ℕ, 0 < fs → 0 < sg →
      MakesInteger fs sg (resampleFactorsNat fs sg).1 (resampleFactorsNat fs sg).2 := by
  intro h
  have := h 1250000 77 (by norm_num) (by norm_num)
  rw [resample_integer_iff _ _ (by norm_num), resample_1250000_77] at this
  revert this; decide


/-- The hypotheses of the partial theorem are met, with a non-trivial answer. -/
example : resampleFactorsNat 15 6 = (4, 5) := by
  have h0 : Nat.gcd 15 6 = 3 := by norm_num
  have h1 : (5 : ℕ).primeFactorsList = [5] := by simp only [Nat.primeFactorsList_ofNat]
  have h2 : (2 : ℕ).primeFactorsList = [2] := by simp only [Nat.primeFactorsList_ofNat]
  unfold resampleFactorsNat
  simp only [h0, Nat.reduceDiv, h1, h2]
  rfl
example : 6 / Nat.gcd 15 6 = 1 ∨ (6 / Nat.gcd 15 6).Prime := by norm_num

/-! ## C03: `make_decreasing` -/

/-- `y[i]` is a strict running minimum of the input. -/
def IsRunningMin (pts : List (ℝ × ℝ)) (i : ℕ) (p : ℝ × ℝ) : Prop :=
  pts[i]? = some p ∧ ∀ j < i, ∀ q, pts[j]? = some q → p.2 < q.2

/-- With at least two interpolation nodes the result is defined everywhere and strictly
decreasing in `x`. -/
theorem makeDecreasing_strict (pts : List (ℝ × ℝ)) (hx : IncX pts) (h2 : 2 ≤ (kept pts).length) :
    ∃ out : List ℝ, makeDecreasing pts = out.map some ∧ out.length = pts.length ∧
      out.Pairwise (fun a b => b < a) := by
  have hsome := interpExtrap_isSome (kept pts) h2
  refine ⟨pts.map fun p => (Np.interpExtrap (kept pts) p.1).getD 0, ?_, by simp, ?_⟩
  · unfold makeDecreasing
    rw [List.map_map]
    apply List.map_congr_left
    intro p _
    obtain ⟨v, hv⟩ := hsome p.1
    simp [hv]
  · rw [List.pairwise_map]
    refine hx.imp ?_
    intro a b hab
    obtain ⟨v, hv⟩ := hsome a.1
    obtain ⟨w, hw⟩ := hsome b.1
    rw [hv, hw]
    exact interpExtrap_anti _ (kept_decPts pts hx) _ _ _ _ hab hv hw

/-- When the input values are non-zero and at least one later value goes below the first one,
there are at least two nodes, so `makeDecreasing_strict` applies. -/
theorem makeDecreasing_nodes (pts : List (ℝ × ℝ)) (hx : IncX pts) (h0 : ∀ p ∈ pts, p.2 ≠ 0)
    (p q : ℝ × ℝ) (hp : pts.head? = some p) (hq : q ∈ pts) (hqp : q.2 < p.2) :
    2 ≤ (kept pts).length := by
  cases pts with
  | nil => simp at hp
  | cons a rest =>
    simp only [List.head?_cons, Option.some.injEq] at hp
    subst hp
    have ha := h0 a (by simp)
    have hq' : q ∈ rest := by
      rcases List.mem_cons.1 hq with rfl | h
      · exact absurd hqp (lt_irrefl _)
      · exact h
    simp only [kept, ne_eq, ha, not_false_eq_true, if_true, List.length_cons]
    have hlist := keepDec_below rest a.2 (List.pairwise_cons.1 hx).2
      (fun r hr => h0 r (by simp [hr])) q hq'
    rcases hlist with h | ⟨k, hk, _⟩
    · linarith
    · have := List.length_pos_of_mem hk
      omega

/-- At a non-zero strict running minimum the result agrees with the input. -/
theorem makeDecreasing_agrees (pts : List (ℝ × ℝ)) (hx : IncX pts)
    (h2 : 2 ≤ (kept pts).length) (i : ℕ) (p : ℝ × ℝ) (h : IsRunningMin pts i p) (h0 : p.2 ≠ 0) :
    (makeDecreasing pts)[i]? = some (some p.2) := by
  obtain ⟨hi, hmin⟩ := h
  have hmem : p ∈ kept pts := by
    obtain ⟨hlt, hget⟩ := List.getElem?_eq_some_iff.1 hi
    have hsplit : pts = pts.take i ++ p :: pts.drop (i + 1) := by
      rw [← hget, List.cons_getElem_drop_succ, List.take_append_drop]
    rw [hsplit]
    apply kept_runmin _ _ _ _ h0
    intro q hq
    obtain ⟨j, hj, hjq⟩ := List.mem_iff_getElem.1 hq
    have hj' : j < i := by simp at hj; omega
    apply hmin j hj'
    rw [← hjq, List.getElem_take, List.getElem?_eq_getElem]
  simp [makeDecreasing, hi, interpExtrap_mem _ (kept_decPts pts hx) h2 p hmem]

/-- For non-zero input values the result never exceeds the input. -/
theorem makeDecreasing_le (pts : List (ℝ × ℝ)) (hx : IncX pts) (h0 : ∀ p ∈ pts, p.2 ≠ 0)
    (h2 : 2 ≤ (kept pts).length) (i : ℕ) (p : ℝ × ℝ) (hp : pts[i]? = some p) :
    ∃ v, (makeDecreasing pts)[i]? = some (some v) ∧ v ≤ p.2 := by
  obtain ⟨v, hv⟩ := interpExtrap_isSome (kept pts) h2 p.1
  refine ⟨v, by simp [makeDecreasing, hp, hv], ?_⟩
  obtain ⟨k, hk, h1, hle⟩ := kept_below pts hx h0 p (List.mem_of_getElem? hp)
  have hk' := interpExtrap_mem _ (kept_decPts pts hx) h2 k hk
  rcases h1.lt_or_eq with h1 | h1
  · exact (interpExtrap_anti _ (kept_decPts pts hx) _ _ _ _ h1 hk' hv).le.trans hle
  · rw [h1, hv, Option.some.injEq] at hk'
    exact hk'.le.trans hle

/-- Positivity of a power curve is not preserved: extrapolation beyond the last running minimum
goes negative. -/
theorem makeDecreasing_not_positive :
    ∃ pts : List (ℝ × ℝ), IncX pts ∧ (∀ p ∈ pts, 0 < p.2) ∧
      ∃ (i : ℕ) (v : ℝ), (makeDecreasing pts)[i]? = some (some v) ∧ v < 0 := by
  refine ⟨[(0, 10), (1, 1), (2, 5)], by simp [IncX], by simp, 2, -8, ?_, by norm_num⟩
  norm_num [makeDecreasing, kept, keepDec, Np.interpExtrap, Np.line]

example : makeDecreasing [(0, 10), (1, 1), (2, 5)] = [some 10, some 1, some (-8)] := by
  norm_num [makeDecreasing, kept, keepDec, Np.interpExtrap, Np.line]
example : IncX [(0, 10), (1, 1), (2, 5)] ∧ 2 ≤ (kept [(0, 10), (1, 1), (2, 5)]).length := by
  norm_num [IncX, kept, keepDec]

/-! ## C04: `slope` -/

/-- Sum of squared residuals of a straight line. -/
noncomputable def lineRes {n : ℕ} (x y : Fin n → ℝ) (a b : ℝ) : ℝ :=
  ∑ i, (y i - (a * x i + b)) ^ 2

/-- Decomposition of the residual of an arbitrary line around the least-squares one. -/
theorem lineRes_decomp {n : ℕ} (x y : Fin n → ℝ) (hx : ∃ i j, x i ≠ x j) (a b : ℝ) :
    lineRes x y a b =
      lineRes x y (slope x y true) ((∑ i, y i) / n - slope x y true * ((∑ i, x i) / n)) +
      (a - slope x y true) ^ 2 * (∑ i, (x i - (∑ i, x i) / n) ^ 2) +
      n * (b - ((∑ i, y i) / n - a * ((∑ i, x i) / n))) ^ 2 := by
  have hn : 0 < n := by obtain ⟨i, _, _⟩ := hx; exact Fin.pos i
  have hS := sxx_pos x hx ((∑ i, x i) / n)
  have hs := slope_centered x y hn
  have h1 := sum_centered x hn
  have h2 := sum_centered y hn
  rw [eq_div_iff hS.ne'] at hs
  generalize slope x y true = s at *
  generalize (∑ i, x i) / (n : ℝ) = xm at *
  generalize (∑ i, y i) / (n : ℝ) = ym at *
  unfold lineRes
  have e : ∀ a b : ℝ, ∑ i, (y i - (a * x i + b)) ^ 2 =
      (∑ i, (y i - ym) ^ 2) + a ^ 2 * (∑ i, (x i - xm) ^ 2) + n * (ym - a * xm - b) ^ 2
      - 2 * a * (∑ i, (x i - xm) * (y i - ym)) := by
    intro a b
    have : ∀ i, (y i - (a * x i + b)) ^ 2 = (y i - ym) ^ 2 + a ^ 2 * (x i - xm) ^ 2
        + (ym - a * xm - b) ^ 2 - 2 * a * ((x i - xm) * (y i - ym))
        + 2 * (ym - a * xm - b) * (y i - ym) - 2 * a * (ym - a * xm - b) * (x i - xm) :=
      fun i => by ring
    simp_rw [this]
    simp only [Finset.sum_add_distrib, Finset.sum_sub_distrib, ← Finset.mul_sum, h1, h2,
      Finset.sum_const, Finset.card_univ, Fintype.card_fin, nsmul_eq_mul]
    ring
  rw [e a b, e s _]
  linear_combination (2 * a - 2 * s) * hs

/-- `slope(x, y)` is the slope of the least-squares line: no line has a smaller residual. -/
theorem slope_optimal {n : ℕ} (x y : Fin n → ℝ) (hx : ∃ i j, x i ≠ x j) :
    ∃ c, ∀ a b, lineRes x y (slope x y true) c ≤ lineRes x y a b := by
  refine ⟨(∑ i, y i) / n - slope x y true * ((∑ i, x i) / n), fun a b => ?_⟩
  rw [lineRes_decomp x y hx a b]
  have := sxx_pos x hx ((∑ i, x i) / n)
  have h1 := mul_nonneg (sq_nonneg (a - slope x y true)) this.le
  have h2 : 0 ≤ (n : ℝ) * (b - ((∑ i, y i) / n - a * ((∑ i, x i) / n))) ^ 2 := by positivity
  linarith

/-- ... and it is the only such slope. -/
theorem slope_unique {n : ℕ} (x y : Fin n → ℝ) (hx : ∃ i j, x i ≠ x j) (a b : ℝ)
    (hmin : ∀ a' b', lineRes x y a b ≤ lineRes x y a' b') : a = slope x y true := by
  have h := hmin (slope x y true) ((∑ i, y i) / n - slope x y true * ((∑ i, x i) / n))
  rw [lineRes_decomp x y hx a b] at h
  have hS := sxx_pos x hx ((∑ i, x i) / n)
  have h2 : 0 ≤ (n : ℝ) * (b - ((∑ i, y i) / n - a * ((∑ i, x i) / n))) ^ 2 := by positivity
  have h3 : (a - slope x y true) ^ 2 ≤ 0 := by
    by_contra h4
    push Not at h4
    nlinarith [mul_pos h4 hS]
  nlinarith [sq_nonneg (a - slope x y true), pow_eq_zero_iff (two_ne_zero) |>.1
    (le_antisymm h3 (sq_nonneg (a - slope x y true)))]

/-- Affine data are reproduced exactly. -/
theorem slope_affine {n : ℕ} (x : Fin n → ℝ) (hx : ∃ i j, x i ≠ x j) (a b : ℝ) :
    slope x (fun i => a * x i + b) true = a := by
  symm
  apply slope_unique _ _ hx a b
  intro a' b'
  have : lineRes x (fun i => a * x i + b) a b = 0 := by simp [lineRes]
  rw [this]
  exact Finset.sum_nonneg fun i _ => sq_nonneg _

/-- Adding a constant to the data or shifting the time axis leaves the slope unchanged. -/
theorem slope_translation {n : ℕ} (x y : Fin n → ℝ) (hn : 0 < n) (c d : ℝ) :
    slope (fun i => x i + d) (fun i => y i + c) true = slope x y true := by
  rw [slope_centered _ _ hn, slope_centered _ _ hn]
  have hn' : (n : ℝ) ≠ 0 := by exact_mod_cast hn.ne'
  have e : ∀ (z : Fin n → ℝ) (c : ℝ), (∑ i, (z i + c)) / n = (∑ i, z i) / n + c := by
    intro z c
    rw [Finset.sum_add_distrib, Finset.sum_const, Finset.card_univ, Fintype.card_fin, nsmul_eq_mul]
    field_simp
  simp only [e, add_sub_add_right_eq_sub]

/-- The slope is linear in the data. -/
theorem slope_linear {n : ℕ} (x y z : Fin n → ℝ) (hn : 0 < n) (c d : ℝ) :
    slope x (fun i => c * y i + d * z i) true = c * slope x y true + d * slope x z true := by
  rw [slope_centered _ _ hn, slope_centered _ _ hn, slope_centered _ _ hn, ← mul_div_assoc,
    ← mul_div_assoc, ← add_div, Finset.mul_sum, Finset.mul_sum, ← Finset.sum_add_distrib]
  congr 1
  apply Finset.sum_congr rfl
  intro i _
  rw [Finset.sum_add_distrib, ← Finset.mul_sum, ← Finset.mul_sum]
  ring

/-- Without mean removal the slope is that of the least-squares line through the origin. -/
theorem slope_noremove {n : ℕ} (x y : Fin n → ℝ) (hx : ∃ i, x i ≠ 0) (a : ℝ) :
    lineRes x y (slope x y false) 0 ≤ lineRes x y a 0 := by
  have hS : 0 < ∑ i, (x i) ^ 2 := by
    obtain ⟨k, hk⟩ := hx
    exact Finset.sum_pos' (fun i _ => sq_nonneg _) ⟨k, Finset.mem_univ _, by positivity⟩
  have hs : slope x y false = (∑ i, x i * y i) / ∑ i, (x i) ^ 2 := by simp [slope]
  rw [eq_div_iff hS.ne'] at hs
  generalize slope x y false = s at *
  have e : ∀ a : ℝ, lineRes x y a 0 = (∑ i, (y i) ^ 2) + a ^ 2 * (∑ i, (x i) ^ 2)
      - 2 * a * ∑ i, x i * y i := by
    intro a
    unfold lineRes
    simp only [Finset.mul_sum, ← Finset.sum_add_distrib, ← Finset.sum_sub_distrib]
    exact Finset.sum_congr rfl fun i _ => by ring
  rw [e, e, ← hs]
  nlinarith [mul_nonneg (sq_nonneg (a - s)) hS.le]

example : (∃ i j, (![0, 1, 2] : Fin 3 → ℝ) i ≠ ![0, 1, 2] j) ∧
    slope (![0, 1, 2] : Fin 3 → ℝ) ![5, 6, 9] true = 2 := by
  refine ⟨⟨0, 1, by simp⟩, ?_⟩
  norm_num [slope, Fin.sum_univ_succ]

/-! ## C05: `fill_negatives` -/

/-- The result has the same length. -/
theorem fillNegatives_length (arr : List ℝ) : (fillNegatives arr).length = arr.length := by
  unfold fillNegatives
  simp only []
  split_ifs <;> simp

/-- Positive entries are untouched. -/
theorem fillNegatives_preserves (arr : List ℝ) (i : ℕ) (v : ℝ) (h : arr[i]? = some v)
    (hv : 0 < v) : (fillNegatives arr)[i]? = some v := by
  rw [fillNegatives_getElem?, h]
  simp [not_le.2 hv]

/-- Nothing happens when no entry is positive. -/
theorem fillNegatives_none (arr : List ℝ) (h : ∀ v ∈ arr, v ≤ 0) : fillNegatives arr = arr := by
  apply List.ext_getElem?
  intro i
  rw [fillNegatives_getElem?, if_pos ((goodPts_nil_iff arr).2 h)]

/-- As soon as one entry is positive the whole result is positive. -/
theorem fillNegatives_pos (arr : List ℝ) (h : ∃ v ∈ arr, 0 < v) :
    ∀ v ∈ fillNegatives arr, 0 < v := by
  intro v hv
  obtain ⟨i, hi⟩ := List.mem_iff_getElem?.1 hv
  have hne : goodPts arr ≠ [] := by
    rw [Ne, goodPts_nil_iff]; push Not; exact h
  rw [fillNegatives_getElem?, if_neg hne] at hi
  cases hai : arr[i]? with
  | none => simp [hai] at hi
  | some a =>
    rw [hai, Option.map_some, Option.some.injEq] at hi
    split_ifs at hi with ha
    · obtain ⟨w, hw⟩ := interp_isSome _ hne (i : ℝ)
      rw [hw, Option.getD_some] at hi
      subst hi
      -- lower bound: the smallest positive entry
      obtain ⟨lo, hlo, hmin⟩ : ∃ lo : ℝ, 0 < lo ∧ ∀ p ∈ goodPts arr, lo ≤ p.2 := by
        have : ∀ l : List (ℝ × ℝ), (∀ p ∈ l, 0 < p.2) → ∃ lo : ℝ, 0 < lo ∧ ∀ p ∈ l, lo ≤ p.2 := by
          intro l
          induction l with
          | nil => exact fun _ => ⟨1, one_pos, by simp⟩
          | cons p l ih =>
            intro hp
            obtain ⟨lo, h1, h2⟩ := ih (fun q hq => hp q (by simp [hq]))
            refine ⟨min lo p.2, lt_min h1 (hp p (by simp)), ?_⟩
            intro q hq
            rcases List.mem_cons.1 hq with rfl | hq
            · exact min_le_right _ _
            · exact (min_le_left _ _).trans (h2 q hq)
        exact this _ (goodPts_pos arr)
      obtain ⟨hi, hmax⟩ : ∃ hi : ℝ, ∀ p ∈ goodPts arr, p.2 ≤ hi := by
        have : ∀ l : List (ℝ × ℝ), ∃ hi : ℝ, ∀ p ∈ l, p.2 ≤ hi := by
          intro l
          induction l with
          | nil => exact ⟨0, by simp⟩
          | cons p l ih =>
            obtain ⟨hi, h2⟩ := ih
            refine ⟨max hi p.2, ?_⟩
            intro q hq
            rcases List.mem_cons.1 hq with rfl | hq
            · exact le_max_right _ _
            · exact (h2 q hq).trans (le_max_left _ _)
        exact this _
      have := (interp_between _ (goodPts_incX arr) _ _ lo hi hw
        (fun p hp => ⟨hmin p hp, hmax p hp⟩)).1
      linarith
    · subst hi; exact not_le.1 ha

/-- Applying the function twice changes nothing. -/
theorem fillNegatives_idem (arr : List ℝ) :
    fillNegatives (fillNegatives arr) = fillNegatives arr := by
  by_cases h : ∃ v ∈ arr, 0 < v
  · have hpos := fillNegatives_pos arr h
    apply List.ext_getElem?
    intro i
    cases hi : (fillNegatives arr)[i]? with
    | none =>
      rw [List.getElem?_eq_none_iff] at hi ⊢
      rwa [fillNegatives_length]
    | some v => exact fillNegatives_preserves _ _ _ hi (hpos v (List.mem_of_getElem? hi))
  · push Not at h
    rw [fillNegatives_none arr h, fillNegatives_none arr h]

/-- A non-positive entry strictly between its nearest positive neighbours `j` and `k` becomes the
linear interpolation of those two. -/
theorem fillNegatives_interior (arr : List ℝ) (i j k : ℕ) (a b v : ℝ) (hij : j < i) (hik : i < k)
    (hj : arr[j]? = some a) (hk : arr[k]? = some b) (ha : 0 < a) (hb : 0 < b)
    (hbetween : ∀ m w, j < m → m < k → arr[m]? = some w → w ≤ 0) (hv : arr[i]? = some v) :
    (fillNegatives arr)[i]? = some (a + (b - a) * ((i : ℝ) - j) / ((k : ℝ) - j)) := by
  have hjm : ((j : ℝ), a) ∈ goodPts arr := (mem_goodPts _ _).2 ⟨j, rfl, hj, ha⟩
  have hkm : ((k : ℝ), b) ∈ goodPts arr := (mem_goodPts _ _).2 ⟨k, rfl, hk, hb⟩
  have hjk : (j : ℝ) < k := by exact_mod_cast hij.trans hik
  obtain ⟨l1, l2, hl⟩ := adjacent_split _ (goodPts_incX arr) _ _ hjm hkm hjk (by
    rintro r hr ⟨h1, h2⟩
    obtain ⟨m, hm, hm2, hm3⟩ := (mem_goodPts _ _).1 hr
    rw [hm] at h1 h2
    simp only [Nat.cast_lt] at h1 h2
    have := hbetween m r.2 h1 h2 hm2
    linarith)
  have hne : goodPts arr ≠ [] := List.ne_nil_of_mem hjm
  have hx := goodPts_incX arr
  rw [fillNegatives_getElem?, if_neg hne, hv, Option.map_some, if_pos (hbetween i v hij hik hv)]
  rw [hl] at hx ⊢
  have hij' : (j : ℝ) < i := by exact_mod_cast hij
  have hik' : (i : ℝ) ≤ k := by exact_mod_cast hik.le
  rw [interp_segment _ _ _ _ hx _ hij' hik', Option.getD_some]
  simp only [Np.line]
  congr 1; ring

/-- Before the first positive entry the result is constant. -/
theorem fillNegatives_left (arr : List ℝ) (i k : ℕ) (b v : ℝ) (hik : i < k)
    (hk : arr[k]? = some b) (hb : 0 < b) (hbefore : ∀ m w, m < k → arr[m]? = some w → w ≤ 0)
    (hv : arr[i]? = some v) : (fillNegatives arr)[i]? = some b := by
  have hkm : ((k : ℝ), b) ∈ goodPts arr := (mem_goodPts _ _).2 ⟨k, rfl, hk, hb⟩
  obtain ⟨l2, hl⟩ := first_split _ (goodPts_incX arr) _ hkm (by
    intro r hr h1
    obtain ⟨m, hm, hm2, hm3⟩ := (mem_goodPts _ _).1 hr
    rw [hm] at h1
    simp only [Nat.cast_lt] at h1
    linarith [hbefore m r.2 h1 hm2])
  rw [fillNegatives_getElem?, if_neg (List.ne_nil_of_mem hkm), hv, Option.map_some,
    if_pos (hbefore i v hik hv), hl, interp_left _ _ _ (Nat.cast_le.2 hik.le), Option.getD_some]

/-- After the last positive entry the result is constant. -/
theorem fillNegatives_right (arr : List ℝ) (i j : ℕ) (a v : ℝ) (hij : j < i)
    (hj : arr[j]? = some a) (ha : 0 < a) (hafter : ∀ m w, j < m → arr[m]? = some w → w ≤ 0)
    (hv : arr[i]? = some v) : (fillNegatives arr)[i]? = some a := by
  have hjm : ((j : ℝ), a) ∈ goodPts arr := (mem_goodPts _ _).2 ⟨j, rfl, hj, ha⟩
  have hx := goodPts_incX arr
  obtain ⟨l1, hl⟩ := last_split _ hx _ hjm (by
    intro r hr h1
    obtain ⟨m, hm, hm2, hm3⟩ := (mem_goodPts _ _).1 hr
    rw [hm] at h1
    simp only [Nat.cast_lt] at h1
    linarith [hafter m r.2 h1 hm2])
  rw [fillNegatives_getElem?, if_neg (List.ne_nil_of_mem hjm), hv, Option.map_some,
    if_pos (hafter i v hij hv)]
  rw [hl] at hx ⊢
  rw [interp_right _ _ hx _ (Nat.cast_lt.2 hij), Option.getD_some]

example : (fillNegatives [-1, 4, -2, 0, 1, -3])[3]? = some 2 := by
  rw [fillNegatives_interior [-1, 4, -2, 0, 1, -3] 3 1 4 4 1 0 (by norm_num) (by norm_num) rfl rfl
    (by norm_num) (by norm_num) ?_ rfl]
  · norm_num
  · intro m w h1 h2 h
    interval_cases m <;> simp at h <;> linarith

/-! ## C06: muon offset and power trace -/

/-- Power dissipated in the TES: with total current `I` the TES voltage is `V - R_load I`. -/
theorem powertrace_law (trace ioffset qetbias rload rsh : ℝ) :
    powertraceSimple trace ioffset qetbias rload rsh =
      (trace - ioffset) * (qetbias * rsh - rload * (trace - ioffset)) := by
  simp only [powertraceSimple]; ring

/-- Whatever the average pulse looks like, the returned quantities are consistent with each
other: Ohm's law, `p0 = i0² r0`, and the power trace at the measured baseline with the returned
offset is `p0`. -/
theorem muon_consistent (avemuon : List ℝ) (qetbias rn rload rsh : ℝ) (nb : ℤ) (out : MuonOut)
    (h : getOffsetFromMuon avemuon qetbias rn rload rsh nb = .ok out) (hi0 : out.i0 ≠ 0)
    (hr : rload + rn ≠ 0) :
    qetbias * rsh = out.i0 * (out.r0 + rload) ∧ out.p0 = out.i0 ^ 2 * out.r0 ∧
      ∃ b, Np.mean (Np.sliceTo avemuon nb) = some b ∧
        powertraceSimple b out.ioffset qetbias rload rsh = out.p0 := by
  have hr' : rn + rload ≠ 0 := by rwa [add_comm]
  unfold getOffsetFromMuon at h
  cases avemuon with
  | nil => simp at h
  | cons a rest =>
    simp only at h
    split at h
    · rename_i b s hb hs
      simp only [Except.ok.injEq] at h
      subst h
      simp only [muonFromMeans] at hi0 ⊢
      have hV : qetbias * rsh / (rload + rn) * (rn + rload) = qetbias * rsh := by
        rw [add_comm rn, div_mul_cancel₀ _ hr]
      rw [hV]
      generalize qetbias * rsh / (rload + rn) - (s - b) = i0 at *
      refine ⟨by field_simp; ring, by field_simp, b, hb, ?_⟩
      simp only [powertraceSimple]; ring
    · simp at h

/-- A saturating muon pulse determines the offset exactly.  Let the TES sit at quiescent current
`i0`, go normal during the plateau, and let the measured trace be the true current plus an unknown
offset `off`.  Whatever happens between the baseline and the plateau (`mid`) and after the plateau
(`tail`), the function returns `off`, `i0`, the resistance `V/i0 - R_load` and the power
`i0² r0`. -/
theorem muon_recovers (nb m : ℕ) (mid tail : List ℝ) (off i0 qetbias rn rload rsh : ℝ)
    (hnb : 0 < nb) (hm : 200 ≤ m) (hi0 : i0 ≠ 0) (hr : rload + rn ≠ 0)
    (hlt : i0 < qetbias * rsh / (rload + rn))
    (hmid : ∀ v ∈ mid, v < qetbias * rsh / (rload + rn) + off)
    (htail : ∀ v ∈ tail, v ≤ qetbias * rsh / (rload + rn) + off) :
    ∃ out, getOffsetFromMuon (List.replicate nb (i0 + off) ++ mid ++
        List.replicate m (qetbias * rsh / (rload + rn) + off) ++ tail) qetbias rn rload rsh nb
        = .ok out ∧
      out.ioffset = off ∧ out.i0 = i0 ∧ out.r0 = qetbias * rsh / i0 - rload ∧
      out.p0 = i0 ^ 2 * out.r0 ∧
      powertraceSimple (i0 + off) out.ioffset qetbias rload rsh = out.p0 := by
  set s := qetbias * rsh / (rload + rn) + off with hs
  obtain ⟨nb, rfl⟩ : ∃ k, nb = k + 1 := ⟨nb - 1, by omega⟩
  obtain ⟨m, rfl⟩ : ∃ k, m = k + 1 := ⟨m - 1, by omega⟩
  set arr := List.replicate (nb + 1) (i0 + off) ++ mid ++ List.replicate (m + 1) s ++ tail with harr
  have harr' : arr = (i0 + off) :: ((List.replicate nb (i0 + off) ++ mid) ++
      s :: (List.replicate m s ++ tail)) := by
    rw [harr]; simp [List.replicate_succ, List.append_assoc]
  have hpeak : argmaxGo 0 (i0 + off) 1 ((List.replicate nb (i0 + off) ++ mid) ++
      s :: (List.replicate m s ++ tail)) = nb + 1 + mid.length := by
    rw [argmaxGo_split]
    · simp; try omega
    · intro v hv
      rcases List.mem_append.1 hv with h | h
      · rw [List.eq_of_mem_replicate h]
      · exact htail v h
    · rw [hs]; linarith
    · intro v hv
      rcases List.mem_append.1 hv with h | h
      · rw [List.eq_of_mem_replicate h, hs]; linarith
      · exact hmid v h
  have h1 : Np.sliceTo arr ((nb + 1 : ℕ) : ℤ) = List.replicate (nb + 1) (i0 + off) := by
    unfold Np.sliceTo Np.clipIdx
    rw [if_pos (by omega)]
    have : min ((nb + 1 : ℕ) : ℤ).toNat arr.length = nb + 1 := by
      rw [harr]; simp
    rw [this, harr, List.append_assoc, List.append_assoc]
    rw [List.take_append_of_le_length (by simp), List.take_of_length_le (by simp)]
  have h2 : (arr.drop (nb + 1 + mid.length)).take 200 = List.replicate 200 s := by
    rw [harr, List.append_assoc]
    rw [List.drop_append_of_le_length (by simp)]
    rw [List.drop_eq_nil_of_le (by simp), List.nil_append,
      List.take_append_of_le_length (by simp; omega), List.take_replicate]
    congr 1; omega
  refine ⟨muonFromMeans (i0 + off) s qetbias rn rload rsh, ?_, ?_⟩
  · unfold getOffsetFromMuon
    rw [harr']
    simp only [hpeak]
    rw [← harr', h1, h2, mean_replicate _ (by omega), mean_replicate _ (by norm_num)]
  · have hi : qetbias * rsh / (rload + rn) - (s - (i0 + off)) = i0 := by rw [hs]; ring
    have hV : qetbias * rsh / (rload + rn) * (rn + rload) = qetbias * rsh := by
      rw [add_comm rn, div_mul_cancel₀ _ hr]
    simp only [muonFromMeans, hi, hV, powertraceSimple]
    refine ⟨by ring, trivial, trivial, ?_, ?_⟩
    · field_simp
    · ring

/-- The hypotheses describe a realistic pulse. -/
example : (1 : ℝ) ≠ 0 ∧ (1 : ℝ) + 1 ≠ 0 ∧ (1 : ℝ) < 4 * 1 / (1 + 1) ∧
    (∀ v ∈ ([1.5] : List ℝ), v < 4 * 1 / (1 + 1) + 0) := by norm_num

/-! ## C07: `energy_absorbed` -/

/-- Neither `fs` nor `time`: ValueError, whatever the baseline. -/
theorem energy_needs_time (e : ℝ) (trace : List ℝ) (ioff qb rl rsh : ℝ) (base : Option ℝ)
    (pre post : Option ℤ) :
    energyAbsorbed e trace ioff qb rl rsh none base none pre post = .error .valueError := by
  cases base <;> cases pre <;> rfl

/-- No baseline and no pre-pulse index: ValueError. -/
theorem energy_needs_baseline (e : ℝ) (trace : List ℝ) (ioff qb rl rsh : ℝ) (fs : Option ℝ)
    (time : Option (List ℝ)) (post : Option ℤ) :
    energyAbsorbed e trace ioff qb rl rsh fs none time none post = .error .valueError := rfl

/-- Regular time stamps `t0, t0 + 1/fs, t0 + 2/fs, ...`. -/
noncomputable def timeAxis (fs t0 : ℝ) (n : ℕ) : List ℝ :=
  (List.range n).map fun (k : ℕ) => t0 + (k : ℝ) / fs

/-- Giving `fs` and giving the corresponding time stamps produce the same energy. -/
theorem energy_fs_time (e : ℝ) (trace : List ℝ) (ioff qb rl rsh fs t0 : ℝ) (base : Option ℝ)
    (pre post : Option ℤ) :
    energyAbsorbed e trace ioff qb rl rsh none base (some (timeAxis fs t0 trace.length)) pre post =
      energyAbsorbed e trace ioff qb rl rsh (some fs) base none pre post := by
  have key : ∀ b, Np.trapz (timeAxis fs t0 trace.length) (trace.map fun s =>
      powertraceSimple b ioff qb rl rsh - powertraceSimple s ioff qb rl rsh) =
      .ok (Np.trapz1 (trace.map fun s =>
      powertraceSimple b ioff qb rl rsh - powertraceSimple s ioff qb rl rsh) / fs) := by
    intro b
    have := trapz_grid fs t0 (trace.map fun s =>
      powertraceSimple b ioff qb rl rsh - powertraceSimple s ioff qb rl rsh)
    rwa [List.length_map] at this
  unfold energyAbsorbed
  have hlen : (timeAxis fs t0 trace.length).length = trace.length := by simp [timeAxis]
  simp only [key, hlen]
  split <;> simp [div_div]

/-- A trace that never leaves its baseline has no absorbed energy, however the baseline is
obtained. -/
theorem energy_baseline_zero (e : ℝ) (n : ℕ) (b ioff qb rl rsh fs : ℝ) (pre post : Option ℤ) :
    energyAbsorbed e (List.replicate n b) ioff qb rl rsh (some fs) (some b) none pre post = .ok 0 := by
  unfold energyAbsorbed
  simp only [List.map_replicate, Option.getD_some, sub_self]
  have := trapz1_map_zero (List.replicate n 0)
  rw [List.map_replicate] at this
  rw [this]; simp

theorem energy_baseline_zero_measured (e : ℝ) (n : ℕ) (b ioff qb rl rsh fs : ℝ) (i : ℤ)
    (h : 0 < i) (hn : 0 < n) :
    energyAbsorbed e (List.replicate n b) ioff qb rl rsh (some fs) none none (some i) none
      = .ok 0 := by
  have h1 : Np.mean (Np.sliceTo (List.replicate n b) i) = some b := by
    unfold Np.sliceTo
    rw [List.take_replicate]
    apply mean_replicate
    unfold Np.clipIdx
    rw [if_pos h.le]
    simp; omega
  have h2 := energy_baseline_zero e n b ioff qb rl rsh fs none none
  unfold energyAbsorbed at h2 ⊢
  simp only [h1] at h2 ⊢
  exact h2

/-- The baseline is the mean of the samples before `indbasepre` and, when it is given, from
`indbasepost` on: nothing in between counts. -/
theorem energy_baseline_measured (e : ℝ) (a mid c : List ℝ) (ioff qb rl rsh : ℝ) (fs : Option ℝ)
    (time : Option (List ℝ)) (ha : a ≠ []) :
    energyAbsorbed e (a ++ mid ++ c) ioff qb rl rsh fs none time (some a.length) none =
      energyAbsorbed e (a ++ mid ++ c) ioff qb rl rsh fs (some (a.sum / a.length)) time none none ∧
    energyAbsorbed e (a ++ mid ++ c) ioff qb rl rsh fs none time (some a.length)
        (some (a.length + mid.length : ℕ)) =
      energyAbsorbed e (a ++ mid ++ c) ioff qb rl rsh fs
        (some ((a.sum + c.sum) / (a.length + c.length))) time none none := by
  have h1 : Np.sliceTo (a ++ mid ++ c) (a.length : ℤ) = a := by
    unfold Np.sliceTo Np.clipIdx
    rw [if_pos (by omega), List.append_assoc]
    rw [List.take_append_of_le_length (by simp)]
    simp
  have h2 : Np.sliceFrom (a ++ mid ++ c) ((a.length + mid.length : ℕ) : ℤ) = c := by
    unfold Np.sliceFrom Np.clipIdx
    rw [if_pos (by omega), Int.toNat_natCast, min_eq_left (by simp), ← List.length_append,
      List.drop_left]
  constructor
  · unfold energyAbsorbed
    simp only [h1, Np.mean, if_neg ha]
  · unfold energyAbsorbed
    simp only [h1, h2]
    simp only [Np.mean, List.append_eq_nil_iff, ha, false_and, if_false, List.sum_append,
      List.length_append, Nat.cast_add]

/-- Non-vacuity: one sample before and one after a pulse. -/
example : energyAbsorbed 1 [0, 5, 2] 0 1 0 1 (some 1) none none (some 1) (some 2) =
    energyAbsorbed 1 [0, 5, 2] 0 1 0 1 (some 1) (some 1) none none none := by
  have := (energy_baseline_measured 1 [0] [5] [2] 0 1 0 1 (some 1) none (by simp)).2
  norm_num at this
  simpa using this

/-- **C07** without short arrays: more than two time stamps for a trace of more than two samples are
refused if their number is another. -/
theorem energy_time_length_partial (e : ℝ) (trace t : List ℝ) (ioff qb rl rsh b : ℝ)
    (pre post : Option ℤ) (h : t.length ≠ trace.length) (ht : 2 < t.length) (hn : 2 < trace.length) :
    energyAbsorbed e trace ioff qb rl rsh none (some b) (some t) pre post = .error .valueError := by
  unfold energyAbsorbed
  simp only
  rw [trapz_length (by simpa using h) ht (by simpa using hn)]

example : ([0, 1, 2, 3] : List ℝ).length ≠ ([5, 6, 7] : List ℝ).length ∧
    2 < ([0, 1, 2, 3] : List ℝ).length ∧ 2 < ([5, 6, 7] : List ℝ).length := by simp

/-- Contrary to C07 two time stamps are accepted for a trace of any length: their difference is taken
as the sampling interval.  A user who gives the first and the last time gets, instead of a ValueError,
the energy as if the duration of the trace were the time between two samples. -/
theorem energy_two_times_violated (e : ℝ) (trace : List ℝ) (ioff qb rl rsh t0 t1 b : ℝ)
    (pre post : Option ℤ) (ht : t0 < t1) :
    energyAbsorbed e trace ioff qb rl rsh none (some b) (some [t0, t1]) pre post =
      energyAbsorbed e trace ioff qb rl rsh (some (1 / (t1 - t0))) (some b) none pre post := by
  unfold energyAbsorbed
  simp only
  rw [trapz_two]
  have := (sub_pos.2 ht).ne'
  simp only [reduceCtorEq, false_and, if_false]
  field_simp

/-- Likewise two samples are accepted with any time stamps: the mean power is taken over their whole
range. -/
theorem energy_two_samples_violated (e : ℝ) (a c : ℝ) (t : List ℝ) (ioff qb rl rsh b : ℝ)
    (pre post : Option ℤ) (t0 t1 : ℝ) (h0 : t.head? = some t0) (h1 : t.getLast? = some t1) :
    energyAbsorbed e [a, c] ioff qb rl rsh none (some b) (some t) pre post =
      energyAbsorbed e [a, c] ioff qb rl rsh none (some b) (some [t0, t1]) pre post := by
  unfold energyAbsorbed
  simp only [List.map_cons, List.map_nil]
  rw [trapz_two_samples h0 h1]
  simp only [reduceCtorEq, false_and, if_false]

example : ∃ v, energyAbsorbed 1 [0, 1, 0, 0] 0 1 0 1 none (some 0) (some [0, 3]) none none = .ok v ∧
    energyAbsorbed 1 [0, 1, 0, 0] 0 1 0 1 none (some 0) (some [0, 1, 2, 3]) none none = .ok (v / 3) ∧
    v ≠ 0 := by
  refine ⟨-3, ?_, ?_, by norm_num⟩ <;> norm_num [energyAbsorbed, powertraceSimple, Np.trapz] <;> exact fun h => nomatch h

/-- A trace a constant current `d` away from its baseline for `n` sampling intervals: the energy is
the power difference times the duration `n / fs`, in units of `e`. -/
theorem energy_constant (e : ℝ) (n : ℕ) (b d ioff qb rl rsh fs : ℝ) (pre post : Option ℤ) :
    energyAbsorbed e (List.replicate (n + 1) (b + d)) ioff qb rl rsh (some fs) (some b) none pre post =
      .ok ((rl * d ^ 2 - d * (qb * rsh - 2 * rl * (b - ioff))) * (n / fs) / e) := by
  unfold energyAbsorbed
  simp only [List.map_replicate, trapz1_replicate, reduceCtorEq, false_and, if_false,
    Option.getD_some]
  congr 1
  have : powertraceSimple b ioff qb rl rsh - powertraceSimple (b + d) ioff qb rl rsh =
      rl * d ^ 2 - d * (qb * rsh - 2 * rl * (b - ioff)) := by simp only [powertraceSimple]; ring
  rw [this, mul_div_assoc', div_div, mul_comm (n : ℝ)]

/-- The integrand in terms of the deviation `d` from the baseline current `I0 = b - ioff`:
electrothermal feedback removes `d (V - 2 R_load I0)` and Joule heating in the load adds
`R_load d²`. -/
theorem energy_integrand (b d ioff qb rl rsh : ℝ) :
    powertraceSimple b ioff qb rl rsh - powertraceSimple (b + d) ioff qb rl rsh =
      rl * d ^ 2 - d * (qb * rsh - 2 * rl * (b - ioff)) := by
  simp only [powertraceSimple]; ring

example : energyAbsorbed 1 [0, 1, 0] 0 1 0 1 (some 2) (some 0) none none none
    = .ok (-(1 / 2)) := by
  norm_num [energyAbsorbed, powertraceSimple, Np.trapz1]
  exact fun h => nomatch h

/-! ## C08: `estimate_g` -/

/-- The thermal-conductance balance `G = n P T_c^{n-1} / (T_c^n - T_b^n)` is recovered from a
power law `P = K (T_c^n - T_b^n)` as `n K T_c^{n-1}`, the derivative `dP/dT_c`. -/
theorem estimateG_powerlaw (K n tc tb err : ℝ) (cov) (hne : tc ^ n ≠ tb ^ n) :
    (estimateG (K * (tc ^ n - tb ^ n)) tc tb err cov n).1 = n * K * tc ^ (n - 1) := by
  have h : tc ^ n - tb ^ n ≠ 0 := sub_ne_zero.2 hne
  have : (estimateG (K * (tc ^ n - tb ^ n)) tc tb err cov n).1 =
      gVal n (K * (tc ^ n - tb ^ n)) tc tb := by
    unfold estimateG; cases cov <;> rfl
  rw [this, gVal]; field_simp

theorem gVal_deriv_p (n p0 tc tb : ℝ) (hp : p0 ≠ 0) :
    HasDerivAt (fun p => gVal n p tc tb) (dgdp n p0 tc tb) p0 := by
  have h : HasDerivAt (fun p : ℝ => p * (n * tc ^ (n - 1) / (tc ^ n - tb ^ n)))
      (1 * (n * tc ^ (n - 1) / (tc ^ n - tb ^ n))) p0 := (hasDerivAt_id p0).mul_const _
  convert h using 1
  · funext p; simp only [gVal]; ring
  · simp only [dgdp, gVal]; field_simp

theorem gVal_deriv_tc (n p0 tc tb : ℝ) (htc : 0 < tc) (hne : tc ^ n ≠ tb ^ n) :
    HasDerivAt (fun t => gVal n p0 t tb) (dgdtc n p0 tc tb) tc := by
  have h : tc ^ n - tb ^ n ≠ 0 := sub_ne_zero.2 hne
  have h1 : HasDerivAt (fun t : ℝ => t ^ (n - 1)) ((n - 1) * tc ^ (n - 1 - 1)) tc :=
    Real.hasDerivAt_rpow_const (Or.inl htc.ne')
  have h2 : HasDerivAt (fun t : ℝ => t ^ n) (n * tc ^ (n - 1)) tc :=
    Real.hasDerivAt_rpow_const (Or.inl htc.ne')
  have h3 := (h1.const_mul (n * p0)).div (h2.sub_const (tb ^ n)) h
  refine h3.congr_deriv ?_
  have e : tc ^ (n - 1 - 1) = tc ^ (n - 1) / tc := by rw [Real.rpow_sub_one htc.ne']
  unfold dgdtc gVal
  rw [e]
  field_simp

theorem gVal_deriv_tb (n p0 tc tb : ℝ) (htb : 0 < tb) (hne : tc ^ n ≠ tb ^ n) :
    HasDerivAt (fun t => gVal n p0 tc t) (dgdtb n p0 tc tb) tb := by
  have h : tc ^ n - tb ^ n ≠ 0 := sub_ne_zero.2 hne
  have h2 : HasDerivAt (fun t : ℝ => t ^ n) (n * tb ^ (n - 1)) tb :=
    Real.hasDerivAt_rpow_const (Or.inl htb.ne')
  have h3 := (hasDerivAt_const tb (n * p0 * tc ^ (n - 1))).div (h2.const_sub (tc ^ n)) h
  refine h3.congr_deriv ?_
  unfold dgdtb gVal
  field_simp; ring

/-- With a covariance matrix, the returned error is first-order propagation `√(Jᵀ C J)` where `J`
is the true gradient of `g` at the given point. -/
theorem estimateG_error (n p0 tc tb err : ℝ) (c : Fin 3 → Fin 3 → ℝ) (hp : p0 ≠ 0) (htc : 0 < tc)
    (htb : 0 < tb) (hne : tc ^ n ≠ tb ^ n) :
    ∃ J : Fin 3 → ℝ, HasDerivAt (fun p => gVal n p tc tb) (J 0) p0 ∧
      HasDerivAt (fun t => gVal n p0 t tb) (J 1) tc ∧
      HasDerivAt (fun t => gVal n p0 tc t) (J 2) tb ∧
      (estimateG p0 tc tb err (some c) n).2 = Real.sqrt (∑ i, ∑ j, J i * c i j * J j) := by
  refine ⟨![dgdp n p0 tc tb, dgdtc n p0 tc tb, dgdtb n p0 tc tb], gVal_deriv_p n p0 tc tb hp,
    gVal_deriv_tc n p0 tc tb htc hne, gVal_deriv_tb n p0 tc tb htb hne, ?_⟩
  simp only [estimateG]
  congr 1
  simp [Fin.sum_univ_three]
  ring

/-- With only an error on `p0`, the returned error is `|∂g/∂p| · err`. -/
theorem estimateG_error_p (n p0 tc tb err : ℝ) (hp : p0 ≠ 0) :
    ∃ d, HasDerivAt (fun p => gVal n p tc tb) d p0 ∧
      (estimateG p0 tc tb err none n).2 = |d * err| := by
  refine ⟨_, gVal_deriv_p n p0 tc tb hp, ?_⟩
  simp only [estimateG, dgdp]
  congr 1; ring

example : (2 : ℝ) ≠ 0 ∧ (0 : ℝ) < 2 ∧ (0 : ℝ) < 1 ∧ (2 : ℝ) ^ (2 : ℝ) ≠ 1 ^ (2 : ℝ) := by
  norm_num

/-! ## C09: `calc_offset` -/

/-- dI/dV data: when the sampling resolves `p` bins per signal-generator period and every trace
is periodic, the offset equals the average over one period of the traces, whatever the number of
bins left over at the end. -/
theorem calcOffset_periodic (x : List (List ℝ)) (nbins p : ℕ) (fs sg : ℝ) (hsg : 0 < sg)
    (hfs : fs = p * sg) (hp : 0 < p) (hpn : p ≤ nbins)
    (hlen : ∀ t ∈ x, t.length = nbins)
    (hper : ∀ t ∈ x, ∀ i, i + p < nbins → t[i + p]? = t[i]?) (hx : x ≠ []) :
    calcOffset x nbins fs sg true =
      some ((x.map fun t => (t.take p).sum / (p : ℝ)).sum / x.length) := by
  have hp' : (p : ℝ) ≠ 0 := by exact_mod_cast hp.ne'
  have hb : 1 / sg * fs = p := by rw [hfs]; field_simp
  have hkeep : ⌊((⌊(nbins : ℝ) / p⌋₊ : ℕ) : ℝ) * p⌋₊ = nbins / p * p := by
    rw [Nat.floor_div_natCast, Nat.floor_natCast]
    have : ((nbins / p : ℕ) : ℝ) * p = ((nbins / p * p : ℕ) : ℝ) := by push_cast; ring
    rw [this, Nat.floor_natCast]
  have hm : 0 < nbins / p := Nat.div_pos hpn hp
  have hmp : nbins / p * p ≤ nbins := Nat.div_mul_le_self _ _
  have hmean : ∀ t ∈ x, Np.mean (t.take (nbins / p * p)) = some ((t.take p).sum / (p : ℝ)) := by
    intro t ht
    have hl := hlen t ht
    have hpos : 0 < nbins / p * p := Nat.mul_pos hm hp
    unfold Np.mean
    rw [if_neg (by
      intro h
      have := congrArg List.length h
      rw [List.length_take, hl, List.length_nil] at this
      omega)]
    rw [sum_take_periods t p (by rw [hl]; exact hper t ht) _ (by rw [hl]; exact hmp)]
    rw [List.length_take, hl, min_eq_left hmp]
    have hmr : ((nbins / p : ℕ) : ℝ) ≠ 0 := by exact_mod_cast hm.ne'
    push_cast
    congr 1
    field_simp
  unfold calcOffset
  simp only [if_true, hb, hkeep]
  have e : (x.map fun t => Np.mean (t.take (nbins / p * p))) =
      (x.map fun t => (t.take p).sum / (p : ℝ)).map some := by
    rw [List.map_map]
    exact List.map_congr_left fun t ht => hmean t ht
  rw [e]
  have e2 : ∀ l : List ℝ, (l.map some).mapM id = some l := by
    intro l
    induction l with
    | nil => rfl
    | cons a l ih => simp [List.mapM_cons, ih]
  rw [e2]
  simp [Np.mean, hx]

example : calcOffset [[1, 3, 1, 3, 1]] 5 4 2 true = some 2 := by
  rw [calcOffset_periodic [[1, 3, 1, 3, 1]] 5 2 4 2 (by norm_num) (by norm_num) (by norm_num)
    (by norm_num) (by simp) ?_ (by simp)]
  · norm_num
  · intro t ht i hi
    simp at ht
    subst ht
    have hi3 : i < 3 := by omega
    interval_cases i <;> rfl

end Verif.Utils
