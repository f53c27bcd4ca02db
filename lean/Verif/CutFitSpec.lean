import Verif.OFSpec
import Mathlib.Analysis.SpecialFunctions.Exp

/-!
What the pulse-height and chi-square stages of the automatic cuts are meant to look at, said without
the filter: the least-squares fit of a constant and a pulse of standard shape to the trace.
-/

namespace Verif.Cut

variable {n : ℕ} [NeZero n]

/-- `c` is `n / 2` rounded to the nearest integer, to the even one of two equally near. -/
def IsMiddle (n c : ℕ) : Prop := 2 * c = n ∨ ((2 * c = n + 1 ∨ 2 * c + 1 = n) ∧ 2 ∣ c)

/-- The pulse which starts at time 0, rises in 10 microseconds and falls in 100. -/
noncomputable def riseFall (t : ℝ) : ℝ :=
  if t ≤ 0 then 0
  else (1 - Real.exp (-(t / (10 / 1000000)))) * Real.exp (-(t / (100 / 1000000)))

/-- `T` is the standard pulse sampled at rate `fs`, started in the middle of the trace and scaled to
height one. -/
def IsPulse (fs : ℝ) (T : ZMod n → ℝ) : Prop :=
  ∃ c : ℕ, IsMiddle n c ∧ (∃ K > 0, ∀ i : ZMod n, T i = K * riseFall (((i.val : ℝ) + 1 - c) / fs)) ∧
    (∀ i, T i ≤ 1) ∧ ∃ i, T i = 1

/-- The sum of squares of what is left of the trace `x` after the pulse `T`, shifted by `d` samples
and scaled by `A`, and the constant `B` have been subtracted. -/
noncomputable def leftOver (T x : ZMod n → ℝ) (A : ℝ) (d : ZMod n) (B : ℝ) : ℝ :=
  ∑ j, (x j - A * T (j - d) - B) ^ 2

/-- `A` is the amplitude of a best fit of the pulse `T` and a constant to `x` and `χ` its sum of
squares divided by the sampling rate. -/
def BestFit (fs : ℝ) (T x : ZMod n → ℝ) (A χ : ℝ) : Prop :=
  (∃ d B, χ = leftOver T x A d B / fs) ∧ ∀ A' d' B', χ ≤ leftOver T x A' d' B' / fs

end Verif.Cut
