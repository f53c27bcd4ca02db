import Verif.TemplateSpec
import Mathlib.Algebra.BigOperators.Group.Finset.Basic
import Mathlib.Algebra.BigOperators.Intervals
import Mathlib.Order.Interval.Finset.Nat
import Mathlib.Data.Int.Interval

/-! What is needed to say how much a trace may be disturbed before it is aligned wrongly. -/

namespace Verif.Template

/-- A trace without its mean. -/
noncomputable def centred (l : List ℝ) : List ℝ := l.map fun y => y - l.sum / l.length

/-- The overlap of a trace with itself moved by `e` bins, zeros outside. -/
noncomputable def overlap (v : List ℝ) (e : ℤ) : ℝ := ∑ j ∈ Finset.range v.length, ext v j * ext v (j + e)

/-- The energy of what distinguishes `u` from `v` delayed by `d` bins; samples of `v` moved out of the window count as well. -/
noncomputable def disturbance (v u : List ℝ) (d : ℤ) : ℝ :=
  ∑ m ∈ Finset.Ico (-(v.length : ℤ)) (2 * v.length), (ext u m - ext v (m - d)) ^ 2

end Verif.Template
