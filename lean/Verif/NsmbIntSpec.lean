import Mathlib.Data.Real.Basic

/-!
Specification of the interpolation between bins (C79): the parabola through three neighbouring
values.
-/

namespace Verif.Nsmb.Spec

/-- The parabola with values `y0`, `y1`, `y2` at `-1`, `0`, `1` bins. -/
noncomputable def quad (y0 y1 y2 s : ℝ) : ℝ := y1 + (y2 - y0) / 2 * s + (y0 + y2 - 2 * y1) / 2 * s ^ 2

end Verif.Nsmb.Spec
