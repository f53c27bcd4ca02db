import Mathlib.Data.Real.Basic

/-! What it means for one trace to be another one, delayed. -/

namespace Verif.Template

/-- A list continued by zeros in both directions. -/
noncomputable def ext (l : List ℝ) (j : ℤ) : ℝ := if 0 ≤ j then l.getD j.toNat 0 else 0

end Verif.Template
