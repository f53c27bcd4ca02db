import Verif.Np
import Mathlib.Analysis.Real.Sqrt

/-!
`scipy.optimize.curve_fit(line, x, y, sigma=σ, absolute_sigma=True)` for the two-parameter models
`line(x, b, m) = m*x + b` (`_iv.py` lines 16-36) and `linear_func(x, m, b) = m*x + b`
(`_ibis.py`): the weighted least-squares line in closed form and its covariance matrix.

Library behaviour (DESIGN.md section 3): no data or a `nan` raises ValueError, fewer points than
parameters raises TypeError.  A zero error bar, or abscissae which are all equal, leave the minimiser
undetermined; these cases are `nan`.
-/

namespace Verif.LineFit
open Verif

/-- A data point `(x, y)` with error bar `σ` on `y`. -/
structure Pt where
  x : ℝ
  y : ℝ
  σ : ℝ

/-- Fit result: intercept, slope, and covariance matrix entries. -/
structure Fit where
  b : ℝ
  m : ℝ
  cbb : ℝ
  cmm : ℝ
  cbm : ℝ

/-- `Σ f(p) / σ²`. -/
noncomputable def wsum (f : Pt → ℝ) (pts : List Pt) : ℝ := (pts.map fun p => f p / p.σ ^ 2).sum

/-- The determinant of the normal equations. -/
noncomputable def det (pts : List Pt) : ℝ :=
  wsum (fun _ => 1) pts * wsum (fun p => p.x ^ 2) pts - wsum (fun p => p.x) pts ^ 2

/-- The solution of the normal equations and its covariance. -/
noncomputable def solve (pts : List Pt) : Fit where
  b := (wsum (fun p => p.x ^ 2) pts * wsum (fun p => p.y) pts -
    wsum (fun p => p.x) pts * wsum (fun p => p.x * p.y) pts) / det pts
  m := (wsum (fun _ => 1) pts * wsum (fun p => p.x * p.y) pts -
    wsum (fun p => p.x) pts * wsum (fun p => p.y) pts) / det pts
  cbb := wsum (fun p => p.x ^ 2) pts / det pts
  cmm := wsum (fun _ => 1) pts / det pts
  cbm := -wsum (fun p => p.x) pts / det pts

open Classical in
/-- `curve_fit` on the points (`none`: a point containing `nan`). -/
noncomputable def curveFit (pts : List (Option Pt)) : Except Err Fit :=
  if pts = [] ∨ none ∈ pts then .error .valueError
  else if pts.length < 2 then .error .typeError
  else if (∃ p ∈ pts.filterMap id, p.σ = 0) ∨ det (pts.filterMap id) = 0 then .error .nan
  else .ok (solve (pts.filterMap id))

end Verif.LineFit
