import Mathlib.Data.Real.Basic
import Mathlib.Algebra.BigOperators.Group.List.Basic

/-!
Small numpy/Python primitives shared by the models.  They model library behaviour
(documented in DESIGN.md section 3), not code of `/repo`.
-/

namespace Verif

/-- Exceptions (and explicit `nan` results) as values. -/
inductive Err where
  | valueError      -- `raise ValueError(...)`
  | indexError
  | typeError
  | nameError
  | attributeError
  | zeroDivision
  | linAlgError
  | keyError
  | nan             -- the code returns `nan` here
  deriving DecidableEq, Repr

namespace Np

/-- Python index normalisation used by slices: negative bounds count from the end, and the
result is clipped to `[0, n]`. -/
def clipIdx (n : ℕ) (i : ℤ) : ℕ :=
  if 0 ≤ i then min i.toNat n else (n + i).toNat

/-- `arr[:i]`. -/
def sliceTo {α} (l : List α) (i : ℤ) : List α := l.take (clipIdx l.length i)

/-- `arr[i:]`. -/
def sliceFrom {α} (l : List α) (i : ℤ) : List α := l.drop (clipIdx l.length i)

/-- `np.mean` of a 1-d array; the mean of an empty array is `nan`, modelled as `none`. -/
noncomputable def mean (l : List ℝ) : Option ℝ :=
  if l = [] then none else some (l.sum / l.length)

/-- The straight line through `p` and `q`, evaluated at `x`
(`slope*(x - x_lo) + y_lo`, as in `interp1d`). -/
noncomputable def line (p q : ℝ × ℝ) (x : ℝ) : ℝ :=
  (q.2 - p.2) / (q.1 - p.1) * (x - p.1) + p.2

/-- `scipy.interpolate.interp1d(xs, ys, fill_value="extrapolate")(x)` (kind `linear`) for at
least two points with increasing abscissae: the segment is found with
`searchsorted(side="left")` clipped to the first/last segment.  With fewer than two points the
result is not a number (`none`). -/
noncomputable def interpExtrap : List (ℝ × ℝ) → ℝ → Option ℝ
  | [], _ => none
  | [_], _ => none
  | [p, q], x => some (line p q x)
  | p :: q :: r :: rest, x =>
      if x ≤ q.1 then some (line p q x) else interpExtrap (q :: r :: rest) x

/-- `np.interp(x, xs, ys)` for increasing abscissae: constant outside the data range.
`none` for an empty table (numpy raises). -/
noncomputable def interp : List (ℝ × ℝ) → ℝ → Option ℝ
  | [], _ => none
  | [p], _ => some p.2
  | p :: q :: rest, x =>
      if x ≤ p.1 then some p.2
      else if x ≤ q.1 then some (line p q x)
      else interp (q :: rest) x

/-- `np.trapz(y)` with unit spacing. -/
noncomputable def trapz1 : List ℝ → ℝ
  | a :: b :: rest => (a + b) / 2 + trapz1 (b :: rest)
  | _ => 0

/-- `np.trapz(y, x=t)` for 1-d arrays: `(np.diff(t) * (y[1:] + y[:-1]) / 2.0).sum()`.  The lengths are
not compared; the product is broadcast, so that an array with a single entry fits any other. -/
noncomputable def trapz (t y : List ℝ) : Except Err ℝ :=
  let d := List.zipWith (fun a b => b - a) t t.tail
  let m := List.zipWith (fun a b => b + a) y y.tail
  if d.length = m.length then .ok (List.zipWith (fun a b => a * b / 2) d m).sum
  else match d, m with
    | [a], m => .ok (m.map fun b => a * b / 2).sum
    | d, [b] => .ok (d.map fun a => a * b / 2).sum
    | _, _ => .error .valueError

end Np
end Verif
