import Verif.Np
import Mathlib.Data.Real.Basic
import Mathlib.Order.WithBot
import Mathlib.LinearAlgebra.Matrix.Defs

/-! Specification vocabulary for the cut properties, independent of the model's helpers. -/

namespace Verif.Cut

/-- `m` is the mean of the points. -/
def IsMean (l : List ℝ) (m : ℝ) : Prop := l ≠ [] ∧ m * l.length = l.sum

/-- `s` is the (population) standard deviation of the points. -/
def IsStd (l : List ℝ) (s : ℝ) : Prop :=
  0 ≤ s ∧ ∃ m, IsMean l m ∧ s ^ 2 * l.length = (l.map fun x => (x - m) ^ 2).sum

/-- The points at the positions where the mask is true, in order. -/
def Selected {α : Type*} : List α → List Bool → List α
  | a :: l, true :: m => a :: Selected l m
  | _ :: l, false :: m => Selected l m
  | _, _ => []

/-- `m` selects only positions that `m'` selects. -/
def SubMask (m m' : List Bool) : Prop :=
  m.length = m'.length ∧ ∀ j : ℕ, m[j]? = some true → m'[j]? = some true

/-- The selection has no holes: a point between two selected ones is selected. -/
def NoHoles {α : Type*} [LE α] (x : List α) (m : List Bool) : Prop :=
  ∀ i j k : ℕ, ∀ a b c : α, x[i]? = some a → x[j]? = some b → x[k]? = some c → a ≤ b → b ≤ c →
    m[i]? = some true → m[k]? = some true → m[j]? = some true

/-- A sequence of cuts: a stage gets the traces that survived so far, each with its position in the
original array, and returns one flag per trace (`none`: the stage is switched off). -/
def survivors {T : Type*} :
    List (Option (List T → Option (Except Err (List Bool)))) → List (ℕ × T) →
      Option (Except Err (List (ℕ × T)))
  | [], l => some (.ok l)
  | none :: rest, l => survivors rest l
  | some stage :: rest, l =>
    match stage (l.map Prod.snd) with
    | none => none
    | some (.error e) => some (.error e)
    | some (.ok flags) => survivors rest (Selected l flags)

/-- Bin number `q` (counted from the centre) on the negative side, for bins of width `w`. -/
def LowBin (w : ℝ) (q : ℕ) (v : ℝ) : Prop := -(q + 1 / 2) * w ≤ v ∧ v < -(q - 1 / 2) * w

/-- Its mirror image; the outermost bin (`q = h`) contains its upper edge. -/
def HighBin (w : ℝ) (h q : ℕ) (v : ℝ) : Prop :=
  (q - 1 / 2) * w ≤ v ∧ (v < (q + 1 / 2) * w ∨ (q = h ∧ v = (q + 1 / 2) * w))

/-- A possible outcome of drawing `k` entries of `l` without replacement. -/
def IsDraw (choice : List ℕ → ℕ → List ℕ) : Prop :=
  ∀ l k, l.Nodup → k ≤ l.length → (choice l k).Nodup ∧ (choice l k).length = k ∧ choice l k ⊆ l

/-- `m` is the mean vector of the points. -/
def IsMeanVec {d : ℕ} (l : List (Fin d → ℝ)) (m : Fin d → ℝ) : Prop :=
  l ≠ [] ∧ ∀ i, m i * l.length = (l.map fun x => x i).sum

/-- `c` is the (unbiased) covariance matrix of at least two points. -/
def IsCov {d : ℕ} (l : List (Fin d → ℝ)) (c : Matrix (Fin d) (Fin d) ℝ) : Prop :=
  2 ≤ l.length ∧ ∃ m, IsMeanVec l m ∧
    ∀ i j, c i j * (l.length - 1) = (l.map fun x => (x i - m i) * (x j - m j)).sum

end Verif.Cut
