import Verif.DidvFig
import Verif.DidvPlotSpec

/-! Specification vocabulary for the figures. -/

namespace Verif.Didv

/-- A file lies in a directory: its name is that of the directory, a slash and more.  The empty name is the
current directory, for names without a slash in front. -/
def InDirectory (file dir : List Char) : Prop :=
  if dir = [] then file.head? ≠ some '/' else
    ∃ rest, file = dir ++ '/' :: rest ∨ (dir.getLast? = some '/' ∧ file = dir ++ rest)

/-- The number of figures a method makes. -/
def Method.count : Method → ℕ
  | .reIm | .absPhase => 2
  | _ => 1

/-- Two calls are of the same method, whatever the zoom. -/
def Method.Same : Method → Method → Prop
  | .zoomedIn _, .zoomedIn _ => True
  | m, m' => m = m'

end Verif.Didv
