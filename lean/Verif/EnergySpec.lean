import Verif.Utils
import Mathlib.MeasureTheory.Function.L2Space
import Mathlib.MeasureTheory.Integral.Bochner.Basic
import Mathlib.Data.List.FinRange

/-! Definitions for property C160. -/

namespace Verif.Utils
open Verif MeasureTheory

variable {m : ℕ} {Ω : Type*} [MeasurableSpace Ω]

/-- Noise of mean zero; `v j` is its variance at sample `j`. -/
structure Noisy (μ : Measure Ω) (noise : Ω → Fin m → ℝ) (v : Fin m → ℝ) : Prop where
  sq_int : ∀ j, MemLp (fun ω => noise ω j) 2 μ
  mean : ∀ j, ∫ ω, noise ω j ∂μ = 0
  var : ∀ j, ∫ ω, noise ω j ^ 2 ∂μ = v j

/-- A trace. -/
def samples (S y : Fin m → ℝ) : List ℝ := List.ofFn fun j => S j + y j

/-- The samples before `pre` and, if given, from `post` on. -/
def baseIdx (m pre : ℕ) (post : Option ℕ) : List (Fin m) :=
  (List.finRange m).take pre ++ match post with
    | none => []
    | some j => (List.finRange m).drop j

/-- The mean over some samples. -/
noncomputable def meanOver (idx : List (Fin m)) (y : Fin m → ℝ) : ℝ := (idx.map y).sum / idx.length

end Verif.Utils
