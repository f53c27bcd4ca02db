import Verif.DeviceSpec
import Verif.DidvPriors

/-! Vocabulary of property C139: a minimiser which finds a best point, and priors which are right. -/

namespace Verif.Device
open Verif Verif.Didv

/-- The limits of the fit with priors: nothing but the time shift, which comes last, may be negative. -/
def Within (x : List ℝ) : Prop := ∀ v ∈ x.dropLast, 0 ≤ v

/-- A minimiser which returns a best point within the limits, and the value there, whenever there is one. -/
def FindsP (mn : Minimiser) : Prop := ∀ f p0 x c, Within x → f x = .ok c →
  (∀ x' c', Within x' → f x' = .ok c' → c ≤ c') →
  Within (mn f p0).x ∧ f (mn f p0).x = .ok (mn f p0).fval ∧ (mn f p0).fval = c

/-- Independent priors with standard deviations `s`; zero where nothing is known. -/
noncomputable def independent {n : ℕ} (s : Fin n → ℝ) : Cov := ⟨n, Matrix.diagonal fun i => s i ^ 2⟩

/-- The priors are right where something is known. -/
def Right {n : ℕ} (s : Fin n → ℝ) (priors truth : List ℝ) : Prop :=
  ∀ i, s i ≠ 0 → priors.getD i 0 = truth.getD i 0

/-- The error bars of the fitted bins do not vanish. -/
def ErrorBars (o : Obj) (p : Proc) (c : Option ℝ) : Prop :=
  ∀ f k, Fitted o p c f k → (p.didvstd k).re ≠ 0 ∧ (p.didvstd k).im ≠ 0

end Verif.Device
