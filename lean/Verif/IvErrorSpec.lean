import Verif.IvLimitSpec
import Mathlib.Analysis.Calculus.Deriv.Basic

/-! Vocabulary of property C151: small errors of all readings. -/

namespace Verif.Iv
open Verif LineFit MeasureTheory Filter Topology

/-- Errors of the bias voltages, currents and load resistances. -/
structure Errs where
  vb : ℕ → ℕ → ℕ → ℝ
  dites : ℕ → ℕ → ℕ → ℝ
  rload : ℕ → ℕ → ℕ → ℝ

/-- The measurement with `s` times these errors. -/
def Obj.off (o : Obj) (s : ℝ) (e : Errs) : Obj :=
  { o with
    data := { o.data with
      get := fun t c k => (o.data.get t c k).map fun r =>
        { r with vb := r.vb + s * e.vb t c k, dites := r.dites + s * e.dites t c k } }
    rload := o.rload.map fun rl => { rl with
      get := fun t c k => { rl.get t c k with val := (rl.get t c k).val + s * e.rload t c k } } }

/-- The errors stated for the bias voltages of a temperature and channel. -/
def Obj.voltErrs (o : Obj) (t c k : ℕ) : ℝ := (o.data.get t c k).elim 0 Reading.vbErr

variable {Ω : Type*} [MeasurableSpace Ω]

/-- Random errors of the stated sizes: those of currents and voltages are uncorrelated with each other and with those of
the load resistances, which may be one error for all bias points. -/
structure Stated (μ : Measure Ω) (o : Obj) (t c : ℕ) (e : Ω → Errs) : Prop where
  curr : Scatter μ (fun ω => (e ω).dites t c) (o.errs t c) o.data.n2
  volt : Scatter μ (fun ω => (e ω).vb t c) (o.voltErrs t c) o.data.n2
  load : ∀ rl, o.rload = some rl → ∀ k < o.data.n2, MemLp (fun ω => (e ω).rload t c k) 2 μ ∧
    ∫ ω, (e ω).rload t c k ∂μ = 0 ∧ ∫ ω, (e ω).rload t c k ^ 2 ∂μ = (rl.get t c k).err ^ 2
  curr_volt : ∀ j < o.data.n2, ∀ k < o.data.n2, ∫ ω, (e ω).dites t c j * (e ω).vb t c k ∂μ = 0
  curr_load : ∀ j < o.data.n2, ∀ k < o.data.n2, ∫ ω, (e ω).dites t c j * (e ω).rload t c k ∂μ = 0
  volt_load : ∀ j < o.data.n2, ∀ k < o.data.n2, ∫ ω, (e ω).vb t c j * (e ω).rload t c k ∂μ = 0

/-- A result for errors of size `s` is defined for small `s` and is off by `s * D` to first order. -/
def Rate (q : ℝ → Option ℝ) (D : ℝ) : Prop :=
  ∃ f : ℝ → ℝ, (∀ᶠ s in 𝓝 0, q s = some (f s)) ∧ HasDerivAt f D 0

/-- To first order a result has no bias and at least the stated error as standard deviation, and exactly the stated error
if `exact` holds. -/
def Honest (μ : Measure Ω) (exact : Prop) (q : Ω → ℝ → Option ℝ) (stated : ℝ) : Prop :=
  ∃ (D : Ω → ℝ) (x : ℝ), (∀ ω, Rate (q ω) (D ω)) ∧ MemLp D 2 μ ∧ ∫ ω, D ω ∂μ = 0 ∧ 0 ≤ x ∧ (exact → x = 0) ∧
    ∫ ω, D ω ^ 2 ∂μ = stated ^ 2 + x

end Verif.Iv
