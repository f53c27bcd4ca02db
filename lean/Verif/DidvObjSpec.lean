import Verif.DidvObj
import Verif.DidvSpec

/-! Specification vocabulary for the DIDV classes. -/

namespace Verif.Didv
open Verif Dft OF

/-- The sample rate is `p` samples per period of the signal generator. -/
def SamplesPerPeriod (o : Obj) (p : ℕ) : Prop := 0 < p ∧ 0 < o.sgfreq ∧ o.fs = p * o.sgfreq

/-- The samples in the flat part (phases 0.25 to 0.48) of some period of a trace of `nper` periods with `p`
samples each, shifted by `s` samples. -/
def IsFlat (p nper : ℕ) (s i : ℤ) : Prop :=
  0 < i ∧ i < p * nper ∧
    ∃ j < nper, (j * p + p / 4 : ℕ) + s ≤ i ∧ i < (j * p + 48 * p / 100 : ℕ) + s

/-- One call of a method of the object. -/
inductive Call where
  | process
  | fit (poles : ℤ) (fcut : Option ℝ)

/-- The object after a call. -/
noncomputable def apply (x : Ext) (o : Obj) : Call → Obj
  | .process => (processtraces o).2
  | .fit k c => (dofit x o k c).2

/-- The object after a history of calls. -/
noncomputable def run (x : Ext) (o : Obj) (h : List Call) : Obj := h.foldl (apply x) o

/-- The call is not a fit with `k` poles. -/
def Call.other (k : ℤ) : Call → Prop
  | .process => True
  | .fit j _ => j ≠ k

/-- A new object holds no results and is not processed. -/
def Fresh (o : Obj) : Prop := o.proc = none ∧ o.res1 = none ∧ o.res2 = none ∧ o.res3 = none

/-- The optimiser stays within the bounds it is given. -/
def Feasible (ls : LS) : Prop :=
  ∀ (res : List ℝ → Except Err (List ℝ)) (p0 : List ℝ) (b : List (Option ℝ × Option ℝ)),
    List.Forall₂ inB p0 b → List.Forall₂ inB (ls res p0 b).x b

/-- Weighted squared distance of a point to the admittance `c`. -/
noncomputable def Pt.chi2 (p : Pt) (c : ℂ) : ℝ :=
  ((p.y.re - c.re) / p.err.re) ^ 2 + ((p.y.im - c.im) / p.err.im) ^ 2

end Verif.Didv
