import Verif.Noise

/-! Specification for the `Noise` object. -/

namespace Verif.Noise

variable {n : ℕ} [NeZero n] {m c : ℕ}

/-- Nothing has been calculated yet. -/
def Fresh (o : Obj m c n) : Prop :=
  o.psd = none ∧ o.realPsd = none ∧ o.imagPsd = none ∧ o.csd = none ∧ o.corrcoeff = none ∧
    o.uncorr = none ∧ o.corr = none

/-- Every stored result is the one belonging to the traces the object holds now. -/
def Current (o : Obj m c n) : Prop :=
  (∀ p, o.psd = some p → p = psdOf o.traces o.fs) ∧
  (∀ p, o.realPsd = some p → p = realPsdOf o.traces o.fs) ∧
  (∀ p, o.imagPsd = some p → p = imagPsdOf o.traces o.fs) ∧
  (∀ d, o.csd = some d → d = csdOf o.traces o.fs) ∧
  (∀ r, o.corrcoeff = some r → r = corrcoeffOf o.traces) ∧
  (∀ u, o.uncorr = some u → u = uncorrOf (csdOf o.traces o.fs)) ∧
  (∀ u, o.corr = some u → u = corrOf (csdOf o.traces o.fs))

end Verif.Noise
