import Verif.Np
import Mathlib.Analysis.SpecialFunctions.Complex.Circle

/-! Model of the dI/dV formulas (`/repo/qetpy/core/didv/_base_didv.py`): impedances, conversion of
parameters, pole fall times. -/

namespace Verif.Didv
open Verif

/-! ### Impedances of the fit parametrisation -/

/-- `2.0j*pi*freq`. -/
noncomputable def jw (f : ℝ) : ℂ := 2 * Complex.I * Real.pi * f

/-- `_onepoleimpedance`.  Lines 495-504. -/
noncomputable def onePoleZ (f A tau2 : ℝ) : ℂ := A * (1 + jw f * tau2)

/-- `_twopoleimpedance`.  Lines 519-528.  The denominator has real part one. -/
noncomputable def twoPoleZ (f A B tau1 tau2 : ℝ) : ℂ :=
  A * (1 + jw f * tau2) + B / (1 + jw f * tau1)

open Classical in
/-- `_threepoleimpedance`.  Lines 543-556.  A vanishing denominator gives infinities or `nan` (here
`nan`). -/
noncomputable def threePoleZ (f A B C tau1 tau2 tau3 : ℝ) : Except Err ℂ :=
  if 1 + jw f * tau1 - C / (1 + jw f * tau3) = 0 then .error .nan
  else .ok (A * (1 + jw f * tau2) + B / (1 + jw f * tau1 - C / (1 + jw f * tau3)))

open Classical in
/-- `1.0/dvdi`.  Lines 507-516, 531-540, 559-569, 263. -/
noncomputable def recipZ (z : ℂ) : Except Err ℂ := if z = 0 then .error .nan else .ok (1 / z)

/-- `_onepoleadmittance`.  Lines 507-516. -/
noncomputable def onePoleY (f A tau2 : ℝ) : Except Err ℂ := recipZ (onePoleZ f A tau2)

/-- `_twopoleadmittance`.  Lines 531-540. -/
noncomputable def twoPoleY (f A B tau1 tau2 : ℝ) : Except Err ℂ := recipZ (twoPoleZ f A B tau1 tau2)

/-- `_threepoleadmittance`.  Lines 559-569. -/
noncomputable def threePoleY (f A B C tau1 tau2 tau3 : ℝ) : Except Err ℂ :=
  match threePoleZ f A B C tau1 tau2 tau3 with
  | .error e => .error e
  | .ok z => recipZ z

/-! ### Conversions -/

/-- `_converttotesvalues`.  Lines 753-813.  The fit parameters are numpy floats: a vanishing denominator
gives infinities or `nan` (here `nan`).  Another length leaves `popt_out` unbound. -/
noncomputable def convertTo (popt : List ℝ) (rsh r0 rp : ℝ) : Except Err (List ℝ) :=
  match popt with
  | [A, tau2, dt] => .ok [rsh, A - rsh, A * tau2, dt]
  | [A, B, tau1, tau2, dt] =>
    let rload := rsh + rp
    if r0 = 0 ∨ A + B + r0 - rload = 0 then .error .nan
    else .ok [rsh, rp, r0, (A - rload) / r0 - 1, B / (A + B + r0 - rload), A * tau2,
      tau1 * (A + r0 - rload) / (A + B + r0 - rload), dt]
  | [A, B, C, tau1, tau2, tau3, dt] =>
    let rload := rsh + rp
    if r0 = 0 ∨ A + B + r0 - rload = 0 then .error .nan
    else .ok [rsh, rp, r0, (A - rload) / r0 - 1, B / (A + B + r0 - rload), A * tau2,
      tau1 * (A + r0 - rload) / (A + B + r0 - rload),
      C * (A + r0 - rload) / (A + B + r0 - rload), tau3, dt]
  | _ => .error .nameError

/-- `_convertfromtesvalues`.  Lines 816-879.  Python floats: a vanishing denominator raises. -/
noncomputable def convertFrom (popt : List ℝ) : Except Err (List ℝ) :=
  match popt with
  | [rsh, rp, L, dt] =>
    if rsh + rp = 0 then .error .zeroDivision else .ok [rsh + rp, L / (rsh + rp), dt]
  | [rsh, rp, r0, beta, l, L, tau0, dt] =>
    if 1 - l = 0 ∨ rsh + rp + r0 * (1 + beta) = 0 then .error .zeroDivision
    else .ok [rsh + rp + r0 * (1 + beta), r0 * l / (1 - l) * (2 + beta), tau0 / (1 - l),
      L / (rsh + rp + r0 * (1 + beta)), dt]
  | [rsh, rp, r0, beta, l, L, tau0, gratio, tau3, dt] =>
    if 1 - l = 0 ∨ rsh + rp + r0 * (1 + beta) = 0 then .error .zeroDivision
    else .ok [rsh + rp + r0 * (1 + beta), r0 * l / (1 - l) * (2 + beta), gratio / (1 - l),
      tau0 / (1 - l), L / (rsh + rp + r0 * (1 + beta)), tau3, dt]
  | _ => .error .nameError

/-! ### compleximpedance, complexadmittance -/

/-- The keyword arguments of `compleximpedance`; `none` is Python's `None`. -/
structure Args where
  rsh : Option ℝ := none
  rp : Option ℝ := none
  r0 : Option ℝ := none
  beta : Option ℝ := none
  l : Option ℝ := none
  L : Option ℝ := none
  tau0 : Option ℝ := none
  gratio : Option ℝ := none
  tau3 : Option ℝ := none

/-- `_pole_extractor`.  Lines 18-42. -/
def poleExtractor (a : Args) : Except Err ℕ :=
  if a.rsh.isSome ∧ a.rp.isSome ∧ a.r0.isSome ∧ a.L.isSome ∧ a.l.isSome ∧ a.beta.isSome ∧
      a.tau0.isSome ∧ a.gratio.isSome ∧ a.tau3.isSome then .ok 3
  else if a.rsh.isSome ∧ a.rp.isSome ∧ a.r0.isSome ∧ a.L.isSome ∧ a.l.isSome ∧ a.beta.isSome ∧
      a.tau0.isSome then .ok 2
  else if a.rsh.isSome ∧ a.rp.isSome ∧ a.L.isSome then .ok 1
  else .error .valueError

/-- `compleximpedance` at one frequency.  Lines 150-169.  The values used are present by the choice of the
model, so the default of `getD` does not matter. -/
noncomputable def compleximpedance (f : ℝ) (a : Args) : Except Err ℂ :=
  let v : Option ℝ → ℝ := fun o => o.getD 0
  match poleExtractor a with
  | .error e => .error e
  | .ok 1 =>
    match convertFrom [v a.rsh, v a.rp, v a.L, 0] with
    | .error e => .error e
    | .ok [A, tau2, _] => .ok (onePoleZ f A tau2)
    | .ok _ => .error .valueError
  | .ok 2 =>
    match convertFrom [v a.rsh, v a.rp, v a.r0, v a.beta, v a.l, v a.L, v a.tau0, 0] with
    | .error e => .error e
    | .ok [A, B, tau1, tau2, _] => .ok (twoPoleZ f A B tau1 tau2)
    | .ok _ => .error .valueError
  | .ok _ =>
    match convertFrom [v a.rsh, v a.rp, v a.r0, v a.beta, v a.l, v a.L, v a.tau0, v a.gratio,
        v a.tau3, 0] with
    | .error e => .error e
    | .ok [A, B, C, tau1, tau2, tau3, _] => threePoleZ f A B C tau1 tau2 tau3
    | .ok _ => .error .valueError

/-- `complexadmittance` at one frequency.  Lines 250-263. -/
noncomputable def complexadmittance (f : ℝ) (a : Args) : Except Err ℂ :=
  match compleximpedance f a with
  | .error e => .error e
  | .ok z => recipZ z

/-! ### Pole fall times -/

/-- `twopoleequations`.  Lines 901-905.  The caller excludes `A + B = 0`. -/
noncomputable def twoPoleEqs (A B tau1 tau2 : ℝ) (p : ℝ × ℝ) : ℝ × ℝ :=
  (p.1 + p.2 - A / (A + B) * (tau1 + tau2), p.1 * p.2 - A / (A + B) * tau1 * tau2)

/-- `threepoleequations`.  Lines 915-924. -/
noncomputable def threePoleEqs (A B C tau1 tau2 tau3 : ℝ) (p : ℝ × ℝ × ℝ) : ℝ × ℝ × ℝ :=
  (p.1 + p.2.1 + p.2.2 - (A * tau1 + A * (1 - C) * tau2 + (A + B) * tau3) / (A * (1 - C) + B),
    p.1 * p.2.1 + p.1 * p.2.2 + p.2.1 * p.2.2 -
      (tau1 * tau2 + tau1 * tau3 + tau2 * tau3) * A / (A * (1 - C) + B),
    p.1 * p.2.1 * p.2.2 - tau1 * tau2 * tau3 * A / (A * (1 - C) + B))

/-- `_findpolefalltimes`.  Lines 882-934.  `fsolve` is external: it takes the equations and a starting point
and returns some point.  A vanishing `A + B` or `A (1 - C) + B` makes the equations `nan`. -/
noncomputable def findPoleFallTimes
    (fsolve2 : ((ℝ × ℝ) → ℝ × ℝ) → ℝ × ℝ → ℝ × ℝ)
    (fsolve3 : ((ℝ × ℝ × ℝ) → ℝ × ℝ × ℝ) → ℝ × ℝ × ℝ → ℝ × ℝ × ℝ) (params : List ℝ) :
    Except Err (List ℝ) :=
  match params with
  | [_, tau2, _] => .ok [tau2]
  | [A, B, tau1, tau2, _] =>
    if A + B = 0 then .error .nan
    else
      let p := fsolve2 (twoPoleEqs A B tau1 tau2) (tau1, tau2)
      .ok ([p.1, p.2].insertionSort (· ≤ ·))
  | [A, B, C, tau1, tau2, tau3, _] =>
    if A * (1 - C) + B = 0 then .error .nan
    else
      let p := fsolve3 (threePoleEqs A B C tau1 tau2 tau3) (tau1, tau2, tau3)
      .ok ([p.1, p.2.1, p.2.2].insertionSort (· ≤ ·))
  | _ => .ok [0]

end Verif.Didv
