import Verif.DidvObj
import Verif.Pinv
import Mathlib.Data.Matrix.Mul

/-! Model of the fit with priors: `DIDVPriors._fitdidv`, `dofit` and `_fitresult`
(`/repo/qetpy/core/didv/_didv_priors.py` lines 96-238 and 306-475).  `Minuit` is a parameter. -/

namespace Verif.Didv
open Verif Dft OF Matrix

/-- Number of parameters of the model with the given number of poles. -/
def nParams (poles : ℤ) : ℕ := if poles = 1 then 4 else if poles = 2 then 8 else 10

/-- The scaled admittance of the parameters at one frequency with the time shift.  Lines 96-149 and
177-194.  The parameters are numpy floats: vanishing denominators give `nan` or infinities. -/
noncomputable def scaledY (f : ℝ) (params : List ℝ) : Except Err ℂ :=
  match complexadmittance f (sspArgs params) with
  | .error _ => .error .nan
  | .ok y => .ok ((params.headD 0 : ℝ) * y *
      Complex.exp (-2 * Complex.I * Real.pi * f * (params.getLastD 0 : ℝ)))

/-- `_residual` for a parameter vector of the right length.  Lines 196-210. -/
noncomputable def residualP (pts : List Pt) (params : List ℝ) : Except Err (List ℝ) :=
  match pts with
  | [] => .ok []
  | p :: ps =>
    match scaledY p.f params, residualP ps params with
    | .ok c, .ok r =>
      if p.err.re = 0 ∨ p.err.im = 0 then .error .nan
      else .ok ((p.y - c).re * (1 / p.err.re) :: (p.y - c).im * (1 / p.err.im) :: r)
    | .error e, _ => .error e
    | _, .error e => .error e

/-- A covariance matrix as given by the caller: its size and its entries. -/
structure Cov where
  d : ℕ
  m : Matrix (Fin d) (Fin d) ℝ

/-- The argument of the square root in `_residualpriors`, lines 213-225:
`(priors - params).dot(invpriorscov).dot(priors - params)`. -/
noncomputable def priorForm (priors : List ℝ) (inv : Cov) (params : List ℝ) : ℝ :=
  let v : Fin inv.d → ℝ := fun i => priors.getD i 0 - params.getD i 0
  (v ᵥ* inv.m) ⬝ᵥ v

/-- `_neg_log_likelihood`.  Lines 177-232.  Unpacking a parameter vector of the wrong length, a
difference of arrays of different lengths and a product of arrays that do not match raise ValueError.
The square root of a negative number is `nan`. -/
noncomputable def nll (poles : ℤ) (pts : List Pt) (priors : List ℝ) (inv : Cov) (params : List ℝ) :
    Except Err ℝ :=
  if params.length ≠ nParams poles ∨ priors.length ≠ params.length ∨ inv.d ≠ params.length then
    .error .valueError
  else
    match residualP pts params with
    | .error e => .error e
    | .ok r =>
      if priorForm priors inv params < 0 then .error .nan
      else .ok ((r.map fun v => v ^ 2 / 2).sum + Real.sqrt (priorForm priors inv params) ^ 2 / 2)

/-- What `Minuit` reports: the values, the covariance (`none` when it failed) and the cost. -/
structure MinOut where
  x : List ℝ
  cov : Option (List (List ℝ))
  fval : ℝ

/-- `Minuit.from_array_func(...).migrad()`: the function and the start.  The limits (all parameters but
the time shift non-negative) are part of the external routine. -/
abbrev Minimiser := (List ℝ → Except Err ℝ) → List ℝ → MinOut

/-- The results dictionary.  Lines 393-475 and the entries added in lines 376-390. -/
structure PResult where
  params : List ℝ
  cov : List (List ℝ)
  errors : List ℝ
  falltimes : List ℝ
  cost : ℝ
  didv0 : ℝ
  priors : List ℝ
  priorscov : Cov

/-- The diagonal of a square array. -/
noncomputable def diagOf (c : List (List ℝ)) : List ℝ :=
  (List.range c.length).map fun (i : ℕ) => (c.getD i []).getD i 0

/-- `_fitresult`.  A covariance of `None` makes `np.diag` raise ValueError; a negative variance gives
`nan`. -/
noncomputable def fitResultP (params : List ℝ) (cov : Option (List (List ℝ))) (falltimes : List ℝ)
    (cost : ℝ) (priors : List ℝ) (pc : Cov) : Except Err PResult :=
  match cov with
  | none => .error .valueError
  | some c =>
    open Classical in
    if ∃ v ∈ diagOf c, v < 0 then .error .nan
    else match complexadmittance 0 (sspArgs params) with
      | .error e => .error e
      | .ok y => .ok ⟨params, c, (diagOf c).map Real.sqrt, falltimes, cost, y.re, priors, pc⟩

/-- The object: the base class with the results of the fits with priors. -/
structure PObj where
  base : Obj
  res1 : Option PResult
  res2 : Option PResult
  res3 : Option PResult

/-- The points of the fit, scaled by the shunt resistance.  Lines 356, 362-370. -/
noncomputable def fitPtsP (o : Obj) (p : Proc) (fcut : Option ℝ) : List Pt :=
  (fitPts p o.fs fcut).map fun q => ⟨q.f, q.y * o.rsh, q.err * o.rsh⟩

/-- Guess, fit and result.  Lines 358-390.  A function that raises at the start raises through
`Minuit`. -/
noncomputable def runFitP (x : Ext) (mn : Minimiser) (o : Obj) (p : Proc) (poles : ℤ) (priors : List ℝ)
    (pc : Cov) (fcut : Option ℝ) : Except Err PResult :=
  match guessPriors x o p poles fcut priors with
  | .error e => .error e
  | .ok guess =>
    let f := nll poles (fitPtsP o p fcut) priors ⟨pc.d, pinv pc.m⟩
    let p0 := mixGuess guess priors
    match f p0 with
    | .error .valueError => .error .valueError
    | _ =>
      let r := mn f p0
      match convertFrom r.x with
      | .error _ => .error .nan
      | .ok q =>
        match findPoleFallTimes x.fsolve2 x.fsolve3 q with
        | .error e => .error e
        | .ok ft => fitResultP r.x r.cov ft r.fval priors pc

/-- `DIDVPriors.dofit`.  Lines 306-390. -/
noncomputable def dofitP (x : Ext) (mn : Minimiser) (o : PObj) (poles : ℤ) (priors : List ℝ) (pc : Cov)
    (fcut : Option ℝ) : Except Err Unit × PObj :=
  let start := match o.base.proc with
    | none => processtraces o.base
    | some _ => (.ok (), o.base)
  match start with
  | (.error e, b) => (.error e, { o with base := b })
  | (.ok (), b) =>
    match b.proc with
    | none => (.error .typeError, { o with base := b })
    | some p =>
      match runFitP x mn b p poles priors pc fcut with
      | .error e => (.error e, { o with base := b })
      | .ok r =>
        if poles = 1 then (.ok (), { o with base := b, res1 := some r })
        else if poles = 2 then (.ok (), { o with base := b, res2 := some r })
        else if poles = 3 then (.ok (), { o with base := b, res3 := some r })
        else (.ok (), { o with base := b })

/-- `fitresult` of the object: `none` for the empty dictionary. -/
def fitresultP (o : PObj) (poles : ℤ) : Option PResult :=
  if poles = 1 then o.res1 else if poles = 2 then o.res2 else if poles = 3 then o.res3 else none

end Verif.Didv
