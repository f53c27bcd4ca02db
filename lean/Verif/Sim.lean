import Verif.DidvObj
import Mathlib.Analysis.SpecialFunctions.Pow.Real

/-! Model of the noise simulation (`/repo/qetpy/sim/_sim.py`).  The methods of `TESnoise` act element by
element on the frequencies and are modelled at one frequency; divisions by zero are errors. -/

namespace Verif.Sim
open Verif

/-- `constants.k`, Boltzmann's constant. -/
noncomputable def kB : ℝ := 1380649 / 10 ^ 29

/-- `constants.e`, the elementary charge. -/
noncomputable def qe : ℝ := 1602176634 / 10 ^ 28

/-- A `TESnoise` object. -/
structure TES where
  rload : ℝ
  r0 : ℝ
  rshunt : ℝ
  beta : ℝ
  loopgain : ℝ
  inductance : ℝ
  tau0 : ℝ
  qetbias : ℝ
  i0 : ℝ
  tc : ℝ
  tload : ℝ
  G : ℝ
  tbath : ℝ
  n : ℝ
  squiddc : ℝ
  squidpole : ℝ
  squidn : ℝ
  fTfn : ℝ

/-- The arguments of the constructor. -/
structure TESArgs where
  rload : ℝ
  r0 : ℝ
  rshunt : ℝ
  beta : ℝ
  loopgain : ℝ
  inductance : ℝ
  tau0 : ℝ
  G : ℝ
  qetbias : ℝ
  tc : ℝ
  tload : ℝ
  tbath : ℝ
  n : ℝ
  lgcb : Bool
  squiddc : ℝ
  squidpole : ℝ
  squidn : ℝ

open Classical in
/-- `x ** y`.  Zero to a negative power, and a negative number to a power which is not an integer (`nan`, or
complex for Python floats), are errors. -/
noncomputable def pw (x y : ℝ) : Except Err ℝ :=
  if x < 0 ∧ ¬ ∃ k : ℤ, y = k then .error .nan
  else if x = 0 ∧ y < 0 then .error .zeroDivision
  else .ok (x ^ y)

/-- `f_tfn`.  Lines 303-306. -/
noncomputable def suppression (lgcb : Bool) (tbath tc n : ℝ) : Except Err ℝ :=
  if tc = 0 then .error .zeroDivision
  else if lgcb then
    match pw (tbath / tc) (n + 1) with
    | .error e => .error e
    | .ok p => .ok ((p + 1) / 2)
  else if 2 * n + 1 = 0 then .error .zeroDivision
  else
    match pw (tbath / tc) (2 * n + 1), pw (tbath / tc) n with
    | .error e, _ => .error e
    | _, .error e => .error e
    | .ok p, .ok q =>
      if q - 1 = 0 then .error .zeroDivision
      else .ok (n / (2 * n + 1) * (p - 1) / (q - 1))

/-- `TESnoise.__init__`.  Lines 279-306. -/
noncomputable def create (a : TESArgs) : Except Err TES :=
  if a.r0 + a.rload = 0 then .error .zeroDivision
  else
    match suppression a.lgcb a.tbath a.tc a.n with
    | .error e => .error e
    | .ok f => .ok ⟨a.rload, a.r0, a.rshunt, a.beta, a.loopgain, a.inductance, a.tau0, a.qetbias,
        a.qetbias * a.rshunt / (a.r0 + a.rload), a.tc, a.tload, a.G, a.tbath, a.n, a.squiddc,
        a.squidpole, a.squidn, f⟩

/-- `1j * omega`. -/
noncomputable def jw (f : ℝ) : ℂ := Complex.I * (2 * Real.pi * f)

/-- `dIdV`.  Lines 325-329. -/
noncomputable def dIdV (t : TES) (f : ℝ) : Except Err ℂ :=
  if 1 - t.loopgain = 0 then .error .zeroDivision
  else
    let dVdI : ℂ := t.rload + t.r0 * (1 + t.beta) + jw f * t.inductance +
      t.r0 * t.loopgain / (1 - t.loopgain) * (2 + t.beta) / (1 + jw f * t.tau0 / (1 - t.loopgain))
    if dVdI = 0 then .error .nan else .ok (1 / dVdI)

/-- `dIdP`.  Lines 347-352. -/
noncomputable def dIdP (t : TES) (f : ℝ) : Except Err ℂ :=
  if t.i0 = 0 ∨ t.loopgain = 0 ∨ 1 - 1 / t.loopgain = 0 then .error .zeroDivision
  else
    match dIdV t f with
    | .error e => .error e
    | .ok y => .ok (1 / t.i0 * 1 / (1 - 1 / t.loopgain) * 1 / (1 + jw f * t.tau0 / (1 - t.loopgain)) * y)

/-- Square of the modulus: `np.abs(z)**2`. -/
noncomputable def abs2 (z : ℂ) : ℝ := ‖z‖ ^ 2

/-- Division of arrays. -/
noncomputable def div (x y : ℝ) : Except Err ℝ := if y = 0 then .error .nan else .ok (x / y)

/-- `s_vload`.  Line 374. -/
noncomputable def sVload (t : TES) : ℝ := 4 * kB * t.tload * t.rload

/-- `s_iload`.  Line 394. -/
noncomputable def sIload (t : TES) (f : ℝ) : Except Err ℝ :=
  match dIdV t f with
  | .error e => .error e
  | .ok y => .ok (sVload t * abs2 y)

/-- `s_i / np.abs(dIdP)**2`, used by the power noises. -/
noncomputable def toPower (t : TES) (f : ℝ) (s : Except Err ℝ) : Except Err ℝ :=
  match s, dIdP t f with
  | .error e, _ => .error e
  | _, .error e => .error e
  | .ok s, .ok y => div s (abs2 y)

/-- `s_pload`.  Line 414. -/
noncomputable def sPload (t : TES) (f : ℝ) : Except Err ℝ := toPower t f (sIload t f)

/-- `s_vtes`.  Line 434. -/
noncomputable def sVtes (t : TES) : ℝ := 4 * kB * t.tc * t.r0 * (1 + t.beta) ^ 2

/-- `s_ites`.  Line 455. -/
noncomputable def sItes (t : TES) (f : ℝ) : Except Err ℝ :=
  match dIdV t f, dIdP t f with
  | .error e, _ => .error e
  | _, .error e => .error e
  | .ok v, .ok p => .ok (sVtes t * abs2 (v - t.i0 * p))

/-- `s_ptes`.  Line 475. -/
noncomputable def sPtes (t : TES) (f : ℝ) : Except Err ℝ := toPower t f (sItes t f)

/-- `s_ptfn`.  Line 495. -/
noncomputable def sPtfn (t : TES) : ℝ := 4 * kB * t.tc ^ 2 * t.G * t.fTfn

/-- `s_itfn`.  Line 515. -/
noncomputable def sItfn (t : TES) (f : ℝ) : Except Err ℝ :=
  match dIdP t f with
  | .error e => .error e
  | .ok p => .ok (sPtfn t * abs2 p)

/-- `s_isquid`.  Line 536.  Zero frequency gives an infinity. -/
noncomputable def sIsquid (t : TES) (f : ℝ) : Except Err ℝ :=
  if f = 0 then .error .nan
  else
    match pw (t.squidpole / f) t.squidn with
    | .error _ => .error .nan
    | .ok p => .ok ((t.squiddc * (1 + p)) ^ 2)

/-- `s_psquid`.  Line 558. -/
noncomputable def sPsquid (t : TES) (f : ℝ) : Except Err ℝ := toPower t f (sIsquid t f)

/-- Sum of arrays. -/
noncomputable def add (x y : Except Err ℝ) : Except Err ℝ :=
  match x, y with
  | .error e, _ => .error e
  | _, .error e => .error e
  | .ok x, .ok y => .ok (x + y)

/-- `s_itot`.  Line 579. -/
noncomputable def sItot (t : TES) (f : ℝ) : Except Err ℝ :=
  add (add (add (sIload t f) (sItes t f)) (sItfn t f)) (sIsquid t f)

/-- `s_ptot`.  Line 600. -/
noncomputable def sPtot (t : TES) (f : ℝ) : Except Err ℝ := toPower t f (sItot t f)

/-- `dIdVnormal`.  Lines 621-624. -/
noncomputable def dIdVnormal (t : TES) (f : ℝ) : Except Err ℂ :=
  if (t.rload + t.r0 + jw f * t.inductance : ℂ) = 0 then .error .nan
  else .ok (1 / (t.rload + t.r0 + jw f * t.inductance))

/-- `s_iloadnormal`.  Line 644. -/
noncomputable def sIloadNormal (t : TES) (f : ℝ) : Except Err ℝ :=
  match dIdVnormal t f with
  | .error e => .error e
  | .ok y => .ok (sVload t * abs2 y)

/-- `s_vtesnormal`.  Line 664. -/
noncomputable def sVtesNormal (t : TES) : ℝ := 4 * kB * t.tc * t.r0

/-- `s_itesnormal`.  Line 684. -/
noncomputable def sItesNormal (t : TES) (f : ℝ) : Except Err ℝ :=
  match dIdVnormal t f with
  | .error e => .error e
  | .ok y => .ok (sVtesNormal t * abs2 y)

/-- `s_itotnormal`.  Line 705. -/
noncomputable def sItotNormal (t : TES) (f : ℝ) : Except Err ℝ :=
  add (add (sIloadNormal t f) (sItesNormal t f)) (sIsquid t f)

/-- `dIdVsc`.  Lines 726-729. -/
noncomputable def dIdVsc (t : TES) (f : ℝ) : Except Err ℂ :=
  if (t.rload + jw f * t.inductance : ℂ) = 0 then .error .nan
  else .ok (1 / (t.rload + jw f * t.inductance))

/-- `s_iloadsc`.  Line 749. -/
noncomputable def sIloadSc (t : TES) (f : ℝ) : Except Err ℝ :=
  match dIdVsc t f with
  | .error e => .error e
  | .ok y => .ok (sVload t * abs2 y)

/-- `s_itotsc`.  Line 770. -/
noncomputable def sItotSc (t : TES) (f : ℝ) : Except Err ℝ := add (sIloadSc t f) (sIsquid t f)

/-! ### loadfromdidv -/

/-- A Python string: its value, and whether it is the interned object which the literals of the module are,
since the code compares with `is`. -/
structure PyStr where
  val : String
  interned : Bool

/-- `s is "literal"`. -/
def PyStr.is (s : PyStr) (lit : String) : Bool := s.interned && s.val == lit

/-- The keyword arguments of `loadfromdidv` other than the noise type and `rnormal`. -/
structure LoadArgs where
  G : ℝ
  qetbias : ℝ
  tc : ℝ
  tload : ℝ
  tbath : ℝ
  squiddc : ℝ
  squidpole : ℝ
  squidn : ℝ

/-- The small signal parameters of a result: KeyError for an empty dictionary, TypeError for `None`. -/
def sspOf : Didv.Lookup → Except Err (List ℝ)
  | .pyNone => .error .typeError
  | .empty => .error .keyError
  | .found r => .ok r.ssp

/-- `loadfromdidv`, given the small signal parameters of the fit with each number of poles.
Lines 100-166.  `rnormal` is not used: its branch raises first.  The constructor is called with the defaults
`n=5`, `lgcb=True`. -/
noncomputable def loadWith (fit : ℤ → Except Err (List ℝ)) (a : LoadArgs) (_rnormal : Option ℝ)
    (noisetype : PyStr) : Except Err TES :=
  if noisetype.is "superconducting" then
    match fit 1 with
    | .error e => .error e
    | .ok [rsh, rp, L, _] =>
      create ⟨rsh + rp, 0, rsh, 0, 0, L, 0, 0, a.qetbias, a.tc, a.tload, a.tbath, 5, true, a.squiddc,
        a.squidpole, a.squidn⟩
    | .ok _ => .error .keyError
  else if noisetype.is "normal" then .error .valueError
  else if noisetype.is "transition" then
    match fit 2 with
    | .error e => .error e
    | .ok [rsh, rp, r0, beta, l, L, tau0, _] =>
      create ⟨rsh + rp, r0, rsh, beta, l, L, tau0, a.G, a.qetbias, a.tc, a.tload, a.tbath, 5, true,
        a.squiddc, a.squidpole, a.squidn⟩
    | .ok _ => .error .keyError
  else .error .valueError

/-- `loadfromdidv` of a `DIDV` object, whose results have the key `smallsignalparams`. -/
noncomputable def loadfromdidv (o : Didv.Obj) (a : LoadArgs) (rnormal : Option ℝ) (noisetype : PyStr) :
    Except Err TES := loadWith (fun k => sspOf (Didv.fitresult o k)) a rnormal noisetype

/-! ### energy_res_estimate -/

/-- `np.trapz`. -/
noncomputable def trapz : List (ℝ × ℝ) → ℝ
  | (x, y) :: (x', y') :: r => (x' - x) * (y + y') / 2 + trapz ((x', y') :: r)
  | _ => 0

/-- The integrand and its abscissa at one frequency.  Lines 36-38. -/
noncomputable def resPoint (tau eff : ℝ) (fs : ℝ × ℝ) : ℝ × ℝ :=
  (2 * Real.pi * fs.1,
    2 * abs2 (eff / (1 + 2 * Real.pi * fs.1 * tau * Complex.I)) / (Real.pi * fs.2))

open Classical in
/-- `energy_res_estimate`, for pairs of a frequency and a power spectral density.  Lines 36-41. -/
noncomputable def energyRes (pts : List (ℝ × ℝ)) (tau eff : ℝ) : Except Err ℝ :=
  if ∃ p ∈ pts, p.2 = 0 then .error .nan
  else
    let T := trapz (pts.map (resPoint tau eff))
    if T ≤ 0 then .error .nan else .ok (Real.sqrt (1 / T) / qe)

end Verif.Sim
