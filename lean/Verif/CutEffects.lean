import Verif.CutAuto
import Verif.Noise

/-!
Effects of the calls on the caller's arrays: `pileupcut` and `autocuts`
(`/repo/qetpy/cut/_cut.py` lines 429-461 and 721-764) and `gen_noise`
(`/repo/qetpy/core/_noise.py` lines 149-157).  A call returns its outcome together with the array that
the caller passed, as it is afterwards.
-/

namespace Verif.Cut
open Verif

/-- The element type of an array of traces: floating point numbers or the integers of a digitiser. -/
inductive Dtype where
  | float
  | int

variable {n : ℕ} [NeZero n]

/-- `pileupcut`.  Lines 429-461.  `traces -= mean[:, np.newaxis]` is done in place; on an integer array
numpy refuses it with a TypeError. -/
noncomputable def pileupcutM (env : Env) (fs : ℝ) (algo : Algo) (nsig : ℝ) (removemeans : Bool) (dt : Dtype)
    (traces : List (ZMod n → ℝ)) : Comp (List Bool) × List (ZMod n → ℝ) :=
  if traces = [] then (some (.error .indexError), traces)
  else
    match removemeans, dt with
    | true, .int => (some (.error .typeError), traces)
    | true, .float =>
      (pileupcut env fs algo nsig true traces, traces.map removeMean)
    | false, _ => (pileupcut env fs algo nsig false traces, traces)

/-- Sequencing; the array is passed on. -/
def andThenM {α β σ : Type*} (c : Comp α × σ) (f : α → σ → Comp β × σ) : Comp β × σ :=
  match c with
  | (none, s) => (none, s)
  | (some (.error e), s) => (some (.error e), s)
  | (some (.ok a), s) => f a s

/-- `autocuts`.  Lines 721-764.  The first cut gets the caller's array.  The later ones get
`traces[inds]` with an index array, which is a copy. -/
noncomputable def autocutsM (env : Env) (a : AutoArgs) (dt : Dtype) (traces : List (ZMod n → ℝ)) :
    Comp (List Bool) × List (ZMod n → ℝ) :=
  andThenM
    (if a.pileup1 then
      andThenM (pileupcutM env a.fs a.algo a.nsigpileup1 false dt traces) fun c s =>
        (some (.ok (whereTrue c)), s)
     else (some (.ok (List.range traces.length)), traces)) fun i1 traces =>
  andThenM
    (if a.slope then
      (slopecut env a.fs a.algo a.nsigslope a.didv a.symmetrize a.sgfreq (takeIdx traces i1), traces)
     else (some (.ok (List.replicate i1.length true)), traces)) fun c2 traces =>
  let i2 := sel i1 c2
  andThenM
    (if a.baseline then
      (baselinecut env a.fs a.algo a.nsigbaseline a.didv a.sgfreq (takeIdx traces i2), traces)
     else (some (.ok (List.replicate i2.length true)), traces)) fun c3 traces =>
  let i3 := sel i2 c3
  andThenM
    (if a.pileup2 && a.didv then
      ((pileupcutM env a.fs a.algo a.nsigpileup2 true dt (takeIdx traces i3)).1, traces)
     else (some (.ok (List.replicate i3.length true)), traces)) fun c4 traces =>
  let i4 := sel i3 c4
  andThenM
    (if a.chi2 then (chi2cut env a.fs .iterstat a.nsigchi2 (takeIdx traces i4), traces)
     else (some (.ok (List.replicate i4.length true)), traces)) fun c5 traces =>
  (some (.ok (setTrue (List.replicate traces.length false) (sel i4 c5))), traces)

end Verif.Cut

namespace Verif.Noise
open Verif Dft

variable {n : ℕ} [NeZero n]

/-- `gen_noise`: one trace per array of draws, and the caller's PSD afterwards.  Lines 149-157.  An
infinite PSD at a bin other than the first gives `nan`. -/
noncomputable def genNoiseM (psd : ZMod n → WithTop ℝ) (fs : ℝ) (vals : List (ZMod n → ℝ)) :
    Except Err (List (ZMod n → ℝ)) × (ZMod n → WithTop ℝ) :=
  let p := genPsd psd
  open Classical in
  (if ∃ k, p k = ⊤ then .error .nan else .ok (vals.map fun v => genNoise (fun k => (p k).untopD 0) fs v), p)

end Verif.Noise
