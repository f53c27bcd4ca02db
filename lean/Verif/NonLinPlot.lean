import Verif.NonLin

/-!
Model of `plotnonlin` (`/repo/qetpy/plotting/_fitting_plotting.py` lines 10-222), which `fit_falltimes` calls with
`lgcplot`.  The figure is the list of the drawn points; titles and colours are left out.  A `nan` is not drawn, nor
is a value that is not positive on a logarithmic axis.
-/

namespace Verif.NonLin
open Verif Verif.Dft

variable {n : ℕ} [NeZero n]

/-- What `plotnonlin` draws: the frequency panel, the zoomed and the full time panel, and the parameters in the
legend with their values and errors. -/
structure Fig where
  freqData : List (ℝ × ℝ)
  freqFit : List (ℝ × ℝ)
  freqErr : List (ℝ × ℝ)
  zoomData : List (ℝ × ℝ)
  zoomFit : List (ℝ × ℝ)
  fullData : List (ℝ × ℝ)
  fullFit : List (ℝ × ℝ)
  legend : List (String × ℝ × ℝ)

/-- The unpacked parameters which the rest needs: rise time, (first) fall time, start time, number of fall times
in the window, and the labels. -/
structure Unpacked where
  taur : ℝ
  tauf : ℝ
  t0 : ℝ
  falls : ℝ
  labels : List (String × ℝ × ℝ)

/-- Lines 25-38 and 177-205.  A tuple of the wrong length raises ValueError, a missing rise time TypeError
(line 50). -/
noncomputable def Obj.unpack (o : Obj n) (params errors : List ℝ) : Except Err Unpacked :=
  if o.npole = 4 then
    match params, errors with
    | [A, B, C, τr, τ1, τ2, τ3, t0], [Ae, Be, Ce, τre, τ1e, τ2e, τ3e, t0e] =>
      .ok ⟨τr, τ1, t0, 9, [("A", A * 10 ^ 6, Ae * 10 ^ 6), ("B", B * 10 ^ 6, Be * 10 ^ 6),
        ("C", C * 10 ^ 6, Ce * 10 ^ 6), ("tau_f1", τ1 * 10 ^ 6, τ1e * 10 ^ 6), ("tau_f2", τ2 * 10 ^ 6, τ2e * 10 ^ 6),
        ("tau_f3", τ3 * 10 ^ 6, τ3e * 10 ^ 6), ("t0", t0 * 10 ^ 3, t0e * 10 ^ 3),
        ("tau_r", τr * 10 ^ 6, τre * 10 ^ 6)]⟩
    | _, _ => .error .valueError
  else if o.npole = 3 then
    match params, errors with
    | [A, B, τr, τ1, τ2, t0], [Ae, Be, τre, τ1e, τ2e, t0e] =>
      .ok ⟨τr, τ1, t0, 9, [("A", A * 10 ^ 6, Ae * 10 ^ 6), ("B", B * 10 ^ 6, Be * 10 ^ 6),
        ("tau_f1", τ1 * 10 ^ 6, τ1e * 10 ^ 6), ("tau_f2", τ2 * 10 ^ 6, τ2e * 10 ^ 6), ("t0", t0 * 10 ^ 3, t0e * 10 ^ 3),
        ("tau_r", τr * 10 ^ 6, τre * 10 ^ 6)]⟩
    | _, _ => .error .valueError
  else if o.npole = 2 then
    match params, errors with
    | [A, τr, τf, t0], [Ae, τre, τfe, t0e] =>
      .ok ⟨τr, τf, t0, 7, [("A", A * 10 ^ 6, Ae * 10 ^ 6), ("tau_f", τf * 10 ^ 6, τfe * 10 ^ 6),
        ("t0", t0 * 10 ^ 3, t0e * 10 ^ 3), ("tau_r", τr * 10 ^ 6, τre * 10 ^ 6)]⟩
    | _, _ => .error .valueError
  else
    match params, errors with
    | [A, τf, t0], [Ae, τfe, t0e] =>
      match o.taurise with
      | none => .error .typeError
      | some τr => .ok ⟨τr, τf, t0, 7, [("A", A * 10 ^ 6, Ae * 10 ^ 6), ("tau_f", τf * 10 ^ 6, τfe * 10 ^ 6),
          ("t0", t0 * 10 ^ 3, t0e * 10 ^ 3), ("tau_r", τr * 10 ^ 6, 0 * 10 ^ 6)]⟩
    | _, _ => .error .valueError

/-- The time-domain pulse selected by `npolefit`, lines 40-45 and 116-136. -/
noncomputable def Obj.timeModel (o : Obj n) (params : List ℝ) : Except Err (List ℝ) :=
  if o.npole = 4 then
    match params with
    | [A, B, C, τr, τ1, τ2, τ3, t0] => .ok (o.fourpoletime A B C τr τ1 τ2 τ3 t0)
    | _ => .error .valueError
  else if o.npole = 3 then
    match params with
    | [A, B, τr, τ1, τ2, t0] => .ok (o.threepoletime A B τr τ1 τ2 t0)
    | _ => .error .valueError
  else if o.npole = 2 then
    match params with
    | [A, τr, τf, t0] => o.twopoletime A τr τf t0
    | _ => .error .valueError
  else
    match params with
    | [A, τf, t0] =>
      match o.taurise with
      | none => .error .typeError
      | some τr => o.twopoletime A τr τf t0
    | _ => .error .valueError

/-- Points on two logarithmic axes at the positive frequencies.  Lines 63-65, 84-103. -/
noncomputable def Obj.logPts (o : Obj n) (v : ZMod n → ℝ) : List (ℝ × ℝ) :=
  open Classical in
  (List.range n).filterMap fun (k : ℕ) =>
    if 0 < fftfreq o.fs (k : ZMod n) ∧ 0 < v (k : ZMod n) then some (fftfreq o.fs (k : ZMod n), v (k : ZMod n))
    else none

/-- `int(t0 * fs)`.  Line 48. -/
noncomputable def Obj.start0 (o : Obj n) (t0 : ℝ) : ℤ := OF.trunc (t0 * o.fs)

/-- The first sample of the zoom, line 50. -/
noncomputable def Obj.nmin (o : Obj n) (u : Unpacked) : ℤ := o.start0 u.t0 - OF.trunc (5 * u.taur * o.fs)

/-- The sample after the zoom, lines 51-54. -/
noncomputable def Obj.nmax (o : Obj n) (u : Unpacked) : ℤ := o.start0 u.t0 + OF.trunc (u.falls * u.tauf * o.fs)

/-- The baseline that is subtracted, lines 56-60; `none` is `nan`. -/
noncomputable def Obj.baseline (o : Obj n) (pulse : List ℝ) (t0 : ℝ) : Option ℝ :=
  let nb := OF.trunc (o.fs * t0) - 1000
  if 0 < nb then Np.mean (Np.sliceTo pulse nb) else Np.mean (Np.sliceFrom pulse (nb + 10000))

/-- Points of a time panel: times in milliseconds. -/
noncomputable def Obj.pts (time : List ℝ) (y : List ℝ) : List (ℝ × ℝ) := (time.map (· * 10 ^ 3)).zip y

/-- `plotnonlin`. -/
noncomputable def Obj.plotnonlin (o : Obj n) (pulse : ZMod n → ℝ) (params errors : List ℝ) : Except Err Fig :=
  match o.unpack params errors with
  | .error e => .error e
  | .ok u =>
    let data := match o.baseline (toL pulse) u.t0 with
      | none => none
      | some b => some ((toL pulse).map (· - b))
    let full (y : Option (List ℝ)) := match y with
      | none => []
      | some y => Obj.pts o.time y
    let zoom (y : Option (List ℝ)) := match y with
      | none => []
      | some y => Obj.pts (slice o.time (o.nmin u) (o.nmax u)) (slice y (o.nmin u) (o.nmax u))
    let fit := match o.timeModel params with
      | .error _ => none
      | .ok y => some y
    .ok {
      freqData := o.logPts fun k => ‖o.data k‖
      freqFit := match o.model params with
        | .error _ => []
        | .ok m => o.logPts fun k => ‖m k‖
      freqErr := o.logPts o.error
      zoomData := zoom data
      zoomFit := zoom fit
      fullData := full data
      fullFit := full fit
      legend := u.labels.take params.length }

end Verif.NonLin
