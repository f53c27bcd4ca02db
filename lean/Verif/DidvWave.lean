import Verif.Didv
import Verif.Dft

/-! Model of the square-wave response and its deconvolution
(`/repo/qetpy/core/didv/_base_didv.py`). -/

namespace Verif.Didv
open Verif Dft

variable {n : ℕ} [NeZero n]

/-- `(np.abs(np.mod(y, 2)-1))<1e-8`.  Lines 600, 607, 613. -/
noncomputable def nearOne (y : ℝ) : Prop := |y - 2 * ⌊y / 2⌋ - 1| < 1 / 10 ^ 8

open Classical in
/-- `sf`, the analytic DFT of a duty cycled square wave on `n` samples with spacing `dx`.
Lines 586-617, 644-674. -/
noncomputable def sqWave (dx sgamp rsh sgfreq duty : ℝ) (k : ZMod n) : ℂ :=
  let h : ℝ := fftfreq (1 / dx) k / sgfreq
  if duty = 1 / 2 then
    if nearOne |h| then Complex.I / (Real.pi * h) * sgamp * rsh * n else 0
  else if nearOne |h| ∨ (nearOne (|h| + 1) ∧ k ≠ 0) then
    -Complex.I / (2 * Real.pi * h) * sgamp * rsh * n *
      (Complex.exp (-2 * Complex.I * Real.pi * h * duty) - 1)
  else 0

open Classical in
/-- `_convolvedidv`.  Lines 571-624.  A single `nan` in the admittance makes the whole response `nan`. -/
noncomputable def convolve (dx A B C tau1 tau2 tau3 sgamp rsh sgfreq duty : ℝ) :
    Except Err (ZMod n → ℝ) :=
  if ∃ k : ZMod n, ∀ y, threePoleY (fftfreq (1 / dx) k) A B C tau1 tau2 tau3 ≠ .ok y then .error .nan
  else
    let ci : ZMod n → ℂ := fun k =>
      match threePoleY (fftfreq (1 / dx) k) A B C tau1 tau2 tau3 with
      | .ok y => y
      | .error _ => 0
    .ok fun j => (ifft (fun k => sqWave dx sgamp rsh sgfreq duty k * ci k) j).re

/-- `squarewaveresponse`.  Lines 350-374. -/
noncomputable def squarewaveresponse (dx sgamp sgfreq duty : ℝ) (a : Args) :
    Except Err (ZMod n → ℝ) :=
  let v : Option ℝ → ℝ := fun o => o.getD 0
  match poleExtractor a with
  | .error e => .error e
  | .ok 1 =>
    match convertFrom [v a.rsh, v a.rp, v a.L, 0] with
    | .error e => .error e
    | .ok [A, tau2, _] => convolve dx A 0 0 0 tau2 0 sgamp (v a.rsh) sgfreq duty
    | .ok _ => .error .valueError
  | .ok 2 =>
    match convertFrom [v a.rsh, v a.rp, v a.r0, v a.beta, v a.l, v a.L, v a.tau0, 0] with
    | .error e => .error e
    | .ok [A, B, tau1, tau2, _] => convolve dx A B 0 tau1 tau2 0 sgamp (v a.rsh) sgfreq duty
    | .ok _ => .error .valueError
  | .ok _ =>
    match convertFrom [v a.rsh, v a.rp, v a.r0, v a.beta, v a.l, v a.L, v a.tau0, v a.gratio,
        v a.tau3, 0] with
    | .error e => .error e
    | .ok [A, B, C, tau1, tau2, tau3, _] =>
      convolve dx A B C tau1 tau2 tau3 sgamp (v a.rsh) sgfreq duty
    | .ok _ => .error .valueError

open Classical in
/-- `_deconvolvedidv`: the entries of `didv` and `zeroinds` at bin `k`.  Lines 626-692.  Division by a zero
of the transformed trace gives `nan` or infinities (`nan` here), for which the comparison with `1e-16`
is false. -/
noncomputable def deconvolve (dx : ℝ) (trace : ZMod n → ℝ) (rsh sgamp sgfreq duty : ℝ) (k : ZMod n) :
    Except Err ℂ × Bool :=
  let sf : ℂ := if k.val = n / 2 then 0 else sqWave dx sgamp rsh sgfreq duty k
  let st : ℂ := fftR trace k
  if st = 0 then (.error .nan, false)
  else if ‖sf / st‖ < 1 / 10 ^ 16 then (.ok (1 / (1 + Complex.I)), true)
  else (.ok (1 / (sf / st)), false)

end Verif.Didv
