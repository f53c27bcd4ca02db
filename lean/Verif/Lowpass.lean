import Verif.Np
import Mathlib.Analysis.SpecialFunctions.Trigonometric.Basic

/-!
Model of `lowpassfilter`, `/repo/qetpy/utils/_utils.py` lines 357-386, for the default `order=1`.

The two calls into scipy are written out: `signal.butter(1, Wn)` is the first-order Butterworth
filter under the bilinear transform, `signal.filtfilt(b, a, x, padtype='even')` is the padded
forward and backward filter with its default `padlen`.  `traces` is one row; scipy filters every row
of the array alike.
-/

namespace Verif.Lowpass

/-- `butter(1, Wn)` returns `b = [g, g]` and `a = [1, -r]`. -/
structure Coeffs where
  g : ℝ
  r : ℝ

/-- `signal.butter(1, Wn)`: the pole of the prototype at `-tan(pi Wn / 2)` (in units of the bilinear
transform) goes to `r`.  Frequencies outside `(0, 1)` raise `ValueError`. -/
noncomputable def butter1 (Wn : ℝ) : Except Err Coeffs :=
  if 0 < Wn ∧ Wn < 1 then
    let t := Real.tan (Real.pi * Wn / 2)
    .ok { g := t / (1 + t), r := (1 - t) / (1 + t) }
  else .error .valueError

/-- `signal.lfilter([g, g], [1, -r], x, zi=[z])`, transposed direct form. -/
def lfilter (c : Coeffs) : ℝ → List ℝ → List ℝ
  | _, [] => []
  | z, x :: xs =>
    let y := c.g * x + z
    y :: lfilter c (c.g * x + c.r * y) xs

/-- `signal.lfilter_zi`: the state of the filter at rest at a constant input `1`. -/
noncomputable def lfilterZi (c : Coeffs) : ℝ := (c.g + c.r * c.g) / (1 - c.r)

/-- `even_ext(x, 6)`: six samples reflected at each end, the end samples not repeated. -/
def evenExt (x : List ℝ) : List ℝ :=
  ((x.drop 1).take 6).reverse ++ x ++ (x.reverse.drop 1).take 6

/-- One pass: the filter started at rest at the first sample. -/
noncomputable def pass (c : Coeffs) (x : List ℝ) : List ℝ := lfilter c (lfilterZi c * x.headD 0) x

/-- `signal.filtfilt(b, a, x, padtype='even')`: `padlen` is `3*max(len(a), len(b)) = 6`; shorter
traces raise `ValueError`. -/
noncomputable def filtfilt (c : Coeffs) (x : List ℝ) : Except Err (List ℝ) :=
  if x.length ≤ 6 then .error .valueError
  else
    let y := pass c (evenExt x)
    let w := (pass c y.reverse).reverse
    .ok ((w.drop 6).take x.length)

/-- `lowpassfilter(traces, cut_off_freq, fs)`, lines 381-386.  `fs = 0` divides by zero. -/
noncomputable def lowpass (x : List ℝ) (cut fs : ℝ) : Except Err (List ℝ) :=
  if fs = 0 then .error .zeroDivision
  else
    match butter1 (cut / ((1 / 2) * fs)) with
    | .error e => .error e
    | .ok c => filtfilt c x

end Verif.Lowpass
