import Verif.DidvPlot
import Verif.DidvWaveSpec

/-! Specification vocabulary for the drawings. -/

namespace Verif.Didv
open Verif Dft

/-- The fit with `k` poles is asked for. -/
def Requested : Poles → ℤ → Prop
  | .all, k => k = 1 ∨ k = 2 ∨ k = 3
  | .one j, k => k = j
  | .list l, k => k ∈ l

/-- The result of a lookup, for drawing. -/
def Lookup.plotFit : Lookup → Option PlotFit
  | .found r => some r.plotFit
  | _ => none

/-- A fit reproduces the averaged data at one bin: the admittance delayed by the time shift of the fit. -/
def FitsBin (v : View) (f : PlotFit) (k : ℕ) : Prop :=
  ∃ y, complexadmittance (v.freq k) f.args = .ok y ∧
    v.proc.didvmean k = y * Complex.exp (-2 * Complex.I * Real.pi * v.freq k * f.dt)

/-- The trace has `n` bins taken at the rate `fs`, its first bin at the time `t0`, and the stored offset is
its mean. -/
structure Sampled (v : View) (n : ℕ) (t0 : ℝ) : Prop where
  nbins : v.proc.nbins = n
  fs_pos : 0 < v.fs
  time : ∀ i, v.proc.time i = i / v.fs + t0
  offset : v.proc.offset = (∑ i ∈ Finset.range n, v.proc.tmean i) / n

/-- The averaged trace as an array on the residues. -/
def View.trace (v : View) (n : ℕ) (j : ZMod n) : ℝ := v.proc.tmean j.val

/-- The drawn curve `c`, which is moved by `s` bins with respect to the drawn curve `d`, runs through the
points of `d` where the two overlap. -/
def Coincide (c d : Curve) (s : ℤ) : Prop :=
  ∀ i j : ℕ, i < c.length → j < d.length → (j : ℤ) = i + s → c[i]? = d[j]?

end Verif.Didv
