import Verif.Noise

/-! Specification of changes of a set of noise traces: other order of the traces or the channels, other
units, other offsets. -/

namespace Verif.Noise
open Verif Verif.Dft

variable {n m c : ℕ} [NeZero n]

/-- The object with its traces in another order. -/
def Obj.reorder (σ : Equiv.Perm (Fin m)) (o : Obj m c n) : Obj m c n :=
  { o with traces := fun t => o.traces (σ t) }

/-- The object with its channels in another order, and all results with them. -/
def Obj.rewire (ρ : Equiv.Perm (Fin c)) (o : Obj m c n) : Obj m c n :=
  { o with
    traces := fun t i => o.traces t (ρ i)
    psd := o.psd.map fun p i => p (ρ i)
    realPsd := o.realPsd.map fun p i => p (ρ i)
    imagPsd := o.imagPsd.map fun p i => p (ρ i)
    csd := o.csd.map fun d =>
      { csd := fun i j => d.csd (ρ i) (ρ j)
        real := fun i j => d.real (ρ i) (ρ j)
        imag := fun i j => d.imag (ρ i) (ρ j) }
    corrcoeff := o.corrcoeff.map fun p i j => p (ρ i) (ρ j)
    uncorr := o.uncorr.map fun p i => p (ρ i)
    corr := o.corr.map fun p i => p (ρ i) }

/-- The object with channel `i` in units of `1 / a i` and times in units of `r`: spectral densities
get the factors of the amplitudes and the factor of time. -/
noncomputable def Obj.rescale (a : Fin c → ℝ) (r : ℝ) (o : Obj m c n) : Obj m c n :=
  { traces := fun t i s => a i * o.traces t i s
    fs := r * o.fs
    time := fun s => o.time s / r
    psd := o.psd.map fun p i k => a i ^ 2 / r * p i k
    realPsd := o.realPsd.map fun p i k => a i ^ 2 / r * p i k
    imagPsd := o.imagPsd.map fun p i k => a i ^ 2 / r * p i k
    csd := o.csd.map fun d =>
      { csd := fun i j k => ((a i * a j / r : ℝ) : ℂ) * d.csd i j k
        real := fun i j k => a i * a j / r * d.real i j k
        imag := fun i j k => a i * a j / r * d.imag i j k }
    corrcoeff := o.corrcoeff
    uncorr := o.uncorr.map fun p i k => a i ^ 2 / r * p i k
    corr := o.corr.map fun p i k => a i ^ 2 / r * p i k }

/-- `o'` is `o` with constants added to the traces: the same results but for the power spectra and the
correlation coefficients at zero frequency. -/
structure Offset (b : Fin m → Fin c → ℝ) (o o' : Obj m c n) : Prop where
  traces : ∀ t i s, o'.traces t i s = o.traces t i s + b t i
  fs : o'.fs = o.fs
  time : o'.time = o.time
  psd : Option.Rel (fun p p' => ∀ i, ∀ k ≠ 0, p' i k = p i k) o.psd o'.psd
  realPsd : Option.Rel (fun p p' => ∀ i, ∀ k ≠ 0, p' i k = p i k) o.realPsd o'.realPsd
  imagPsd : Option.Rel (fun p p' => ∀ i, ∀ k ≠ 0, p' i k = p i k) o.imagPsd o'.imagPsd
  csd : o'.csd = o.csd
  corrcoeff : Option.Rel (fun p p' => ∀ i j, ∀ k ≠ 0, p' i j k = p i j k) o.corrcoeff o'.corrcoeff
  uncorr : o'.uncorr = o.uncorr
  corr : o'.corr = o.corr

/-- What a call on an object returns or raises. -/
noncomputable def outcome (o : Obj m c n) : Op → Except Err Unit
  | .removeTraceSlope => .ok ()
  | .calculatePsd => .ok ()
  | .calculateCorrcoeff => (calculateCorrcoeff o).1
  | .calculateCsd => (calculateCsd o).1
  | .calculateUncorrNoise => (calculateUncorrNoise o).1

end Verif.Noise
