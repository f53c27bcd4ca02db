import Verif.DeviceLimitSpec
import Verif.NonLinErrSpec
import Verif.NonLinLimitSpec

import Mathlib.LinearAlgebra.Matrix.NonsingularInverse

/-! Vocabulary of property C153: dI/dV averages with noise of a small size, and the covariances which a fit of them reports. -/

namespace Verif.Device
open Verif Verif.Dft Verif.Didv MeasureTheory Filter Topology

/-- The average of measurements with little noise: in every bin with drive the response `W` plus the spectrum of noise of size `s`,
with the standard deviations of the real and the imaginary part of the latter as error bars; in the other bins some values with the
error bars which the code gives to bins without drive. -/
structure Averaged (o : Obj) {n : ℕ} [NeZero n] (W Z : ZMod n → ℂ) (noise R : ZMod n → ℝ) (s : ℝ) (p : Proc) : Prop where
  bins : p.nbins = n
  mean : ∀ k : ZMod n, drive o k ≠ 0 → p.didvmean k.val = W k + s * (fftR noise k / drive o k)
  err : ∀ k : ZMod n, drive o k ≠ 0 →
    p.didvstd k.val = (1 + Complex.I) * ((s * (Real.sqrt (n * (fftR R k).re / 2) / ‖drive o k‖) : ℝ) : ℂ)
  rest : ∀ k : ZMod n, drive o k = 0 → p.didvmean k.val = Z k ∧ p.didvstd k.val = (1 + Complex.I) * 10 ^ 20

/-- The bins below the cut-off. -/
def Below (fs : ℝ) (c : Option ℝ) {n : ℕ} [NeZero n] (k : ZMod n) : Prop := ∀ v ∈ c, |fftfreq fs k| < v

/-- Below the cut-off, there is noise in every bin with drive, and with every such bin also the opposite frequency has drive. -/
def Mirrored (o : Obj) (c : Option ℝ) {n : ℕ} [NeZero n] (R : ZMod n → ℝ) : Prop :=
  ∀ k : ZMod n, Below o.fs c k → drive o k ≠ 0 → drive o (-k) ≠ 0 ∧ 0 < (fftR R k).re

/-- The first `N` odd harmonics of `f0` are frequencies of bins with drive below the cut-off. -/
def DrivenBelow (o : Obj) (c : Option ℝ) (n : ℕ) [NeZero n] (f0 : ℝ) (N : ℕ) : Prop :=
  f0 ≠ 0 ∧ ∀ j : ℕ, j < N → ∃ k : ZMod n, Below o.fs c k ∧ drive o k ≠ 0 ∧ fftfreq o.fs k = (2 * j + 1) * f0

/-- No parameters near `x` have a smaller sum of squares. -/
def LocalBest (res : List ℝ → Except Err (List ℝ)) (x : List ℝ) : Prop :=
  ∃ r, res x = .ok r ∧ ∃ δ > 0, ∀ y q, NonLin.Close δ y x → res y = .ok q → (r.map fun v => v ^ 2).sum ≤ (q.map fun v => v ^ 2).sum

/-- The partial derivative of a residual by a parameter. -/
noncomputable def slope (res : List ℝ → Except Err (List ℝ)) (x : List ℝ) (i a : ℕ) : ℝ :=
  deriv (fun v => NonLin.entry (res (x.set a v)) i) (x.getD a 0)

/-- `c` is the inverse of the product of the Jacobian matrix, transposed, with itself. -/
def InverseGram (res : List ℝ → Except Err (List ℝ)) (x : List ℝ) (c : List (List ℝ)) : Prop :=
  ∃ r, res x = .ok r ∧ ∃ G : Matrix (Fin x.length) (Fin x.length) ℝ,
    (∀ a b, G a b = ∑ i ∈ Finset.range r.length, slope res x i a * slope res x i b) ∧ IsUnit G.det ∧
    ∀ a b : Fin x.length, (c.getD a []).getD b 0 = G⁻¹ a b

/-- An optimiser which, from wherever it is started on these points, returns a local minimum and a covariance computed with the
derivatives there. -/
def Minimises (ls : LS) (pts : List Pt) : Prop := ∀ p0 bounds,
  LocalBest (residual pts) (ls (residual pts) p0 bounds).x ∧
    ∀ c, (ls (residual pts) p0 bounds).cov = .ok c → InverseGram (residual pts) (ls (residual pts) p0 bounds).x c

/-- `r` is what a successful fit of averages with noise of size `s` has stored, and the optimiser did its work. -/
def Stored (o : Obj) {n : ℕ} [NeZero n] (W Z : ZMod n → ℂ) (noise R : ZMod n → ℝ) (poles : ℤ) (c : Option ℝ) (s : ℝ)
    (r : Result) : Prop :=
  ∃ x o' p, Averaged o W Z noise R s p ∧ Minimises x.ls (fitPts p o.fs c) ∧
    dofit x { o with proc := some p } poles c = (.ok (), o') ∧ fitresult o' poles = .found r

/-- Fits of ever less noise, whose parameters approach `truth`. -/
def Approaching {Ω : Type*} (o : Obj) {n : ℕ} [NeZero n] (W : ZMod n → ℂ) (noise : Ω → ZMod n → ℝ) (R : ZMod n → ℝ) (poles : ℤ)
    (c : Option ℝ) (truth : List ℝ) (r : Ω → ℝ → Result) : Prop :=
  (∀ ω, ∃ Z, ∀ᶠ s in 𝓝[>] 0, Stored o W Z (noise ω) R poles c s (r ω s)) ∧
    ∀ ω ε, 0 < ε → ∀ᶠ s in 𝓝[>] 0, NonLin.Close ε (r ω s).params truth

/-- For noise of size `s`, the errors of the parameters are `s * D` to first order, and the reported covariances `s² * C`. -/
def Limits {Ω : Type*} {d : ℕ} (truth : List ℝ) (r : Ω → ℝ → Result) (D : Ω → Fin d → ℝ) (C : Matrix (Fin d) (Fin d) ℝ) : Prop :=
  (∀ ω (i : Fin d), Tendsto (fun s => ((r ω s).params.getD i 0 - truth.getD i 0) / s) (𝓝[>] 0) (𝓝 (D ω i))) ∧
    ∀ ω (i j : Fin d), Tendsto (fun s => (((r ω s).cov.getD i []).getD j 0) / s ^ 2) (𝓝[>] 0) (𝓝 (C i j))

/-- To first order, the errors of the parameters have mean zero, and covariances twice as large as those reported. -/
def Doubled {Ω : Type*} [MeasurableSpace Ω] (μ : Measure Ω) (d : ℕ) (truth : List ℝ) (r : Ω → ℝ → Result) : Prop :=
  ∃ (D : Ω → Fin d → ℝ) (C : Matrix (Fin d) (Fin d) ℝ), Limits truth r D C ∧ (∀ i, 0 < C i i) ∧
    (∀ i, MemLp (fun ω => D ω i) 2 μ) ∧ (∀ i, ∫ ω, D ω i ∂μ = 0) ∧ ∀ i j, ∫ ω, D ω i * D ω j ∂μ = 2 * C i j

/-- To first order, the error of some parameter has a variance which is not larger than reported. -/
def Covered {Ω : Type*} [MeasurableSpace Ω] (μ : Measure Ω) (d : ℕ) (truth : List ℝ) (r : Ω → ℝ → Result) : Prop :=
  ∃ (D : Ω → Fin d → ℝ) (C : Matrix (Fin d) (Fin d) ℝ), Limits truth r D C ∧ ∃ i, ∫ ω, D ω i ^ 2 ∂μ ≤ C i i

end Verif.Device
