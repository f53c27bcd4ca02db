import Verif.DidvErrSpec
import Verif.DevicePriorsSpec

/-! Vocabulary of property C155: the covariances which a fit with priors reports, and those of its errors. -/

namespace Verif.Device
open Verif Verif.Dft Verif.Didv MeasureTheory Filter Topology

/-- The value of a function which may raise. -/
def value : Except Err ℝ → ℝ
  | .ok v => v
  | .error _ => 0

/-- The partial derivative by parameter `a`. -/
noncomputable def partialBy (f : List ℝ → Except Err ℝ) (a : ℕ) (x : List ℝ) : ℝ :=
  deriv (fun v => value (f (x.set a v))) (x.getD a 0)

/-- The second partial derivative by the parameters `a` and `b`. -/
noncomputable def curvature (f : List ℝ → Except Err ℝ) (x : List ℝ) (a b : ℕ) : ℝ :=
  deriv (fun v => partialBy f b (x.set a v)) (x.getD a 0)

/-- No parameters near `x` and within the limits have a smaller cost. -/
def LocalLeast (f : List ℝ → Except Err ℝ) (x : List ℝ) : Prop :=
  ∃ v, f x = .ok v ∧ ∃ δ > 0, ∀ y q, NonLin.Close δ y x → Within y → f y = .ok q → v ≤ q

/-- `c` is the inverse of the matrix of second derivatives. -/
def InverseHessian (f : List ℝ → Except Err ℝ) (x : List ℝ) (c : List (List ℝ)) : Prop :=
  ∃ G : Matrix (Fin x.length) (Fin x.length) ℝ, (∀ a b : Fin x.length, G a b = curvature f x a b) ∧ IsUnit G.det ∧
    ∀ a b : Fin x.length, (c.getD a []).getD b 0 = G⁻¹ a b

/-- A minimiser which, from wherever it is started on this cost, returns a local minimum and the covariance which follows from the
second derivatives there (what `Minuit` computes for `errordef = 0.5`). -/
def Settles (mn : Minimiser) (f : List ℝ → Except Err ℝ) : Prop := ∀ p0,
  LocalLeast f (mn f p0).x ∧ ∀ c, (mn f p0).cov = some c → InverseHessian f (mn f p0).x c

/-- Priors which miss the truth by `s` times the stated standard deviations `σ` times `g`, where something is known. -/
def Believed {d : ℕ} (priors truth : List ℝ) (σ g : Fin d → ℝ) (s : ℝ) : Prop :=
  priors.length = d ∧ ∀ i, σ i ≠ 0 → priors.getD i 0 = truth.getD i 0 + s * (σ i * g i)

/-- `r` is what a successful fit with priors of averages with noise of size `s` has stored, and the minimiser did its work. -/
def StoredP (o : Obj) {n : ℕ} [NeZero n] (W Z : ZMod n → ℂ) (noise R : ZMod n → ℝ) (poles : ℤ) (c : Option ℝ) {d : ℕ}
    (truth : List ℝ) (σ g : Fin d → ℝ) (s : ℝ) (r : PResult) : Prop :=
  ∃ x mn o' p priors, Averaged o W Z noise R s p ∧ Believed priors truth σ g s ∧
    Settles mn (nll poles (fitPtsP o p c) priors ⟨d, pinv (independent fun i => s * σ i).m⟩) ∧
    dofitP x mn ⟨{ o with proc := some p }, none, none, none⟩ poles priors (independent fun i => s * σ i) c = (.ok (), o') ∧
    fitresultP o' poles = some r

/-- Fits of ever less noise with ever better priors, whose parameters approach `truth`. -/
def ApproachingP {Ω : Type*} (o : Obj) {n : ℕ} [NeZero n] (W : ZMod n → ℂ) (noise : Ω → ZMod n → ℝ) (R : ZMod n → ℝ) (poles : ℤ)
    (c : Option ℝ) {d : ℕ} (truth : List ℝ) (σ : Fin d → ℝ) (g : Ω → Fin d → ℝ) (r : Ω → ℝ → PResult) : Prop :=
  (∀ ω, ∃ Z, ∀ᶠ s in 𝓝[>] 0, StoredP o W Z (noise ω) R poles c truth σ (g ω) s (r ω s)) ∧
    ∀ ω ε, 0 < ε → ∀ᶠ s in 𝓝[>] 0, NonLin.Close ε (r ω s).params truth

/-- Errors of the priors in units of their standard deviations: of mean zero and variance one, uncorrelated with each other and with
the noise. -/
structure FairPriors {Ω : Type*} [MeasurableSpace Ω] (μ : Measure Ω) {n d : ℕ} (noise : Ω → ZMod n → ℝ) (σ : Fin d → ℝ)
    (g : Ω → Fin d → ℝ) : Prop where
  sq : ∀ i, σ i ≠ 0 → MemLp (fun ω => g ω i) 2 μ
  mean : ∀ i, σ i ≠ 0 → ∫ ω, g ω i ∂μ = 0
  cov : ∀ i j, σ i ≠ 0 → σ j ≠ 0 → ∫ ω, g ω i * g ω j ∂μ = if i = j then 1 else 0
  cross : ∀ i m, σ i ≠ 0 → ∫ ω, noise ω m * g ω i ∂μ = 0

/-- The information in the priors. -/
noncomputable def priorInfo {d : ℕ} (σ : Fin d → ℝ) : Matrix (Fin d) (Fin d) ℝ := Matrix.diagonal fun i => if σ i = 0 then 0 else 1 / σ i ^ 2

/-- For noise of size `s`, the errors of the parameters are `s * D` to first order, and the reported covariances `s² * C`. -/
def LimitsP {Ω : Type*} {d : ℕ} (truth : List ℝ) (r : Ω → ℝ → PResult) (D : Ω → Fin d → ℝ) (C : Matrix (Fin d) (Fin d) ℝ) : Prop :=
  (∀ ω (i : Fin d), Tendsto (fun s => ((r ω s).params.getD i 0 - truth.getD i 0) / s) (𝓝[>] 0) (𝓝 (D ω i))) ∧
    ∀ ω (i j : Fin d), Tendsto (fun s => (((r ω s).cov.getD i []).getD j 0) / s ^ 2) (𝓝[>] 0) (𝓝 (C i j))

/-- To first order, the errors of the parameters have mean zero.  With `G` the information in the data as the fit counts it, twice too
much, the reported covariances are the inverse `C` of `G` plus the information in the priors, and those of the errors are
`C (2 G + priorInfo σ) C`.  No variance is smaller than reported, and those of the parameters without prior are larger. -/
def Overconfident {Ω : Type*} [MeasurableSpace Ω] (μ : Measure Ω) {d : ℕ} (truth : List ℝ) (σ : Fin d → ℝ) (r : Ω → ℝ → PResult) : Prop :=
  ∃ (D : Ω → Fin d → ℝ) (C G : Matrix (Fin d) (Fin d) ℝ), LimitsP truth r D C ∧ G.PosSemidef ∧ C * (G + priorInfo σ) = 1 ∧
    (∀ i, MemLp (fun ω => D ω i) 2 μ) ∧ (∀ i, ∫ ω, D ω i ∂μ = 0) ∧
    (∀ i j, ∫ ω, D ω i * D ω j ∂μ = (C * (2 • G + priorInfo σ) * C) i j) ∧
    (∀ i, 0 < C i i ∧ C i i ≤ ∫ ω, D ω i ^ 2 ∂μ) ∧ ∀ i, σ i = 0 → C i i < ∫ ω, D ω i ^ 2 ∂μ

/-- To first order, no parameter has an error of larger variance than reported. -/
def CoveredP {Ω : Type*} [MeasurableSpace Ω] (μ : Measure Ω) {d : ℕ} (truth : List ℝ) (r : Ω → ℝ → PResult) : Prop :=
  ∃ (D : Ω → Fin d → ℝ) (C : Matrix (Fin d) (Fin d) ℝ), LimitsP truth r D C ∧ ∀ i, ∫ ω, D ω i ^ 2 ∂μ ≤ C i i

/-- In every bin the response is that of a circuit of impedance `Z`, delayed by `dt`. -/
def Responds (o : Obj) {n : ℕ} [NeZero n] (W : ZMod n → ℂ) (Z : ℝ → ℂ) (dt : ℝ) : Prop :=
  ∀ k : ZMod n, Z (Dft.fftfreq o.fs k) ≠ 0 ∧
    W k = Complex.exp (-2 * Complex.I * Real.pi * Dft.fftfreq o.fs k * dt) / Z (Dft.fftfreq o.fs k)

end Verif.Device
