import Verif.NonLinRecSpec
import Verif.OFStatSpec

import Mathlib.Analysis.Calculus.Deriv.Basic
import Mathlib.MeasureTheory.Integral.Bochner.Basic

/-! Vocabulary of property C152: fits of traces with noise of a small size, and errors which are as reported. -/

namespace Verif.NonLin
open Verif Verif.Dft MeasureTheory Filter Topology

variable {n : ℕ}

/-- One of the residuals. -/
noncomputable def entry (e : Except Err (List ℝ)) (i : ℕ) : ℝ :=
  match e with
  | .ok l => l.getD i 0
  | .error _ => 0

/-- The returned Jacobian consists of the partial derivatives of the residuals at the returned point. -/
def TrueJac (res : List ℝ → Except Err (List ℝ)) (r : Lsq n) : Prop :=
  ∀ (i : Fin (2 * n)) (j : Fin r.x.length), HasDerivAt (fun v => entry (res (r.x.set j v)) i) (r.jac i j) (r.x.get j)

/-- An entry of the returned covariance matrix. -/
noncomputable def FitResult.covAt (r : FitResult n) (i j : ℕ) : ℝ :=
  if h : i < r.lsq.x.length ∧ j < r.lsq.x.length then r.cov ⟨i, h.1⟩ ⟨j, h.2⟩ else 0

/-- One of the returned errors. -/
noncomputable def FitResult.errorAt (r : FitResult n) (i : ℕ) : ℝ :=
  if h : i < r.lsq.x.length then r.errors ⟨i, h⟩ else 0

/-- `r` is what `fit_falltimes` of the trace `pulse` with the default bounds returns if its optimiser found the best point
and the derivatives there. -/
def BestFit [NeZero n] (psd : ZMod n → ℝ) (fs : ℝ) (tmpl : Option (List ℝ)) (npole : ℤ) (errscale : ℝ) (guess : List ℝ)
    (tau : Option ℝ) (scale : Bool) (pulse : ZMod n → ℝ) (r : FitResult n) : Prop :=
  ∃ solve o, (init psd fs tmpl).fit pulse npole errscale (some guess) none tau scale solve = (o, .ok r) ∧
    IsBest o.residuals (o.defaultBounds guess) r.lsq.x ∧ TrueJac o.residuals r.lsq

/-- The same for `fitmuontail` of the trace `signal`. -/
def MuonBest [NeZero n] (psd : ZMod n → ℝ) (fs errscale : ℝ) (signal : ZMod n → ℝ) (r : FitResult n) : Prop :=
  ∃ solve tau, muonFit psd fs signal errscale solve = .ok r ∧ muonTau fs signal = .ok tau ∧
    IsBest (muonRes (Muon.prepare psd fs signal errscale))
      ([0, 0], [((ampscale signal * 100 : ℝ) : EReal), ((tau * 100 : ℝ) : EReal)]) r.lsq.x ∧
    TrueJac (muonRes (Muon.prepare psd fs signal errscale)) r.lsq

/-- The autocovariance `R` has, outside the zero bin, the spectral density `psd` divided by `errscale`; the power of the zero
bin is not larger than what the fit assumes. -/
def StatedNoise [NeZero n] (R psd : ZMod n → ℝ) (fs errscale : ℝ) : Prop :=
  (∀ k, k ≠ 0 → fftR R k = ((fs * (psd k / errscale) : ℝ) : ℂ)) ∧ (fftR R 0).re ≤ fs * (10 ^ 40 / errscale)

/-- For noise of size `s`, the errors of the parameters are `s * D` to first order; the reported covariances approach `C`; the
mean of `D` is zero, and its covariance is at most `C`, with equality if `full`. -/
def Honest {Ω : Type*} [MeasurableSpace Ω] (μ : Measure Ω) (d : ℕ) (truth : List ℝ) (r : Ω → ℝ → FitResult n) (full : Prop) : Prop :=
  ∃ (D : Ω → Fin d → ℝ) (C : Matrix (Fin d) (Fin d) ℝ),
    (∀ ω (i : Fin d), Tendsto (fun s => ((r ω s).lsq.x.getD i 0 - truth.getD i 0) / s) (𝓝[≠] 0) (𝓝 (D ω i))) ∧
    (∀ ω (i j : Fin d), Tendsto (fun s => (r ω s).covAt i j) (𝓝[≠] 0) (𝓝 (C i j))) ∧
    (∀ ω (i : Fin d), Tendsto (fun s => (r ω s).errorAt i) (𝓝[≠] 0) (𝓝 (Real.sqrt (C i i)))) ∧
    (∀ i, 0 < C i i) ∧ (∀ i, MemLp (fun ω => D ω i) 2 μ) ∧ (∀ i, ∫ ω, D ω i ∂μ = 0) ∧
    (∀ w : Fin d → ℝ, ∫ ω, (∑ i, w i * D ω i) ^ 2 ∂μ ≤ ∑ i, ∑ j, w i * w j * C i j) ∧
    (full → ∀ i j, ∫ ω, D ω i * D ω j ∂μ = C i j)

end Verif.NonLin
