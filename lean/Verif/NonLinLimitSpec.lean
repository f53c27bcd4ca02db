import Verif.NonLinRecSpec

/-! Vocabulary of property C147: fits which are no worse than the truth, and averaged pulses. -/

namespace Verif.NonLin
open Verif

variable {n : ℕ} [NeZero n]

/-- Lists of numbers which are within `ε` of each other. -/
def Close (ε : ℝ) (x y : List ℝ) : Prop := List.Forall₂ (fun a b => |a - b| < ε) x y

/-- `x` is what some successful `fit_falltimes` of the trace `pulse` returns, with whatever optimiser, if this stayed
within the default bounds and the reported `chi2` is not larger than that of the parameters `truth`. -/
def Finding (psd : ZMod n → ℝ) (fs : ℝ) (tmpl : Option (List ℝ)) (npole : ℤ) (errscale : ℝ) (guess : List ℝ)
    (tau : Option ℝ) (scale : Bool) (truth : List ℝ) (pulse : ZMod n → ℝ) (x : List ℝ) : Prop :=
  ∃ solve o r, (init psd fs tmpl).fit pulse npole errscale (some guess) none tau scale solve = (o, .ok r) ∧
    r.lsq.x = x ∧ Within (o.defaultBounds guess) x ∧
    ∀ m c, o.model truth = .ok m → o.calcchi2 m (dofOf npole) = .ok c → r.chi2 ≤ c

/-- The same for `fitmuontail`. -/
def MuonFinding (psd : ZMod n → ℝ) (fs errscale A τ : ℝ) (signal : ZMod n → ℝ) (x : List ℝ) : Prop :=
  ∃ solve r, muonFit psd fs signal errscale solve = .ok r ∧ r.lsq.x = x ∧
    r.chi2 ≤ (Muon.prepare psd fs signal errscale).calcchi2 ((Muon.prepare psd fs signal errscale).fcn A τ)

/-- The average of the first `m` traces, each the pulse with its noise. -/
noncomputable def averaged (pulse : ZMod n → ℝ) (noise : ℕ → ZMod n → ℝ) (m : ℕ) : ZMod n → ℝ :=
  fun j => (∑ i ∈ Finset.range m, (pulse j + noise i j)) / m

end Verif.NonLin
