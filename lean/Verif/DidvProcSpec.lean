import Verif.DidvObj

/-! Specification vocabulary for the averages that `processtraces` stores. -/

namespace Verif.Didv
open Verif

/-- The traces which are used: those whose deconvolution, after division by the gain, is a number in each of
the first `nb` bins. -/
def Usable (o : Obj) (nb : ℕ) (t : ℕ → ℝ) : Prop :=
  ∀ k < nb, ∃ y, (deconvAt nb (1 / o.fs) (fun i => t i / o.gain) o.rsh o.sgamp o.sgfreq o.duty k).1 = .ok y

open Classical in
/-- The raw traces used. -/
noncomputable def used (o : Obj) (nb : ℕ) : List (ℕ → ℝ) := o.raw.filter fun t => decide (Usable o nb t)

/-- `e` is the standard error of the mean `m` of the values `l` (deviations averaged over all of them). -/
def IsStdErr (l : List ℝ) (m e : ℝ) : Prop :=
  0 ≤ e ∧ (l.length : ℝ) * m = l.sum ∧ ((l.length : ℝ) * e) ^ 2 = (l.map fun x => (x - m) ^ 2).sum

/-- The admittance of one trace at one bin. -/
noncomputable def traceDidv (o : Obj) (nb k : ℕ) (t : ℕ → ℝ) : ℂ :=
  deconvVal nb (1 / o.fs) (fun i => t i / o.gain) o.rsh o.sgamp o.sgfreq o.duty k

/-- An optimiser which finds the smallest sum of squares within its bounds. -/
def Optimal (ls : LS) : Prop := ∀ res p0 bounds x r, List.Forall₂ inB x bounds → res x = .ok r →
  (ls res p0 bounds).cost ≤ (r.map fun v => v ^ 2).sum / 2

end Verif.Didv
