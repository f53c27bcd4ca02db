import Verif.NsmbUnitsSpec
import Verif.NsmbLemmas

/-! Specification of "the same backgrounds described by other templates". -/

namespace Verif.Nsmb.Spec

variable {n : ℕ} {nb nb' : ℕ}

/-- A trace is a combination of the given templates. -/
def Comb {ι : Type*} [Fintype ι] (S : ι → ZMod n → ℝ) (x : ZMod n → ℝ) : Prop :=
  ∃ b : ι → ℝ, ∀ τ, x τ = ∑ i, b i * S i τ

/-- The background templates. -/
def backgrounds (T : Fin (nb + 1) → ZMod n → ℝ) : Fin nb → ZMod n → ℝ := fun i => T i.succ

/-- Two descriptions of the same measurement: the same signal template, background templates with the same
combinations, and traces that differ by backgrounds. -/
structure Equivalent (T : Fin (nb + 1) → ZMod n → ℝ) (T' : Fin (nb' + 1) → ZMod n → ℝ) (p p' : ZMod n → ℝ) :
    Prop where
  signal : T' 0 = T 0
  same : ∀ x, Comb (backgrounds T') x ↔ Comb (backgrounds T) x
  trace : Comb (backgrounds T) fun τ => p' τ - p τ

end Verif.Nsmb.Spec

namespace Verif.Nsmb

/-- The results of `of_nsmb` other than the amplitudes. -/
noncomputable def Fit.rest {n nb : ℕ} (r : Fit n nb) : ℝ × ℝ × ℝ × (ZMod n → ℝ) × List ℤ :=
  (r.tdelmin, r.chi2min, r.chi2minlf, r.residT, r.window)

end Verif.Nsmb
