import Mathlib.Data.EReal.Operations
import Mathlib.Data.ZMod.Basic

/-! Specification vocabulary for the dependence of the pulse fits on the units of amplitude and of
time, and on the time of the pulse. -/

namespace Verif.NonLin

/-- New units: one old unit of the trace is `s` new ones, one old unit of time is `τ` new ones. -/
structure Units where
  s : ℝ
  τ : ℝ
  hs : 0 < s
  hτ : 0 < τ

namespace Units
variable (u : Units)

/-- The dimensions of the parameters: `A, B, C, tau_r, tau_f1, tau_f2, tau_f3, t0`,
`A, B, tau_r, tau_f1, tau_f2, t0`, `A, tau_r, tau_f, t0`, `A, tau_f, t0` and, for the muon tail,
`A, tau`. -/
def factors : ℕ → List ℝ
  | 8 => [u.s, u.s, u.s, u.τ, u.τ, u.τ, u.τ, u.τ]
  | 6 => [u.s, u.s, u.τ, u.τ, u.τ, u.τ]
  | 4 => [u.s, u.τ, u.τ, u.τ]
  | 3 => [u.s, u.τ, u.τ]
  | 2 => [u.s, u.τ]
  | _ => []

/-- Parameter number `i` of `k` in the new units is the old one times this. -/
def factor (k i : ℕ) : ℝ := (u.factors k).getD i 1

/-- Parameters in the new units. -/
def params (p : List ℝ) : List ℝ := p.mapIdx fun i x => u.factor p.length i * x

/-- Bounds on `k` parameters in the new units. -/
noncomputable def bound (k : ℕ) (b : List EReal) : List EReal := b.mapIdx fun i x => (u.factor k i : EReal) * x

/-- Lower and upper bounds in the new units. -/
noncomputable def bounds (k : ℕ) (b : List EReal × List EReal) : List EReal × List EReal :=
  (u.bound k b.1, u.bound k b.2)

/-- A trace in the new units. -/
def trace {n : ℕ} (x : ZMod n → ℝ) : ZMod n → ℝ := fun i => u.s * x i

/-- A power spectral density (squared unit of the trace per frequency) in the new units. -/
def psd {n : ℕ} (J : ZMod n → ℝ) : ZMod n → ℝ := fun k => u.s ^ 2 * u.τ * J k

end Units

/-- Parameters of a pulse which comes later by `d`: the last one is the start time. -/
def later (d : ℝ) (p : List ℝ) : List ℝ := p.modify (p.length - 1) (· + d)

/-- The sum of squares. -/
def sumsq (r : List ℝ) : ℝ := (r.map (· ^ 2)).sum

/-- Parameters of the pulse of opposite sign: the amplitudes come first. -/
def flip (p : List ℝ) : List ℝ :=
  p.mapIdx fun i x => if i < (match p.length with | 8 => 3 | 6 => 2 | _ => 1) then -x else x

end Verif.NonLin
