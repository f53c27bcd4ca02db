import Verif.NonLinPlot

/-! Specification vocabulary for the plot of the non-linear fit. -/

namespace Verif.NonLin
open Verif

variable {n : ℕ}

/-- The fitted parameters in the order of the arrays, each with the factor from SI units to those of the legend. -/
def parNames (npole : ℤ) : List (String × ℝ) :=
  if npole = 4 then [("A", 10 ^ 6), ("B", 10 ^ 6), ("C", 10 ^ 6), ("tau_r", 10 ^ 6), ("tau_f1", 10 ^ 6),
    ("tau_f2", 10 ^ 6), ("tau_f3", 10 ^ 6), ("t0", 10 ^ 3)]
  else if npole = 3 then [("A", 10 ^ 6), ("B", 10 ^ 6), ("tau_r", 10 ^ 6), ("tau_f1", 10 ^ 6), ("tau_f2", 10 ^ 6),
    ("t0", 10 ^ 3)]
  else if npole = 2 then [("A", 10 ^ 6), ("tau_r", 10 ^ 6), ("tau_f", 10 ^ 6), ("t0", 10 ^ 3)]
  else [("A", 10 ^ 6), ("tau_f", 10 ^ 6), ("t0", 10 ^ 3)]

/-- The rise time. -/
def Obj.riseOf (o : Obj n) (params : List ℝ) : Option ℝ :=
  if o.npole = 4 then params[3]? else if o.npole = 3 then params[2]? else if o.npole = 2 then params[1]? else o.taurise

/-- The (first) fall time. -/
def Obj.fallOf (o : Obj n) (params : List ℝ) : Option ℝ :=
  if o.npole = 4 then params[4]? else if o.npole = 3 then params[3]? else if o.npole = 2 then params[2]?
  else params[1]?

/-- The number of fall times shown after the start. -/
def fallsOf (npole : ℤ) : ℝ := if npole = 4 ∨ npole = 3 then 9 else 7

end Verif.NonLin
