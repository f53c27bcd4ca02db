import Verif.SimPlot
import Verif.SimSpec

/-! Specification vocabulary for the plots of simulated noise. -/

namespace Verif.SimPlot
open Verif Sim

/-- A point of the line with this label. -/
def OnLine (fig : List Line) (label : String) (p : ℝ × ℝ) : Prop := ∃ ln ∈ fig, ln.label = label ∧ p ∈ ln.pts

/-- At every frequency of the list at which the total has a point, each part has one, and the squares of the
heights of the parts add up to the square of the height of the total. -/
def Adds (fig : List Line) (parts : List String) (total : String) (f : ℝ) : Prop :=
  ∀ y, OnLine fig total (f, y) → ∃ h : String → ℝ, (∀ l ∈ parts, OnLine fig l (f, h l)) ∧
    (parts.map fun l => h l ^ 2).sum = y ^ 2

/-- The total is drawn at this frequency. -/
def Drawn (fig : List Line) (total : String) (f : ℝ) : Prop := ∃ y, OnLine fig total (f, y)

/-- Two lines of a plot coincide. -/
def Coincide (fig : List Line) (l m : String) : Prop :=
  ∀ p, OnLine fig l p ↔ OnLine fig m p

end Verif.SimPlot
