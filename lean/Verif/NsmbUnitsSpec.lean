import Verif.Nsmb

/-! Specification of a change of units and of the order of the background templates for the multi-template
fits. -/

namespace Verif.Nsmb

variable {n : ℕ} [NeZero n] {nb : ℕ}

/-- The factors of the trace, of all templates, of the noise and of the sampling rate, and the new order of
the backgrounds. -/
structure Change (nb : ℕ) where
  signal : ℝ
  template : ℝ
  noise : ℝ
  rate : ℝ
  order : Equiv.Perm (Fin nb)

structure Change.Proper (u : Change nb) : Prop where
  signal : u.signal ≠ 0
  template : u.template ≠ 0
  noise : 0 < u.noise
  rate : 0 < u.rate

/-- The order of all templates: the signal stays the first. -/
def Change.idx (u : Change nb) : Equiv.Perm (Fin (nb + 1)) where
  toFun := Fin.cases 0 fun j => (u.order j).succ
  invFun := Fin.cases 0 fun j => (u.order.symm j).succ
  left_inv i := by refine Fin.cases ?_ (fun j => ?_) i <;> simp
  right_inv i := by refine Fin.cases ?_ (fun j => ?_) i <;> simp

/-- The templates. -/
def Change.templates (u : Change nb) (T : Fin (nb + 1) → ZMod n → ℝ) : Fin (nb + 1) → ZMod n → ℝ :=
  fun i s => u.template * T (u.idx i) s

/-- The PSD. -/
def Change.psd (u : Change nb) (psd : ZMod n → ℝ) : ZMod n → ℝ := fun f => u.noise * psd f

/-- The trace. -/
def Change.trace (u : Change nb) (p : ZMod n → ℝ) : ZMod n → ℝ := fun s => u.signal * p s

/-- A polarity: reversed if the amplitudes are. -/
noncomputable def Change.sign (u : Change nb) (c : ℤ) : ℤ := if u.signal * u.template < 0 then -c else c

/-- The polarities of all templates. -/
noncomputable def Change.signs (u : Change nb) (c : Fin (nb + 1) → ℤ) : Fin (nb + 1) → ℤ :=
  fun i => u.sign (c (u.idx i))

/-- Amplitudes. -/
noncomputable def Change.amps (u : Change nb) (a : Fin (nb + 1) → ℝ) : Fin (nb + 1) → ℝ :=
  fun i => u.signal / u.template * a (u.idx i)

/-- The factor of chi-squares. -/
noncomputable def Change.chi (u : Change nb) : ℝ := u.signal ^ 2 / (u.noise * u.rate)

/-- The results of `of_mb`. -/
noncomputable def Change.mb (u : Change nb) (r : (Fin nb → ℝ) × ℝ × ℝ) : (Fin nb → ℝ) × ℝ × ℝ :=
  (fun i => u.signal / u.template * r.1 (u.order i), u.chi * r.2.1, u.chi * r.2.2)

/-- The results of `of_nsmb`. -/
noncomputable def Change.fit (u : Change nb) (r : Fit n nb) : Fit n nb :=
  { amps := u.amps r.amps
    tdelmin := r.tdelmin / u.rate
    chi2min := u.chi * r.chi2min
    chi2minlf := u.chi * r.chi2minlf
    residT := fun s => u.signal * r.residT s
    window := r.window }

/-- Time, chi-square and amplitude of an interpolated minimum. -/
noncomputable def Change.point (u : Change nb) (r : ℝ × ℝ × ℝ) : ℝ × ℝ × ℝ :=
  (r.1 / u.rate, u.chi * r.2.1, u.signal / u.template * r.2.2)

/-- The results of a further window. -/
noncomputable def Change.win (u : Change nb) (r : WinFit) : WinFit :=
  { chi2 := u.chi * r.chi2
    asig := u.signal / u.template * r.asig
    tdel := r.tdel / u.rate
    interp := r.interp.map u.point }

/-- The results of `of_nsmb_con`. -/
noncomputable def Change.con (u : Change nb) (r : ConFit n nb) : ConFit n nb :=
  { amps := u.amps r.amps
    tdelmin := r.tdelmin / u.rate
    chi2min := u.chi * r.chi2min
    chi2minlf := u.chi * r.chi2minlf
    residT := fun s => u.signal * r.residT s
    interp := r.interp.map u.point
    wins := r.wins.map u.win }

/-- `of_nsmb` with the filter prepared by `of_nsmb_setup` and `of_nsmb_getiP`. -/
noncomputable def runNsmb (T : Fin (nb + 1) → ZMod n → ℝ) (psd : ZMod n → ℝ) (fs : ℝ) (p : ZMod n → ℝ)
    (window : List ℤ) (lf : ℕ) : Except Err (Fit n nb) :=
  (setup T psd fs).bind fun F => ofNsmb p F (getiP F.P) fs window lf

/-- `of_mb` with the filter prepared by `of_nsmb_setup`. -/
noncomputable def runMb (T : Fin (nb + 1) → ZMod n → ℝ) (psd : ZMod n → ℝ) (fs : ℝ) (p : ZMod n → ℝ)
    (c : Fin nb → ℤ) (lf : ℕ) : Except Err ((Fin nb → ℝ) × ℝ × ℝ) :=
  (setup T psd fs).bind fun F => ofMb p F c lf

/-- `of_nsmb_con` with the filter prepared by `of_nsmb_setup`. -/
noncomputable def runCon (T : Fin (nb + 1) → ZMod n → ℝ) (psd : ZMod n → ℝ) (fs : ℝ) (p : ZMod n → ℝ)
    (c : Fin (nb + 1) → ℤ) (window : List ℤ) (wins : List (List ℤ)) (lf : ℕ) : Except Err (ConFit n nb) :=
  (setup T psd fs).bind fun F => ofNsmbCon p F fs c window wins lf

end Verif.Nsmb
