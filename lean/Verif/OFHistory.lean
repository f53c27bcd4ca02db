import Verif.OFLemmas
import Verif.OFHistorySpec

/-! Helper lemmas for history independence: a representation invariant of the cached attributes. -/

namespace Verif.OF
open Verif Verif.Dft

variable {n : ℕ} [NeZero n]

/-- The object with every cache empty. -/
def core (st : State n) : State n :=
  { st with chi0 := none, chit := none, amps := none, chi := none, sfTd := none,
            times := none, freqs := none }

/-- Every cache is empty or holds the value a fresh computation would give. -/
structure Inv (st : State n) : Prop where
  chi0 : st.chi0 = none ∨ st.chi0 = some (readChi0 (core st))
  chit : st.chit = none ∨ st.chit = some (readChit (core st))
  amps : st.amps = none ∨ st.amps = some (readAmps (core st))
  chi : st.chi = none ∨ st.chi = some (readChi (core st))
  sfTd : st.sfTd = none ∨ st.sfTd = some (readSfTd (core st))
  times : st.times = none ∨ st.times = some (readTimes (core st))
  freqs : st.freqs = none ∨ st.freqs = some (readFreqs (core st))

theorem inv_init (x T : ZMod n → ℝ) (psd fs ac b) : Inv (init x T psd fs ac b) := by
  constructor <;> exact Or.inl rfl

variable {st : State n}

theorem Inv.rFreqs (h : Inv st) : readFreqs st = readFreqs (core st) := by
  rcases h.freqs with h1 | h1
  · unfold readFreqs; rw [h1]; rfl
  · conv_lhs => unfold readFreqs
    rw [h1]; rfl

theorem Inv.rChi0 (h : Inv st) : readChi0 st = readChi0 (core st) := by
  rcases h.chi0 with h1 | h1
  · unfold readChi0; rw [h1]; rfl
  · conv_lhs => unfold readChi0
    rw [h1]; rfl

theorem Inv.rSfTd (h : Inv st) : readSfTd st = readSfTd (core st) := by
  rcases h.sfTd with h1 | h1
  · unfold readSfTd; rw [h1]; rfl
  · conv_lhs => unfold readSfTd
    rw [h1]; rfl

theorem Inv.rChit (h : Inv st) : readChit st = readChit (core st) := by
  rcases h.chit with h1 | h1
  · unfold readChit; rw [h1, h.rSfTd]; rfl
  · conv_lhs => unfold readChit
    rw [h1]; rfl

theorem Inv.rChi (h : Inv st) : readChi st = readChi (core st) := by
  rcases h.chi with h1 | h1
  · unfold readChi; rw [h1, h.rChi0, h.rChit]; rfl
  · conv_lhs => unfold readChi
    rw [h1]; rfl

theorem Inv.rAmps (h : Inv st) : readAmps st = readAmps (core st) := by
  rcases h.amps with h1 | h1
  · unfold readAmps; rw [h1, h.rSfTd]; rfl
  · conv_lhs => unfold readAmps
    rw [h1]; rfl

theorem Inv.rTimes (h : Inv st) : readTimes st = readTimes (core st) := by
  rcases h.times with h1 | h1
  · unfold readTimes; rw [h1]; rfl
  · conv_lhs => unfold readTimes
    rw [h1]; rfl

/-! Filling a cache keeps the invariant and the core. -/

theorem Inv.fFreqs (h : Inv st) : Inv (fillFreqs st) :=
  ⟨h.chi0, h.chit, h.amps, h.chi, h.sfTd, h.times, Or.inr (congrArg some h.rFreqs)⟩

theorem Inv.fChi0 (h : Inv st) : Inv (fillChi0 st) :=
  ⟨Or.inr (congrArg some h.rChi0), h.chit, h.amps, h.chi, h.sfTd, h.times, h.freqs⟩

theorem Inv.fSfTd (h : Inv st) : Inv (fillSfTd st) :=
  ⟨h.chi0, h.chit, h.amps, h.chi, Or.inr (congrArg some h.rSfTd), h.times, h.freqs⟩

theorem Inv.fChit (h : Inv st) : Inv (fillChit st) :=
  ⟨h.chi0, Or.inr (congrArg some h.rChit), h.amps, h.chi, h.sfTd, h.times, h.freqs⟩

theorem Inv.fChi (h : Inv st) : Inv (fillChi st) :=
  ⟨h.chi0, h.chit, h.amps, Or.inr (congrArg some h.rChi), h.sfTd, h.times, h.freqs⟩

theorem Inv.fAmps (h : Inv st) : Inv (fillAmps st) :=
  ⟨h.chi0, h.chit, Or.inr (congrArg some h.rAmps), h.chi, h.sfTd, h.times, h.freqs⟩

theorem Inv.fTimes (h : Inv st) : Inv (fillTimes st) :=
  ⟨h.chi0, h.chit, h.amps, h.chi, h.sfTd, Or.inr (congrArg some h.rTimes), h.freqs⟩

theorem Inv.update (h : Inv st) (x : ZMod n → ℝ) : Inv (updateSignal st x) :=
  ⟨Or.inl rfl, Or.inl rfl, Or.inl rfl, Or.inl rfl, Or.inl rfl, h.times, h.freqs⟩

/-- Every method keeps the invariant. -/
theorem Inv.step (h : Inv st) (op : Op n) : Inv (step st op).2 := by
  cases op with
  | updateSignal x => exact h.update x
  | energyResolution => exact h
  | timeResolution a => exact h.fFreqs
  | chi2Nopulse => exact h.fChi0
  | chi2Lowfreq a t f => exact h.fFreqs
  | nodelay wc =>
    by_cases hw : wc = 0
    · subst hw; exact h.fChi0
    · have : (OF.step st (.nodelay wc)).2 = fillChi0 (fillFreqs st) := by
        simp [OF.step, nodelay, hw]
      rw [this]; exact h.fFreqs.fChi0
  | withdelay nc o d wc i => exact h.fSfTd.fChi0.fChit.fChi.fAmps
  | pileupIterative a1 t1 nc o d wc i =>
    have : (OF.step st (.pileupIterative a1 t1 nc o d wc i)).2 =
        fillChi0 (fillTimes (fillSfTd (fillFreqs st))) := by
      simp only [OF.step, pileupIterative]
      split_ifs <;> rfl
    rw [this]; exact h.fFreqs.fSfTd.fTimes.fChi0
  | pileupStationary nc o wc => exact h.fSfTd.fTimes.fChi0
  | baseline nc o d wc i => exact h

/-- Every method except `update_signal` keeps the core. -/
theorem core_step (op : Op n) (hop : ∀ x, op ≠ .updateSignal x) : core (step st op).2 = core st := by
  cases op with
  | updateSignal x => exact absurd rfl (hop x)
  | nodelay wc =>
    by_cases hw : wc = 0
    · subst hw; rfl
    · simp [step, nodelay, hw, core, fillChi0, fillFreqs]
  | pileupIterative a1 t1 nc o d wc i =>
    simp only [step, pileupIterative]
    split_ifs <;> rfl
  | _ => rfl

theorem core_update (x y T : ZMod n → ℝ) (psd fs ac b) (h : core st = init x T psd fs ac b) :
    core (updateSignal st y) = init y T psd fs ac b := by
  have e1 : core (updateSignal st y) = core (updateSignal (core st) y) := rfl
  rw [e1, h]; rfl

/-- Every method returns what it would return with empty caches. -/
theorem Inv.out (h : Inv st) (op : Op n) : (OF.step st op).1 = (OF.step (core st) op).1 := by
  have h1 := h.rFreqs
  have h2 := h.rChi0
  have h3 := h.rSfTd
  have h5 := h.rChi
  have h6 := h.rAmps
  have h7 := h.rTimes
  have k1 : (core st).df = st.df := rfl
  have k2 : (core st).w = st.w := rfl
  have k3 : (core st).s = st.s := rfl
  have k4 : (core st).phi = st.phi := rfl
  have k5 : (core st).v = st.v := rfl
  have k6 : (core st).norm = st.norm := rfl
  have k7 : (core st).fs = st.fs := rfl
  have k8 : (core st).signalfilt = st.signalfilt := rfl
  have t1 : ∀ t, tfTdAt st t = tfTdAt (core st) t := by intro t; unfold tfTdAt; rw [h1, k1, k3, k4]
  have t2 : tfTd st = tfTd (core st) := rfl
  have t3 : ∀ t, t1Index st t = t1Index (core st) t := fun _ => rfl
  have t4 : ∀ a t, pileupA2 st a t = pileupA2 (core st) a t := by
    intro a t; unfold pileupA2; rw [h3, t1, k6]
  have t5 : ∀ a t, pileupChit st a t = pileupChit (core st) a t := by
    intro a t; unfold pileupChit; rw [h3, t3, k6]
  have t6 : ∀ a t, pileupChi st a t = pileupChi (core st) a t := by
    intro a t; unfold pileupChi; simp only [t4, t5, t1, h2, h3, k6]
  have s1 : statA1 st = statA1 (core st) := by unfold statA1; rw [h3, t2, k6]
  have s2 : statA2 st = statA2 (core st) := by unfold statA2; rw [h3, t2, k6]
  have s3 : statChi st = statChi (core st) := by
    unfold statChi; simp only [s1, s2, t2, h2, h3, k6]
  cases op with
  | updateSignal x => rfl
  | energyResolution => rfl
  | timeResolution a => simp only [OF.step, timeResolution, h1, k1, k2, k3]
  | chi2Nopulse => simp only [OF.step, chi2Nopulse, h2]
  | chi2Lowfreq a t f => simp only [OF.step, chi2Lowfreq, h1, k1, k2, k3, k5]
  | nodelay wc => simp only [OF.step, nodelay, h1, h2, k1, k6, k7, k8]
  | withdelay nc o d wc i => simp only [OF.step, withdelay, h2, h5, h6, k7]
  | pileupIterative a1 t1 nc o d wc i =>
    simp only [OF.step, pileupIterative, t3, t4, t5, t6, h2, h7, k7]
    split_ifs <;> rfl
  | pileupStationary nc o wc => simp only [OF.step, pileupStationary, s1, s2, s3, t2, h7, k6]
  | baseline nc o d wc i => rfl

theorem run_inv (T : ZMod n → ℝ) (psd fs ac b) : ∀ (ops : List (Op n)) (x : ZMod n → ℝ) (st : State n),
    Inv st → core st = init x T psd fs ac b →
    Inv (run st ops) ∧ core (run st ops) = init (lastSignal x ops) T psd fs ac b
  | [], x, st, h, hc => ⟨h, hc⟩
  | op :: ops, x, st, h, hc => by
    cases op with
    | updateSignal y => exact run_inv T psd fs ac b ops y _ (h.step _) (core_update x y T psd fs ac b hc)
    | energyResolution => exact run_inv T psd fs ac b ops x _ (h.step _) ((core_step _ (by simp)).trans hc)
    | timeResolution a => exact run_inv T psd fs ac b ops x _ (h.step _) ((core_step _ (by simp)).trans hc)
    | chi2Nopulse => exact run_inv T psd fs ac b ops x _ (h.step _) ((core_step _ (by simp)).trans hc)
    | chi2Lowfreq a t f => exact run_inv T psd fs ac b ops x _ (h.step _) ((core_step _ (by simp)).trans hc)
    | nodelay wc => exact run_inv T psd fs ac b ops x _ (h.step _) ((core_step _ (by simp)).trans hc)
    | withdelay nc o d wc i =>
      exact run_inv T psd fs ac b ops x _ (h.step _) ((core_step _ (by simp)).trans hc)
    | pileupIterative a1 t1 nc o d wc i =>
      exact run_inv T psd fs ac b ops x _ (h.step _) ((core_step _ (by simp)).trans hc)
    | pileupStationary nc o wc =>
      exact run_inv T psd fs ac b ops x _ (h.step _) ((core_step _ (by simp)).trans hc)
    | baseline nc o d wc i =>
      exact run_inv T psd fs ac b ops x _ (h.step _) ((core_step _ (by simp)).trans hc)

end Verif.OF
