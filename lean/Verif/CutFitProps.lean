import Verif.CutFitLemmas

/-! Property C136: what `pileupcut` and `chi2cut` cut on. -/

namespace Verif.Cut
open Verif Verif.Dft Verif.OF Verif.OF.Fun

variable {n : ℕ} [NeZero n]

/-- `pileupcut` gives the outlier search the absolute amplitudes, and `chi2cut` the sums of squares,
of least-squares fits of a constant and the standard pulse at any position to the traces.  Both use
the same fits, so a trace's amplitude and its sum of squares belong together. -/
theorem cut_features (hn : 2 ≤ n) {fs : ℝ} (hfs : 0 < fs) {traces : List (ZMod n → ℝ)}
    (ht : traces ≠ []) :
    ∃ (T : ZMod n → ℝ) (l : List (ℝ × ℝ)), IsPulse fs T ∧
      List.Forall₂ (fun x p => BestFit fs T x p.1 p.2) traces l ∧
      (∀ env algo nsig rm, pileupcut env fs algo nsig rm traces =
        runAlgo env algo nsig traces.length (some (l.map fun p => |p.1|))) ∧
      ∀ env algo nsig, chi2cut env fs algo nsig traces =
        runAlgo env algo nsig traces.length (some (l.map fun p => p.2)) := by
  obtain ⟨l, hl, hb⟩ := ofAll_best hn hfs traces
  refine ⟨_, l, dummyTemplate_pulse hfs, hb, fun env algo nsig rm => ?_, fun env algo nsig => ?_⟩
  · have e : pileupcut env fs algo nsig false traces =
        runAlgo env algo nsig traces.length (some (l.map fun p => |p.1|)) := by
      unfold pileupcut
      rw [if_neg ht]
      simp only [Bool.false_eq_true, if_false, hl]
    cases rm with
    | false => exact e
    | true => rw [pileupcut_removemeans, e]
  · unfold chi2cut
    rw [if_neg ht]
    simp only [hl]

/-- There is exactly one standard pulse for each length and sampling rate. -/
theorem pulse_unique {fs : ℝ} (hfs : 0 < fs) : ∃! T : ZMod n → ℝ, IsPulse fs T :=
  ⟨_, dummyTemplate_pulse hfs, fun _ h => pulse_unique_of h (dummyTemplate_pulse hfs)⟩

/-- Traces which are pulses of the standard shape, each at its own place and on its own baseline: the
pile-up cut looks at their heights and the chi-square cut at zeros. -/
theorem cut_pulses (hn : 2 ≤ n) {fs : ℝ} (hfs : 0 < fs) {T : ZMod n → ℝ} (hT : IsPulse fs T)
    {ps : List (ℝ × ZMod n × ℝ)} (hp : ps ≠ []) (env : Env) (algo : Algo) (nsig : ℝ) (rm : Bool) :
    pileupcut env fs algo nsig rm (ps.map fun p j => p.1 * T (j - p.2.1) + p.2.2) =
        runAlgo env algo nsig ps.length (some (ps.map fun p => |p.1|)) ∧
      chi2cut env fs algo nsig (ps.map fun p j => p.1 * T (j - p.2.1) + p.2.2) =
        runAlgo env algo nsig ps.length (some (ps.map fun _ => 0)) := by
  obtain ⟨T', l, hT', hb, h1, h2⟩ := cut_features hn hfs
    (traces := ps.map fun p j => p.1 * T (j - p.2.1) + p.2.2) (by simpa using hp)
  have e := pulse_unique_of hT' hT
  subst e
  have key : l.map (fun p => |p.1|) = ps.map (fun p => |p.1|) ∧
      l.map (fun p => p.2) = ps.map fun _ => (0 : ℝ) := by
    clear h1 h2 hp
    induction ps generalizing l with
    | nil =>
      rw [List.map_nil, List.forall₂_nil_left_iff] at hb
      subst hb
      exact ⟨rfl, rfl⟩
    | cons p ps ih =>
      rcases l with _ | ⟨q, l⟩
      · cases hb
      rw [List.map_cons, List.forall₂_cons] at hb
      obtain ⟨a, b⟩ := bestFit_exact hn hfs hT' hb.1 fun _ => rfl
      obtain ⟨c, d⟩ := ih l hb.2
      simp only [List.map_cons, a, b, c, d, and_self]
  rw [h1, h2, key.1, key.2, List.length_map]
  exact ⟨rfl, rfl⟩

/-! ### The hypotheses can be met, and the pulse is not trivial -/

/-- In a trace of three samples at 100 kHz the pulse is the last sample alone. -/
example {T : ZMod 3 → ℝ} (h : IsPulse 100000 T) : T 0 = 0 ∧ T 1 = 0 ∧ T 2 = 1 := by
  obtain ⟨c, hc, ⟨K, hK, hT⟩, h1, i, hi⟩ := h
  have e : c = 2 := by
    unfold IsMiddle at hc
    omega
  subst e
  have h0 : T 0 = 0 := by
    rw [hT]
    unfold riseFall
    rw [if_pos (by norm_num), mul_zero]
  have h1 : T 1 = 0 := by
    rw [hT, show ((1 : ZMod 3).val : ℝ) = 1 from by norm_num [show (1 : ZMod 3).val = 1 from rfl]]
    unfold riseFall
    rw [if_pos (by norm_num), mul_zero]
  refine ⟨h0, h1, ?_⟩
  have : i = 0 ∨ i = 1 ∨ i = 2 :=
    (by decide : ∀ i : ZMod 3, i = 0 ∨ i = 1 ∨ i = 2) i
  rcases this with rfl | rfl | rfl
  · rw [h0] at hi; norm_num at hi
  · rw [h1] at hi; norm_num at hi
  · exact hi

/-- A unit pulse, a downward one twice as high and a flat trace are seen as 1, 2 and 0. -/
example (env : Env) {T : ZMod 3 → ℝ} (h : IsPulse 100000 T) :
    pileupcut env 100000 .iterstat 2 true
        [fun j => 1 * T (j - 0) + 5, fun j => -2 * T (j - 1) + 0, fun j => 0 * T (j - 0) + 7] =
      runAlgo env .iterstat 2 3 (some [1, 2, 0]) := by
  have := (cut_pulses (by norm_num) (by norm_num) h
    (ps := [(1, 0, 5), (-2, 1, 0), (0, 0, 7)]) (by simp) env .iterstat 2 true).1
  simpa using this

end Verif.Cut
