import Verif.SimPlotLemmas

/-! C100: the plots of simulated noise. -/

namespace Verif.SimPlot
open Verif Sim

/-- C100: whatever the type of the plot, for a physical device the squares of the drawn components add up to
the square of the drawn total at every frequency. -/
theorem budget {t : TES} (ht : Physical t) {freqs f psd freqs' : List ℝ} {s : PyStr} {fig : List Line}
    {files : List (List Line)} (h : plotNoiseSim t freqs f psd s false = .ok ⟨some fig, files, freqs'⟩) (f0 : ℝ) :
    (s.val = "current" ∨ s.val = "power" →
      Adds fig ["TES Johnson Noise", "Load Noise", "TFN Noise", "Squid+Electronics Noise"] "Total Noise" f0) ∧
    (s.val = "sc" → Adds fig ["Load Noise", "Squid+Electronics Noise"] "Total Noise" f0) ∧
    (s.val = "normal" →
      Adds fig ["TES Johnson Noise", "Load Noise", "Squid+Electronics Noise"] "Total Noise" f0) := by
  have nn := fun v => parts_nonneg ht (f := f0) (v := v)
  obtain ⟨-, ⟨e, rfl⟩ | ⟨e, rfl⟩ | ⟨e, rfl⟩ | ⟨e, rfl⟩⟩ := shown h
  · refine ⟨fun _ => ?_, fun h' => absurd (e.symm.trans h') (by decide),
      fun h' => absurd (e.symm.trans h') (by decide)⟩
    intro y hy
    rw [online_ti] at hy
    simp only [String.reduceEq, false_and, true_and, false_or, or_false] at hy
    obtain ⟨hf, v, hv, hy⟩ := curve_inv (Or.inl hy)
    obtain ⟨P, hP⟩ := (total_defined t f0).2.2 ((total_defined t f0).1.1 ⟨v, hv⟩)
    obtain ⟨iL, iT, iF, iS, -, -, -, -, hL, hT, hF, hS, -, -, -, -, -, rfl, -⟩ := noise_budget hv hP
    have nL := (nn iL).1 hL
    have nT := (nn iT).2.1 hT
    have nF := (nn iF).2.2.1 hF
    have nS := (nn iS).2.2.2.1 hS
    rw [hy (by positivity)]
    refine ⟨fun l => if l = "TES Johnson Noise" then Real.sqrt iT else if l = "Load Noise" then Real.sqrt iL
      else if l = "TFN Noise" then Real.sqrt iF else Real.sqrt iS, ?_, ?_⟩
    · simp only [List.forall_mem_cons, online_ti, String.reduceEq, if_true, if_false, true_and, false_and,
        false_or, or_false]
      exact ⟨(mem_curve hf hT nT).1, (mem_curve hf hL nL).1, (mem_curve hf hF nF).1, (mem_curve hf hS nS).1, by simp⟩
    · simp only [List.map, List.sum_cons, List.sum_nil, String.reduceEq, if_true, if_false, add_zero]
      rw [sqrt_sq_add nT nL nF nS, add_comm iT]
  · refine ⟨fun _ => ?_, fun h' => absurd (e.symm.trans h') (by decide),
      fun h' => absurd (e.symm.trans h') (by decide)⟩
    intro y hy
    rw [online_tp] at hy
    simp only [String.reduceEq, false_and, true_and, false_or, or_false] at hy
    obtain ⟨hf, v, hv, hy⟩ := curve_inv (Or.inl hy)
    obtain ⟨I, hI⟩ := (total_defined t f0).1.2 ((total_defined t f0).2.1 ⟨v, hv⟩)
    obtain ⟨iL, iT, iF, iS, pL, pT, pS, p, hL, hT, hF, hS, hpL, hpT, hpS, hp, hp0, -, rfl, eL, eT, eF, eS, -⟩ :=
      noise_budget hI hv
    have hpp : 0 < ‖p‖ ^ 2 := by positivity
    have nL : 0 ≤ pL := nonneg_of_mul_nonneg_left (eL ▸ (nn iL).1 hL) hpp
    have nT : 0 ≤ pT := nonneg_of_mul_nonneg_left (eT ▸ (nn iT).2.1 hT) hpp
    have nF : 0 ≤ sPtfn t := nonneg_of_mul_nonneg_left (eF ▸ (nn iF).2.2.1 hF) hpp
    have nS : 0 ≤ pS := nonneg_of_mul_nonneg_left (eS ▸ (nn iS).2.2.2.1 hS) hpp
    rw [hy (by positivity)]
    refine ⟨fun l => if l = "TES Johnson Noise" then Real.sqrt pT else if l = "Load Noise" then Real.sqrt pL
      else if l = "TFN Noise" then Real.sqrt (sPtfn t) else Real.sqrt pS, ?_, ?_⟩
    · simp only [List.forall_mem_cons, online_tp, String.reduceEq, if_true, if_false, true_and, false_and,
        false_or, or_false]
      exact ⟨(mem_curve hf hpT nT).1, (mem_curve hf hpL nL).1, (mem_curve (s := fun _ => .ok (sPtfn t)) hf rfl nF).1, (mem_curve hf hpS nS).1,
        by simp⟩
    · simp only [List.map, List.sum_cons, List.sum_nil, String.reduceEq, if_true, if_false, add_zero]
      rw [sqrt_sq_add nT nL nF nS, add_comm pT]
  · refine ⟨fun h' => absurd h' (by rw [e]; decide), fun _ => ?_,
      fun h' => absurd (e.symm.trans h') (by decide)⟩
    intro y hy
    rw [online_sc] at hy
    simp only [String.reduceEq, false_and, true_and, false_or] at hy
    obtain ⟨hf, v, hv, hy⟩ := curve_inv (Or.inr hy)
    obtain ⟨iL, iS, hL, hS, rfl⟩ := add_ok hv
    have nL := (nn iL).2.2.2.2.2.2 hL
    have nS := (nn iS).2.2.2.1 hS
    rw [hy (by positivity)]
    refine ⟨fun l => if l = "Load Noise" then Real.sqrt iL else Real.sqrt iS, ?_, ?_⟩
    · simp only [List.forall_mem_cons, online_sc, String.reduceEq, if_true, if_false, true_and, false_and,
        false_or, or_false]
      exact ⟨(mem_curve hf hL nL).2, (mem_curve hf hS nS).2, by simp⟩
    · simp only [List.map, List.sum_cons, List.sum_nil, String.reduceEq, if_true, if_false, add_zero]
      rw [Real.sq_sqrt nL, Real.sq_sqrt nS, Real.sq_sqrt (by positivity)]
  · refine ⟨fun h' => absurd h' (by rw [e]; decide), fun h' => absurd (e.symm.trans h') (by decide),
      fun _ => ?_⟩
    intro y hy
    rw [online_n] at hy
    simp only [String.reduceEq, false_and, true_and, false_or] at hy
    obtain ⟨hf, v, hv, hy⟩ := curve_inv (Or.inr hy)
    obtain ⟨x, iS, hx, hS, rfl⟩ := add_ok hv
    obtain ⟨iL, iT, hL, hT, rfl⟩ := add_ok hx
    have nL := (nn iL).2.2.2.2.1 hL
    have nT := (nn iT).2.2.2.2.2.1 hT
    have nS := (nn iS).2.2.2.1 hS
    rw [hy (by positivity)]
    refine ⟨fun l => if l = "TES Johnson Noise" then Real.sqrt iT else if l = "Load Noise" then Real.sqrt iL
      else Real.sqrt iS, ?_, ?_⟩
    · simp only [List.forall_mem_cons, online_n, String.reduceEq, if_true, if_false, true_and, false_and,
        false_or, or_false]
      exact ⟨(mem_curve hf hT nT).2, (mem_curve hf hL nL).2, (mem_curve hf hS nS).2, by simp⟩
    · simp only [List.map, List.sum_cons, List.sum_nil, String.reduceEq, if_true, if_false, add_zero]
      rw [Real.sq_sqrt nL, Real.sq_sqrt nS, Real.sq_sqrt nT, Real.sq_sqrt (by positivity)]
      ring

/-- A call which shows a figure, for a physical device. -/
example : Physical exTES ∧ ∃ fig o, plotNoiseSim exTES [] [0, 1] [0, 3] ⟨"current", true⟩ false =
    .ok ⟨some fig, [], o⟩ := by
  refine ⟨by norm_num [Physical, exTES], ?_⟩
  simp only [plotNoiseSim, PyStr.is, finish, if_neg (scalar_ok (exTES_transition 1)), Bool.true_and, BEq.rfl,
    if_true, List.tail_cons, List.length_cons, List.length_nil, ne_eq, not_true_eq_false, if_false,
    Bool.false_eq_true]
  exact ⟨_, _, rfl⟩

/-- The total is drawn at every frequency but the first at which the model is defined. -/
theorem total_drawn {t : TES} (ht : Physical t) {freqs f psd freqs' : List ℝ} {s : PyStr} {fig : List Line}
    {files : List (List Line)} (h : plotNoiseSim t freqs f psd s false = .ok ⟨some fig, files, freqs'⟩) {f0 : ℝ}
    (hf : f0 ∈ f.tail) (hs : SquidOk t f0) :
    (s.val = "current" ∨ s.val = "power" → InTransition t f0 → Drawn fig "Total Noise" f0) ∧
    (s.val = "sc" ∨ s.val = "normal" → 0 < t.rload → Drawn fig "Total Noise" f0) := by
  obtain ⟨-, ⟨e, rfl⟩ | ⟨e, rfl⟩ | ⟨e, rfl⟩ | ⟨e, rfl⟩⟩ := shown h
  · refine ⟨fun _ hi => ?_, fun h' => absurd h' (by rw [e]; decide)⟩
    obtain ⟨v, hv⟩ := (total_defined t f0).1.2 ⟨hi, hs⟩
    exact ⟨_, online_ti.2 (.inr (.inr (.inr (.inl ⟨rfl, (mem_curve hf hv ((noise_nonneg ht).1 hv)).1⟩))))⟩
  · refine ⟨fun _ hi => ?_, fun h' => absurd h' (by rw [e]; decide)⟩
    obtain ⟨v, hv⟩ := (total_defined t f0).2.2 ⟨hi, hs⟩
    exact ⟨_, online_tp.2 (.inr (.inr (.inr (.inl ⟨rfl, (mem_curve hf hv ((noise_nonneg ht).2.1 hv)).1⟩))))⟩
  · refine ⟨fun h' => absurd h' (by rw [e]; decide), fun _ hr => ?_⟩
    have hz : (t.rload + jw f0 * t.inductance : ℂ) ≠ 0 := by
      have := reIm_ne (b := 2 * Real.pi * f0 * t.inductance) hr.ne'
      rw [jw_eq]
      intro h0
      apply this
      rw [← h0]
      push_cast
      ring
    have hv : ∃ v, sItotSc t f0 = .ok v := by
      unfold sItotSc sIloadSc dIdVsc
      rw [if_neg hz, squid_ok hs]
      exact ⟨_, rfl⟩
    obtain ⟨v, hv⟩ := hv
    exact ⟨_, online_sc.2 (.inr (.inr (.inr ⟨rfl, (mem_curve hf hv ((noise_nonneg ht).2.2.2 hv)).2⟩)))⟩
  · refine ⟨fun h' => absurd h' (by rw [e]; decide), fun _ hr => ?_⟩
    have hr0 : t.rload + t.r0 ≠ 0 := by have := ht.2.2.2.1; positivity
    have hz : (t.rload + t.r0 + jw f0 * t.inductance : ℂ) ≠ 0 := by
      have := reIm_ne (b := 2 * Real.pi * f0 * t.inductance) hr0
      rw [jw_eq]
      intro h0
      apply this
      rw [← h0]
      push_cast
      ring
    have hv : ∃ v, sItotNormal t f0 = .ok v := by
      unfold sItotNormal sIloadNormal sItesNormal dIdVnormal
      rw [if_neg hz, squid_ok hs]
      exact ⟨_, rfl⟩
    obtain ⟨v, hv⟩ := hv
    exact ⟨_, online_n.2 (.inr (.inr (.inr (.inr ⟨rfl, (mem_curve hf hv ((noise_nonneg ht).2.2.1 hv)).2⟩))))⟩

example : SquidOk exTES 1 ∧ InTransition exTES 1 ∧ (1 : ℝ) ∈ [(0 : ℝ), 1].tail :=
  ⟨by norm_num [SquidOk, exTES], exTES_transition 1, by simp⟩

/-- C100: data which follow the model exactly are drawn on the curve of the total noise, in units of current
and of power. -/
theorem data_on_total {t : TES} (ht : Physical t) {freqs f psd freqs' : List ℝ} {s : PyStr} {fig : List Line}
    {files : List (List Line)} (h : plotNoiseSim t freqs f psd s false = .ok ⟨some fig, files, freqs'⟩)
    (hd : ∀ p ∈ f.tail.zip psd.tail,
      (if s.val = "sc" then sItotSc t else if s.val = "normal" then sItotNormal t else sItot t) p.1 = .ok p.2) :
    Coincide fig "Raw Data" "Total Noise" := by
  obtain ⟨hl, ⟨e, rfl⟩ | ⟨e, rfl⟩ | ⟨e, rfl⟩ | ⟨e, rfl⟩⟩ := shown h
  all_goals simp only [e, String.reduceEq, if_true, if_false] at hd
  · have := (raw_eq hl (scale := fun _ => .ok 1) (s := sItot t) fun p hp =>
      ⟨1, rfl, one_ne_zero, by rw [div_one]; exact (noise_nonneg ht).1 (hd p hp), by rw [div_one]; exact hd p hp⟩).1
    intro p
    rw [online_ti, online_ti]
    simp only [String.reduceEq, false_and, true_and, false_or, or_false, this]
  · have := (raw_eq hl (scale := powerScale t) (s := sPtot t) fun p hp => by
      have hI := hd p hp
      obtain ⟨P, hP⟩ := (total_defined t p.1).2.2 ((total_defined t p.1).1.1 ⟨_, hI⟩)
      obtain ⟨a, z, ha, hz, rfl⟩ := toPower_inv hP
      rw [ha] at hI
      cases hI
      refine ⟨abs2 z, by unfold powerScale; rw [hz], (abs2_pos (dIdP_ok hz).2).ne', ?_, hP⟩
      exact (noise_nonneg ht).2.1 hP).1
    intro p
    rw [online_tp, online_tp]
    simp only [String.reduceEq, false_and, true_and, false_or, or_false, this]
  · have := (raw_eq hl (scale := fun _ => .ok 1) (s := sItotSc t) fun p hp =>
      ⟨1, rfl, one_ne_zero, by rw [div_one]; exact (noise_nonneg ht).2.2.2 (hd p hp),
        by rw [div_one]; exact hd p hp⟩).2
    intro p
    rw [online_sc, online_sc]
    simp only [String.reduceEq, false_and, true_and, false_or, or_false, this]
  · have := (raw_eq hl (scale := fun _ => .ok 1) (s := sItotNormal t) fun p hp =>
      ⟨1, rfl, one_ne_zero, by rw [div_one]; exact (noise_nonneg ht).2.2.1 (hd p hp),
        by rw [div_one]; exact hd p hp⟩).2
    intro p
    rw [online_n, online_n]
    simp only [String.reduceEq, false_and, true_and, false_or, or_false, this]

/-- Data which follow the model. -/
example : ∃ v, ∀ p ∈ [(0 : ℝ), 1].tail.zip [0, v].tail, sItot exTES p.1 = .ok p.2 := by
  obtain ⟨v, hv⟩ := (total_defined exTES 1).1.2 ⟨exTES_transition 1, by norm_num [SquidOk, exTES]⟩
  exact ⟨v, by simpa using hv⟩

/-- C100: with arrays of one length and a device in transition each documented type written as a literal gives
a figure; with `lgcsave` the same figure is written to a file and nothing is returned. -/
theorem shown_or_saved {t : TES} {f0 : ℝ} (hi : InTransition t f0) (freqs f psd : List ℝ)
    (hl : f.length = psd.length) (v : String) (hv : v ∈ ["current", "power", "sc", "normal"]) :
    ∃ fig o, plotNoiseSim t freqs f psd ⟨v, true⟩ false = .ok ⟨some fig, [], o⟩ ∧
      plotNoiseSim t freqs f psd ⟨v, true⟩ true = .ok ⟨none, [fig], o⟩ := by
  have h0 := scalar_ok hi
  have hl' : ¬ f.tail.length ≠ psd.tail.length := by simp [hl]
  simp only [List.mem_cons, List.not_mem_nil, or_false] at hv
  rcases hv with rfl | rfl | rfl | rfl <;>
  · simp only [plotNoiseSim, PyStr.is, if_neg h0, if_neg hl', finish, Bool.true_and, BEq.rfl, if_true,
      String.reduceBEq, Bool.false_eq_true, if_false]
    exact ⟨_, _, rfl, rfl⟩

/-- Contrary to C100 a plot of type 'current' or 'power' changes the simulation object: its frequencies become
those of the data without the first one.  The other two leave it as it was. -/
theorem freqs_violated {t : TES} {f0 : ℝ} (hi : InTransition t f0) (freqs f psd : List ℝ)
    (hl : f.length = psd.length) (save : Bool) :
    (∀ v ∈ ["current", "power"], ∃ o, plotNoiseSim t freqs f psd ⟨v, true⟩ save = .ok o ∧ o.freqs = f.tail) ∧
    (∀ v ∈ ["sc", "normal"], ∃ o, plotNoiseSim t freqs f psd ⟨v, true⟩ save = .ok o ∧ o.freqs = freqs) := by
  have h0 := scalar_ok hi
  have hl' : ¬ f.tail.length ≠ psd.tail.length := by simp [hl]
  constructor
  all_goals
    intro v hv
    simp only [List.mem_cons, List.not_mem_nil, or_false] at hv
    rcases hv with rfl | rfl <;>
    · simp only [plotNoiseSim, PyStr.is, if_neg h0, if_neg hl', finish, Bool.true_and, BEq.rfl, if_true,
        String.reduceBEq, Bool.false_eq_true, if_false]
      refine ⟨_, rfl, ?_⟩
      cases save <;> rfl

/-- The object does change. -/
example : ∃ o, plotNoiseSim exTES [5] [0, 1] [0, 3] ⟨"power", true⟩ false = .ok o ∧ o.freqs ≠ [5] := by
  obtain ⟨o, h, e⟩ := (freqs_violated (exTES_transition 1) [5] [0, 1] [0, 3] rfl false).1 "power" (by simp)
  exact ⟨o, h, by rw [e]; norm_num⟩

/-- Contrary to C100 a documented type which is another string object (one built at run time) gives no figure,
no file and no error; neither does an unknown type. -/
theorem identity_violated (t : TES) (freqs f psd : List ℝ) (s : PyStr) (save : Bool)
    (h : s.interned = false ∨ s.val ∉ ["current", "power", "sc", "normal"]) :
    plotNoiseSim t freqs f psd s save = .ok ⟨none, [], freqs⟩ := by
  have : ∀ l ∈ ["current", "power", "sc", "normal"], s.is l = false := by
    intro l hl
    unfold PyStr.is
    rcases h with h | h
    · simp [h]
    · have : (s.val == l) = false := beq_eq_false_iff_ne.2 fun e => h (e ▸ hl)
      simp [this]
  simp only [List.forall_mem_cons] at this
  unfold plotNoiseSim
  simp [this.1, this.2.1, this.2.2.1, this.2.2.2.1]

example : plotNoiseSim exTES [5] [0, 1] [0, 3] ⟨"power", false⟩ false = .ok ⟨none, [], [5]⟩ :=
  identity_violated _ _ _ _ _ _ (.inl rfl)

end Verif.SimPlot
