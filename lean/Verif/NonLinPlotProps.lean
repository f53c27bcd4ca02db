import Verif.NonLinPlotLemmas
import Verif.NonLinProps

/-! C101: the plot of the non-linear fit. -/

namespace Verif.NonLin
open Verif Verif.Dft

variable {n : ℕ} [NeZero n]

omit [NeZero n] in
/-- The plot is drawn exactly when there is one value and one error for each parameter, and a rise time. -/
theorem plot_defined (o : Obj n) (pulse : ZMod n → ℝ) (params errors : List ℝ) :
    (∃ fig, o.plotnonlin pulse params errors = .ok fig) ↔
      params.length = (parNames o.npole).length ∧ errors.length = params.length ∧ o.riseOf params ≠ none := by
  constructor
  · rintro ⟨fig, h⟩
    unfold Obj.plotnonlin at h
    cases hu : o.unpack params errors with
    | error e => rw [hu] at h; cases h
    | ok u =>
      obtain ⟨h1, h2, -, h3, -⟩ := unpack_ok hu
      exact ⟨h1, h2, by rw [h3]; simp⟩
  · rintro ⟨h1, h2, h3⟩
    obtain ⟨u, hu⟩ := unpack_defined h1 h2 h3
    unfold Obj.plotnonlin
    rw [hu]
    exact ⟨_, rfl⟩

example : ∃ fig, (plotObj 2000).plotnonlin (fun _ => 0) [1, 1, 2, 1500] [0, 0, 0, 0] = .ok fig :=
  (plot_defined _ _ _ _).2 ⟨rfl, rfl, by simp [Obj.riseOf, plotObj]⟩

/-- After a successful fit the plot that `lgcplot` asks for is drawn. -/
theorem plot_after_fit {o o' : Obj n} {pulse : ZMod n → ℝ} {npole : ℤ} {errscale : ℝ} {guess : Option (List ℝ)}
    {bounds : Option (List EReal × List EReal)} {taurise : Option ℝ} {scale : Bool} {solve} {r : FitResult n}
    (h : o.fit pulse npole errscale guess bounds taurise scale solve = (o', .ok r)) :
    ∃ fig, o'.plotnonlin pulse r.lsq.x (List.ofFn r.errors) = .ok fig := by
  rw [plot_defined]
  unfold Obj.fit at h
  simp only [Prod.mk.injEq] at h
  obtain ⟨rfl, h⟩ := h
  obtain ⟨-, p0, m, res, -, -, -, -, hm, -⟩ := run_ok h
  obtain ⟨h1, h2⟩ := model_length hm
  exact ⟨h1, by simp, h2⟩

omit [NeZero n] in
/-- The legend lists every fitted parameter exactly once, with its value and error in the units of the legend. -/
theorem legend_all {o : Obj n} {pulse : ZMod n → ℝ} {params errors : List ℝ} {fig : Fig}
    (h : o.plotnonlin pulse params errors = .ok fig) :
    fig.legend.Perm
      (((parNames o.npole).zip (params.zip errors)).map fun p => (p.1.1, p.2.1 * p.1.2, p.2.2 * p.1.2)) := by
  unfold Obj.plotnonlin at h
  cases hu : o.unpack params errors with
  | error e => rw [hu] at h; cases h
  | ok u =>
    rw [hu] at h
    cases h
    exact (unpack_ok hu).2.2.2.2.2.2

/-- The frequency panel: at the positive frequencies the moduli of the data, of the fitted model and the noise. -/
theorem freq_panel {o : Obj n} {pulse : ZMod n → ℝ} {params errors : List ℝ} {fig : Fig}
    (h : o.plotnonlin pulse params errors = .ok fig) {m : ZMod n → ℂ} (hm : o.model params = .ok m) (p : ℝ × ℝ) :
    (p ∈ fig.freqData ↔ ∃ k, 0 < fftfreq o.fs k ∧ o.data k ≠ 0 ∧ p = (fftfreq o.fs k, ‖o.data k‖)) ∧
    (p ∈ fig.freqFit ↔ ∃ k, 0 < fftfreq o.fs k ∧ m k ≠ 0 ∧ p = (fftfreq o.fs k, ‖m k‖)) ∧
    (p ∈ fig.freqErr ↔ ∃ k, 0 < fftfreq o.fs k ∧ 0 < o.error k ∧ p = (fftfreq o.fs k, o.error k)) := by
  have key : ∀ v : ZMod n → ℝ, p ∈ o.logPts v ↔
      ∃ k, 0 < fftfreq o.fs k ∧ 0 < v k ∧ p = (fftfreq o.fs k, v k) := by
    intro v
    unfold Obj.logPts
    rw [List.mem_filterMap]
    constructor
    · rintro ⟨k, -, hk⟩
      split_ifs at hk with h1
      cases hk
      exact ⟨k, h1.1, h1.2, rfl⟩
    · rintro ⟨k, h1, h2, rfl⟩
      refine ⟨k.val, List.mem_range.2 (ZMod.val_lt k), ?_⟩
      rw [ZMod.natCast_zmod_val, if_pos ⟨h1, h2⟩]
  unfold Obj.plotnonlin at h
  cases hu : o.unpack params errors with
  | error e => rw [hu] at h; cases h
  | ok u =>
    rw [hu] at h
    cases h
    refine ⟨?_, ?_, key _⟩
    · rw [key]
      simp only [norm_pos_iff]
    · simp only [hm]
      rw [key]
      simp only [norm_pos_iff]

omit [NeZero n] in
/-- The time panels show the data minus their baseline and the fit; the zoom shows the slice of both. -/
theorem time_panels {o : Obj n} {pulse : ZMod n → ℝ} {params errors : List ℝ} {fig : Fig} {y : List ℝ} {t0 : ℝ}
    (h : o.plotnonlin pulse params errors = .ok fig) (hy : o.timeModel params = .ok y)
    (ht : params.getLast? = some t0) :
    fig.fullFit = Obj.pts o.time y ∧ (o.baseline (toL pulse) t0 = none → fig.fullData = [] ∧ fig.zoomData = []) ∧
    ∀ b, o.baseline (toL pulse) t0 = some b → fig.fullData = Obj.pts o.time ((toL pulse).map (· - b)) ∧
      ((toL pulse).map (· - b) = y → fig.zoomData = fig.zoomFit) := by
  unfold Obj.plotnonlin at h
  cases hu : o.unpack params errors with
  | error e => rw [hu] at h; cases h
  | ok u =>
    rw [hu] at h
    have e := (unpack_ok hu).2.2.1
    rw [ht] at e
    cases e
    cases h
    simp only [hy]
    refine ⟨trivial, fun hb => by simp only [hb]; exact ⟨trivial, trivial⟩, fun b hb => ?_⟩
    simp only [hb]
    exact ⟨trivial, fun e => by rw [e]⟩

/-- Partial form of C101: if the pulse starts more than a thousand samples into the trace and the data are the
fitted pulse on a constant baseline, the data are drawn on the fit in both time panels.  Missing: earlier pulses,
see `short_violated` and `tail_violated`. -/
theorem on_fit_partial {o : Obj n} {pulse : ZMod n → ℝ} {params errors : List ℝ} {fig : Fig} {y : List ℝ} {t0 b : ℝ}
    (h : o.plotnonlin pulse params errors = .ok fig) (hy : o.timeModel params = .ok y)
    (ht : params.getLast? = some t0) (hlate : 1001 ≤ t0 * o.fs)
    (hd : ∀ i < n, y[i]? = some (pulse (i : ZMod n) - b)) :
    fig.fullData = fig.fullFit ∧ fig.zoomData = fig.zoomFit ∧ fig.fullFit.length = n := by
  obtain ⟨hl, hz⟩ := timeModel_zero hy ht
  obtain ⟨h1, -, h2⟩ := time_panels h hy ht
  have hn : 0 < n := Nat.pos_of_ne_zero (NeZero.ne n)
  have hk : (1001 : ℤ) ≤ OF.trunc (t0 * o.fs) := by
    rw [trunc_nonneg (by linarith)]
    exact Int.le_floor.2 (by exact_mod_cast hlate)
  have hb : o.baseline (toL pulse) t0 = some b := by
    unfold Obj.baseline
    rw [mul_comm o.fs]
    simp only
    rw [if_pos (by omega)]
    apply mean_const
    · unfold Np.sliceTo Np.clipIdx
      rw [if_pos (by omega), toL_length]
      intro hnil
      have := congrArg List.length hnil
      simp only [List.length_take, toL_length, List.length_nil] at this
      omega
    · intro x hx
      unfold Np.sliceTo Np.clipIdx at hx
      rw [if_pos (by omega), toL_length] at hx
      obtain ⟨i, hi, rfl⟩ := List.mem_iff_getElem.1 hx
      simp only [List.length_take, toL_length] at hi
      have e1 := hd i (by omega)
      have e2 := hz i (by omega) (by omega)
      rw [e1, Option.some.injEq, sub_eq_zero] at e2
      rw [List.getElem_take]
      simpa [toL] using e2
  have he : (toL pulse).map (· - b) = y := by
    apply List.ext_getElem?
    intro i
    by_cases hi : i < n
    · rw [hd i hi]
      simp [toL, hi]
    · rw [List.getElem?_eq_none (by simp [toL]; omega), List.getElem?_eq_none (by omega)]
  obtain ⟨h3, h4⟩ := h2 b hb
  refine ⟨by rw [h3, he, h1], h4 he, ?_⟩
  rw [h1]
  simp [Obj.pts, Obj.time, hl]

/-- A trace with a pulse at sample 1500. -/
example : ∃ (pulse : ZMod 2000 → ℝ) (fig : Fig) (y : List ℝ),
    (plotObj 2000).plotnonlin pulse [1, 1, 2, 1500] [0, 0, 0, 0] = .ok fig ∧
    (plotObj 2000).timeModel [1, 1, 2, 1500] = .ok y ∧ 1001 ≤ (1500 : ℝ) * (plotObj 2000).fs ∧
    ∀ i : ℕ, i < 2000 → y[i]? = some (pulse (i : ZMod 2000) - 3) := by
  have hy : ∃ y, (plotObj 2000).timeModel [1, 1, 2, 1500] = .ok y := ⟨_, rfl⟩
  obtain ⟨y, hy⟩ := hy
  obtain ⟨pulse, hp⟩ := exists_trace hy rfl
  obtain ⟨fig, hf⟩ := (plot_defined (plotObj 2000) pulse [1, 1, 2, 1500] [0, 0, 0, 0]).2
    ⟨rfl, rfl, by simp [Obj.riseOf, plotObj]⟩
  exact ⟨pulse, fig, y, hf, hy, by norm_num [plotObj], hp⟩

omit [NeZero n] in
/-- Contrary to C101 the data of a trace of up to 9000 samples whose pulse starts within the first thousand are
not drawn at all in the time panels: the baseline is the mean of an empty slice. -/
theorem short_violated {o : Obj n} {pulse : ZMod n → ℝ} {params errors : List ℝ} {fig : Fig} {t0 : ℝ}
    (h : o.plotnonlin pulse params errors = .ok fig) (ht : params.getLast? = some t0) (h0 : 0 ≤ t0 * o.fs)
    (h1 : t0 * o.fs < 1001) (hn : n ≤ 9000) : fig.fullData = [] ∧ fig.zoomData = [] := by
  have hb : o.baseline (toL pulse) t0 = none := by
    rw [baseline_early o pulse h0 h1, List.drop_eq_nil_of_le (by rw [toL_length]; omega)]
    rfl
  unfold Obj.plotnonlin at h
  cases hu : o.unpack params errors with
  | error e => rw [hu] at h; cases h
  | ok u =>
    rw [hu] at h
    have e := (unpack_ok hu).2.2.1
    rw [ht] at e
    cases e
    cases h
    simp only [hb]
    exact ⟨trivial, trivial⟩

example : 0 ≤ (700 : ℝ) * (plotObj 2000).fs ∧ (700 : ℝ) * (plotObj 2000).fs < 1001 := by norm_num [plotObj]

omit [NeZero n] in
/-- Contrary to C101 in a longer trace whose pulse starts within the first thousand samples the baseline is taken
from the tail of the pulse: data which are the fitted pulse on a constant baseline are drawn below the fit, all by
the same positive amount. -/
theorem tail_violated {o : Obj n} {pulse : ZMod n → ℝ} {params errors : List ℝ} {fig : Fig} {y : List ℝ} {t0 b : ℝ}
    (h : o.plotnonlin pulse params errors = .ok fig) (hy : o.timeModel params = .ok y)
    (ht : params.getLast? = some t0) (h0 : 0 ≤ t0 * o.fs) (h1 : t0 * o.fs < 1001) (hn : ⌊t0 * o.fs⌋ + 9000 < n)
    (hd : ∀ i < n, y[i]? = some (pulse (i : ZMod n) - b)) (hpos : ∀ i < n, 9000 ≤ i → 0 < pulse (i : ZMod n) - b) :
    ∃ m > 0, fig.fullData = fig.fullFit.map fun p => (p.1, p.2 - m) := by
  obtain ⟨hl, -⟩ := timeModel_zero hy ht
  obtain ⟨e1, -, e2⟩ := time_panels h hy ht
  have hk0 : 0 ≤ ⌊t0 * o.fs⌋ := Int.floor_nonneg.2 h0
  have hb := baseline_early o pulse h0 h1
  have hlt : ⌊t0 * o.fs⌋.toNat + 9000 < n := by omega
  have hne : ((toL pulse).map (· - b)).drop (⌊t0 * o.fs⌋.toNat + 9000) ≠ [] := by
    intro hnil
    have := congrArg List.length hnil
    simp only [List.length_drop, List.length_map, toL_length, List.length_nil] at this
    omega
  obtain ⟨m, hm, hm0⟩ := mean_pos hne (by
    intro x hx
    obtain ⟨i, hi, rfl⟩ := List.mem_iff_getElem.1 hx
    simp only [List.length_drop, List.length_map, toL_length] at hi
    have := hpos (⌊t0 * o.fs⌋.toNat + 9000 + i) (by omega) (by omega)
    simpa [toL] using this)
  refine ⟨m, hm0, ?_⟩
  have hmean : Np.mean ((toL pulse).drop (⌊t0 * o.fs⌋.toNat + 9000)) = some (b + m) := by
    rw [← List.map_drop] at hm hne
    generalize (toL pulse).drop (⌊t0 * o.fs⌋.toNat + 9000) = l at hm hne ⊢
    unfold Np.mean at hm ⊢
    have hl0 : l ≠ [] := by
      rintro rfl
      exact hne rfl
    rw [if_neg hne, Option.some.injEq] at hm
    rw [if_neg hl0, ← hm]
    have hc : (l.length : ℝ) ≠ 0 := by
      have := List.length_pos_iff.2 hl0
      positivity
    have hs : (l.map (· - b)).sum = l.sum - l.length * b := by
      clear hm hne hl0 hc
      induction l with
      | nil => simp
      | cons a l ih =>
        simp only [List.map_cons, List.sum_cons, List.length_cons, ih]
        push_cast
        ring
    rw [hs, List.length_map]
    congr 1
    field_simp
    ring
  obtain ⟨e3, -⟩ := e2 (b + m) (hb.trans hmean)
  rw [e3, e1]
  apply List.ext_getElem?
  intro i
  by_cases hi : i < n
  · rw [List.getElem?_map, pts_get hi (hd i hi),
      pts_get (v := pulse (i : ZMod n) - (b + m)) hi (by simp [toL, hi])]
    simp only [Option.map_some, Option.some.injEq, Prod.mk.injEq, true_and]
    ring
  · rw [List.getElem?_eq_none (by simp [Obj.pts, Obj.time]; omega),
      List.getElem?_eq_none (by simp [Obj.pts, Obj.time]; omega)]

/-- A trace of ten thousand samples with a pulse at its start. -/
example : ∃ (pulse : ZMod 10000 → ℝ) (fig : Fig) (y : List ℝ),
    (plotObj 10000).plotnonlin pulse [1, 1, 2, 0] [0, 0, 0, 0] = .ok fig ∧
    (plotObj 10000).timeModel [1, 1, 2, 0] = .ok y ∧
    (∀ i : ℕ, i < 10000 → y[i]? = some (pulse (i : ZMod 10000) - 3)) ∧
    ∀ i : ℕ, i < 10000 → 9000 ≤ i → 0 < pulse (i : ZMod 10000) - 3 := by
  obtain ⟨y, hy, -, hv⟩ := twopole_time (o := plotObj 10000) rfl 1 1 2 le_rfl (by norm_num [plotObj])
  have hy' : (plotObj 10000).timeModel [1, 1, 2, 0] = .ok y := hy
  obtain ⟨pulse, hp⟩ := exists_trace hy' rfl
  obtain ⟨fig, hf⟩ := (plot_defined (plotObj 10000) pulse [1, 1, 2, 0] [0, 0, 0, 0]).2
    ⟨rfl, rfl, by simp [Obj.riseOf, plotObj]⟩
  refine ⟨pulse, fig, y, hf, hy', hp, fun i hi h9 => ?_⟩
  have e := (hp i hi).symm.trans (hv i hi)
  simp only [Option.some.injEq] at e
  rw [e, if_neg (by simp; omega)]
  unfold Spec.pulse2
  have : (0 : ℝ) < i := by exact_mod_cast (by omega : 0 < i)
  rw [one_mul, sub_pos, Real.exp_lt_exp]
  simp [plotObj]
  linarith

omit [NeZero n] in
/-- Partial form of C101: when five rise times before the start lie within the trace, the zoom shows exactly the
points of the full panel from there to nine (two or one pole: seven) fall times after the start. -/
theorem zoom_partial {o : Obj n} {pulse : ZMod n → ℝ} {params errors : List ℝ} {fig : Fig} {t0 τr τf : ℝ}
    (h : o.plotnonlin pulse params errors = .ok fig) (ht : params.getLast? = some t0)
    (hr : o.riseOf params = some τr) (hf : o.fallOf params = some τf) (hfs : 0 < o.fs) (hτr : 0 ≤ τr) (hτf : 0 ≤ τf)
    (h0 : ⌊5 * τr * o.fs⌋ ≤ ⌊t0 * o.fs⌋) (p : ℝ × ℝ) :
    (p ∈ fig.zoomData ↔ ∃ i : ℕ, ⌊t0 * o.fs⌋ - ⌊5 * τr * o.fs⌋ ≤ i ∧
      (i : ℤ) < ⌊t0 * o.fs⌋ + ⌊fallsOf o.npole * τf * o.fs⌋ ∧ fig.fullData[i]? = some p) ∧
    (p ∈ fig.zoomFit ↔ ∃ i : ℕ, ⌊t0 * o.fs⌋ - ⌊5 * τr * o.fs⌋ ≤ i ∧
      (i : ℤ) < ⌊t0 * o.fs⌋ + ⌊fallsOf o.npole * τf * o.fs⌋ ∧ fig.fullFit[i]? = some p) := by
  unfold Obj.plotnonlin at h
  cases hu : o.unpack params errors with
  | error e => rw [hu] at h; cases h
  | ok u =>
    obtain ⟨-, -, e1, e2, e3, e4, -⟩ := unpack_ok hu
    rw [ht] at e1
    rw [hr] at e2
    rw [hf] at e3
    cases e1
    cases e2
    cases e3
    rw [hu] at h
    have h5 : 0 ≤ 5 * u.taur * o.fs := by positivity
    have h9 : 0 ≤ fallsOf o.npole * u.tauf * o.fs := by
      have : 0 ≤ fallsOf o.npole := by unfold fallsOf; split_ifs <;> norm_num
      positivity
    have f5 : 0 ≤ ⌊5 * u.taur * o.fs⌋ := Int.floor_nonneg.2 h5
    have f9 : 0 ≤ ⌊fallsOf o.npole * u.tauf * o.fs⌋ := Int.floor_nonneg.2 h9
    have h00 : 0 ≤ u.t0 * o.fs := Int.floor_nonneg.1 (f5.trans h0)
    have emin : o.nmin u = ⌊u.t0 * o.fs⌋ - ⌊5 * u.taur * o.fs⌋ := by
      unfold Obj.nmin Obj.start0
      rw [trunc_nonneg h00, trunc_nonneg h5]
    have emax : o.nmax u = ⌊u.t0 * o.fs⌋ + ⌊fallsOf o.npole * u.tauf * o.fs⌋ := by
      unfold Obj.nmax Obj.start0
      rw [trunc_nonneg h00, e4, trunc_nonneg h9]
    simp only [emin, emax] at h
    cases h
    constructor
    · cases hb : o.baseline (toL pulse) u.t0 with
      | none => simp only [List.not_mem_nil, List.getElem?_nil, reduceCtorEq, and_false, exists_false]
      | some b => exact mem_zoom (by simp [toL]) (by omega) (by omega)
    · cases hy : o.timeModel params with
      | error e => simp only [List.not_mem_nil, List.getElem?_nil, reduceCtorEq, and_false, exists_false]
      | ok y => exact mem_zoom (timeModel_zero hy ht).1 (by omega) (by omega)

example : (plotObj 2000).riseOf [1, 1, 2, 1500] = some 1 ∧ (plotObj 2000).fallOf [1, 1, 2, 1500] = some 2 ∧
    ⌊5 * (1 : ℝ) * (plotObj 2000).fs⌋ ≤ ⌊(1500 : ℝ) * (plotObj 2000).fs⌋ := by
  refine ⟨by simp [Obj.riseOf, plotObj], by simp [Obj.fallOf, plotObj], ?_⟩
  exact Int.floor_le_floor (by norm_num [plotObj])

omit [NeZero n] in
/-- Contrary to C101 the zoom is empty when the trace starts less than five rise times before the pulse (and ends
that long after the window). -/
theorem zoom_violated {o : Obj n} {pulse : ZMod n → ℝ} {params errors : List ℝ} {fig : Fig} {t0 τr τf : ℝ}
    (h : o.plotnonlin pulse params errors = .ok fig) (ht : params.getLast? = some t0)
    (hr : o.riseOf params = some τr) (hf : o.fallOf params = some τf) (hfs : 0 < o.fs) (hτr : 0 ≤ τr) (hτf : 0 ≤ τf)
    (ht0 : 0 ≤ t0) (h0 : ⌊t0 * o.fs⌋ < ⌊5 * τr * o.fs⌋)
    (h1 : ⌊fallsOf o.npole * τf * o.fs⌋ + ⌊5 * τr * o.fs⌋ ≤ n) :
    fig.zoomData = [] ∧ fig.zoomFit = [] := by
  unfold Obj.plotnonlin at h
  cases hu : o.unpack params errors with
  | error e => rw [hu] at h; cases h
  | ok u =>
    obtain ⟨-, -, e1, e2, e3, e4, -⟩ := unpack_ok hu
    rw [ht] at e1
    rw [hr] at e2
    rw [hf] at e3
    cases e1
    cases e2
    cases e3
    rw [hu] at h
    have h5 : 0 ≤ 5 * u.taur * o.fs := by positivity
    have h9 : 0 ≤ fallsOf o.npole * u.tauf * o.fs := by
      have : 0 ≤ fallsOf o.npole := by unfold fallsOf; split_ifs <;> norm_num
      positivity
    have f5 : 0 ≤ ⌊5 * u.taur * o.fs⌋ := Int.floor_nonneg.2 h5
    have f9 : 0 ≤ ⌊fallsOf o.npole * u.tauf * o.fs⌋ := Int.floor_nonneg.2 h9
    have h00 : 0 ≤ u.t0 * o.fs := by positivity
    have f0 : 0 ≤ ⌊u.t0 * o.fs⌋ := Int.floor_nonneg.2 h00
    have emin : o.nmin u = ⌊u.t0 * o.fs⌋ - ⌊5 * u.taur * o.fs⌋ := by
      unfold Obj.nmin Obj.start0
      rw [trunc_nonneg h00, trunc_nonneg h5]
    have emax : o.nmax u = ⌊u.t0 * o.fs⌋ + ⌊fallsOf o.npole * u.tauf * o.fs⌋ := by
      unfold Obj.nmax Obj.start0
      rw [trunc_nonneg h00, e4, trunc_nonneg h9]
    simp only [emin, emax] at h
    cases h
    constructor
    · cases hb : o.baseline (toL pulse) u.t0 with
      | none => rfl
      | some b => exact zoom_wraps (by simp [toL]) (by omega) (by omega) (by omega)
    · cases hy : o.timeModel params with
      | error e => rfl
      | ok y => exact zoom_wraps (timeModel_zero hy ht).1 (by omega) (by omega) (by omega)

/-- A start two samples into the trace. -/
example : ⌊(2 : ℝ) * (plotObj 2000).fs⌋ < ⌊5 * (1 : ℝ) * (plotObj 2000).fs⌋ ∧
    ⌊fallsOf (plotObj 2000).npole * 2 * (plotObj 2000).fs⌋ + ⌊5 * (1 : ℝ) * (plotObj 2000).fs⌋ ≤ 2000 := by
  norm_num [plotObj, fallsOf]

end Verif.NonLin
