import Verif.NoiseProps
import Verif.NoiseSpec
import Verif.NoiseGram
import Mathlib.MeasureTheory.Integral.Bochner.SumMeasure

/-!
Properties C20, C21, C62, C63 of the `Noise` object and C64 of `gen_noise`.
-/

namespace Verif.Noise
open Verif Verif.Dft

variable {n : ℕ} [NeZero n] {m c : ℕ}

/-! ### C20: stored results against the current traces -/

omit [NeZero n] in
theorem storeUncorr_traces (o : Obj m c n) (d : Csd c n) :
    (storeUncorr o d).2.traces = o.traces ∧ (storeUncorr o d).2.fs = o.fs := by
  unfold storeUncorr; split_ifs <;> exact ⟨rfl, rfl⟩

/-- Every calculation keeps the stored results current. -/
theorem step_current (o : Obj m c n) (op : Op) (hop : op ≠ .removeTraceSlope) (h : Current o) :
    Current (step o op) := by
  obtain ⟨h1, h2, h3, h4, h5, h6, h7⟩ := h
  have key : ∀ o' : Obj m c n, Current o' → Current (storeUncorr o' (csdOf o'.traces o'.fs)).2 := by
    rintro o' ⟨g1, g2, g3, g4, g5, g6, g7⟩
    unfold storeUncorr
    split_ifs
    · exact ⟨g1, g2, g3, g4, g5, g6, g7⟩
    · exact ⟨g1, g2, g3, g4, g5, fun u hu => (Option.some.inj hu).symm,
        fun u hu => (Option.some.inj hu).symm⟩
  cases op with
  | removeTraceSlope => exact absurd rfl hop
  | calculatePsd =>
    exact ⟨fun p hp => (Option.some.inj hp).symm, fun p hp => (Option.some.inj hp).symm,
      fun p hp => (Option.some.inj hp).symm, h4, h5, h6, h7⟩
  | calculateCorrcoeff =>
    simp only [step, calculateCorrcoeff]
    split_ifs
    · exact ⟨h1, h2, h3, h4, h5, h6, h7⟩
    · exact ⟨h1, h2, h3, h4, fun p hp => (Option.some.inj hp).symm, h6, h7⟩
  | calculateCsd =>
    simp only [step, calculateCsd]
    split_ifs
    · exact ⟨h1, h2, h3, h4, h5, h6, h7⟩
    · exact ⟨h1, h2, h3, fun p hp => (Option.some.inj hp).symm, h5, h6, h7⟩
  | calculateUncorrNoise =>
    simp only [step, calculateUncorrNoise]
    cases hc : o.csd with
    | some d =>
      simp only
      rw [h4 d hc]
      exact key o ⟨h1, h2, h3, h4, h5, h6, h7⟩
    | none =>
      simp only [calculateCsd]
      split_ifs
      · exact ⟨h1, h2, h3, h4, h5, h6, h7⟩
      · exact key { o with csd := some (csdOf o.traces o.fs) }
          ⟨h1, h2, h3, fun p hp => (Option.some.inj hp).symm, h5, h6, h7⟩

omit [NeZero n] in
/-- A freshly constructed object has calculated nothing. -/
theorem create_fresh (ndim : ℕ) (traces : Fin m → Fin c → ZMod n → ℝ) (fs : ℝ) (names : List String)
    (gain : ℝ) (time : Option (ZMod n → ℝ)) (o : Obj m c n)
    (h : create ndim traces fs names gain time = .ok o) :
    Fresh o ∧ ndim ≠ 1 ∧ names.length = c ∧ ∀ t i j, o.traces t i j = traces t i j / gain := by
  unfold create at h
  split_ifs at h with h1 h2
  cases h
  exact ⟨⟨rfl, rfl, rfl, rfl, rfl, rfl, rfl⟩, h1, not_not.1 h2, fun _ _ _ => rfl⟩

/-- Stored results belong to the current traces as long as slopes are only removed before the
first calculation. -/
theorem current_partial (o : Obj m c n) (ho : Fresh o) (pre post : List Op)
    (hpre : ∀ op ∈ pre, op = .removeTraceSlope) (hpost : ∀ op ∈ post, op ≠ .removeTraceSlope) :
    Current (run o (pre ++ post)) := by
  unfold run
  rw [List.foldl_append]
  have h1 : Fresh (pre.foldl step o) := by
    induction pre generalizing o with
    | nil => exact ho
    | cons op pre ih =>
      refine ih _ ?_ fun op' h' => hpre op' (List.mem_cons_of_mem _ h')
      rw [hpre op List.mem_cons_self]
      exact ho
  generalize pre.foldl step o = o' at h1
  have h2 : Current o' := by
    obtain ⟨h1, h2, h3, h4, h5, h6, h7⟩ := h1
    simp [Current, h1, h2, h3, h4, h5, h6, h7]
  induction post generalizing o' with
  | nil => exact h2
  | cons op post ih =>
    have h3 := step_current o' op (hpost op List.mem_cons_self) h2
    rw [List.foldl_cons]
    have : ∀ (l : List Op) (q : Obj m c n), Current q → (∀ op ∈ l, op ≠ .removeTraceSlope) →
        Current (l.foldl step q) := by
      intro l
      induction l with
      | nil => intro q hq _; exact hq
      | cons a l ih =>
        intro q hq hl
        exact ih _ (step_current q a (hl a List.mem_cons_self) hq)
          fun b hb => hl b (List.mem_cons_of_mem _ hb)
    exact this post _ h3 fun b hb => hpost b (List.mem_cons_of_mem _ hb)

/-- Whatever happened before, recalculating the PSD or (for several channels) the CSD stores the
result for the current traces. -/
theorem recalculate (o : Obj m c n) (ops : List Op) :
    (step (run o ops) .calculatePsd).psd = some (psdOf (run o ops).traces (run o ops).fs) ∧
    (c ≠ 1 → (step (run o ops) .calculateCsd).csd = some (csdOf (run o ops).traces (run o ops).fs)) := by
  refine ⟨rfl, fun hc => ?_⟩
  simp [step, calculateCsd, hc]

/-- The traces of the counterexample: a ramp in channel `t` of trace `t`. -/
def rampTraces : Fin 2 → Fin 2 → ZMod 2 → ℝ := fun t i j => if t = i then (j.val : ℝ) else 0

/-- The object holding them. -/
def rampObj : Obj 2 2 2 :=
  { traces := rampTraces, fs := 1, time := fun j => (j.val : ℝ), psd := none, realPsd := none
    imagPsd := none, csd := none, corrcoeff := none, uncorr := none, corr := none }

/-- The same object holding traces that are all zero. -/
def zeroObj : Obj 2 2 2 := { rampObj with traces := (fun _ _ => 0 : Fin 2 → Fin 2 → ZMod 2 → ℝ) }

theorem rampObj_create : create 3 rampTraces 1 ["a", "b"] 1 none = .ok rampObj := by
  unfold create rampObj
  simp

theorem ramp_unslope (t i : Fin 2) : unslope (fun j : ZMod 2 => (j.val : ℝ)) (rampTraces t i) = 0 := by
  have e0 : (ZMod.val (0 : ZMod 2)) = 0 := rfl
  have e1 : (ZMod.val (1 : ZMod 2)) = 1 := rfl
  funext j
  by_cases h : t = i
  · have hs : Utils.slope (seq fun j : ZMod 2 => (j.val : ℝ)) (seq (rampTraces t i)) true = 1 := by
      simp [Utils.slope, seq, rampTraces, h, Fin.sum_univ_two]
      norm_num
    unfold unslope
    rw [hs]
    simp [rampTraces, h]
  · have hs : Utils.slope (seq fun j : ZMod 2 => (j.val : ℝ)) (seq (rampTraces t i)) true = 0 := by
      simp [Utils.slope, seq, rampTraces, h, Fin.sum_univ_two]
      norm_num
    unfold unslope
    rw [hs]
    simp [rampTraces, h]

/-- The PSD stays behind after removing slopes: here it is positive while the traces the object
holds are zero. -/
theorem psd_stale_violated : ¬ Current (run rampObj [.calculatePsd, .removeTraceSlope]) := by
  intro h
  have h1 := h.1 (psdOf rampTraces 1) rfl
  have h2 := congrFun (congrFun h1 0) 0
  have ht : (run rampObj [.calculatePsd, .removeTraceSlope]).traces = fun _ _ => 0 := by
    funext t i
    exact ramp_unslope t i
  rw [ht] at h2
  have e0 : (ZMod.val (0 : ZMod 2)) = 0 := rfl
  have e1 : (ZMod.val (1 : ZMod 2)) = 1 := rfl
  have hz : ∀ x : ZMod 2 → ℝ, rfft x (0 : Half 2) = ((x 0 + x 1 : ℝ) : ℂ) := by
    intro x
    unfold rfft Half.bin
    simp only [Fin.val_zero, Nat.cast_zero]
    rw [fftR_zero_bin]
    congr 1
    exact Fin.sum_univ_two x
  simp [psdOf, avg, hz, rampTraces, e0, e1] at h2

theorem ramp_csd (i j : Fin 2) (k : Half 2) : (csdOf rampTraces 1).csd i j k =
    if i = j then ((1 / 8 : ℝ) : ℂ) else 0 := by
  have e0 : (ZMod.val (0 : ZMod 2)) = 0 := rfl
  have e1 : (ZMod.val (1 : ZMod 2)) = 1 := rfl
  have hw0 : hann 2 (0 : ZMod 2) = 0 := by simp [hann, e0]
  have hw1 : hann 2 (1 : ZMod 2) = 1 := by
    simp [hann, e1, show (2 : ℝ) * Real.pi / 2 = Real.pi by ring]
    norm_num
  have hseg : ∀ x : ZMod 2 → ℝ, segFft x k = e (-((1 : ZMod 2) * k.bin)) *
      (((x 1 - x 0) / 2 : ℝ) : ℂ) := by
    intro x
    unfold segFft rfft
    have hs : ∑ i, x i = x 0 + x 1 := Fin.sum_univ_two x
    rw [fftR_apply, hs]
    have := Fin.sum_univ_two (fun j : Fin 2 => e (-((show ZMod 2 from j) * k.bin)) *
      ((hann 2 (show ZMod 2 from j) * (x j - (x 0 + x 1) / (2 : ℕ)) : ℝ) : ℂ))
    refine Eq.trans this ?_
    change e (-((0 : ZMod 2) * k.bin)) * ((hann 2 (0 : ZMod 2) * _ : ℝ) : ℂ) +
      e (-((1 : ZMod 2) * k.bin)) * ((hann 2 (1 : ZMod 2) * (x 1 - (x 0 + x 1) / (2 : ℕ)) : ℝ) : ℂ) = _
    rw [hw0, hw1]
    push_cast
    ring
  have hsc : csdScale 2 1 k = 1 := by
    have hsum : ∑ j : ZMod 2, hann 2 j ^ 2 = 1 := by
      refine (Fin.sum_univ_two (fun j : Fin 2 => hann 2 (show ZMod 2 from j) ^ 2)).trans ?_
      change hann 2 (0 : ZMod 2) ^ 2 + hann 2 (1 : ZMod 2) ^ 2 = 1
      rw [hw0, hw1]; norm_num
    unfold csdScale
    rw [hsum, if_neg (by omega)]
    norm_num
  have hcsd : ∀ x y : ZMod 2 → ℝ, csd1 x y 1 k =
      (((x 1 - x 0) / 2 * ((y 1 - y 0) / 2) : ℝ) : ℂ) := by
    intro x y
    unfold csd1
    rw [hseg, hseg, hsc, map_mul, Complex.conj_ofReal, conj_e, neg_neg]
    have := e_neg_mul_e ((1 : ZMod 2) * k.bin)
    push_cast
    linear_combination ((x 1 : ℂ) - x 0) / 2 * (((y 1 : ℂ) - y 0) / 2) * this
  simp only [csdOf, hcsd, Fin.sum_univ_two]
  fin_cases i <;> fin_cases j <;> simp [rampTraces, e0, e1] <;> norm_num

/-- The uncorrelated noise stays behind even when recalculated: with a CSD stored before the
slopes were removed, `calculate_uncorr_noise` reports `1/8` for traces that are all zero, whereas
an object built from those traces raises LinAlgError. -/
theorem uncorr_stale_violated :
    let o := run rampObj [.calculateCsd, .removeTraceSlope, .calculateUncorrNoise]
    o.traces = (fun _ _ => 0) ∧ (∃ u, o.uncorr = some u ∧ ∀ j k, u j k = 1 / 8) ∧
    (calculateUncorrNoise zeroObj).1 = .error .linAlgError := by
  have hmat : ∀ k, csdMat (csdOf rampTraces 1) k = (((1 / 8 : ℝ) : ℂ)) • (1 : Matrix (Fin 2) (Fin 2) ℂ) := by
    intro k
    ext i j
    rw [csdMat, ramp_csd]
    simp [Matrix.one_apply]
  have hdet : ¬ ∃ k, (csdMat (csdOf rampTraces 1) k).det = 0 := by
    rintro ⟨k, hk⟩
    rw [hmat, Matrix.det_smul] at hk
    norm_num at hk
  have hrun : run rampObj [.calculateCsd, .removeTraceSlope, .calculateUncorrNoise] =
      (storeUncorr (removeTraceSlope { rampObj with csd := some (csdOf rampTraces 1) })
        (csdOf rampTraces 1)).2 := by
    simp [run, step, calculateCsd, removeTraceSlope, calculateUncorrNoise, rampObj]
  intro o
  have ho : o = _ := hrun
  refine ⟨?_, ?_, ?_⟩
  · rw [ho, (storeUncorr_traces _ _).1]
    funext t i
    exact ramp_unslope t i
  · refine ⟨uncorrOf (csdOf rampTraces 1), ?_, ?_⟩
    · rw [ho, storeUncorr, if_neg hdet]
    · intro j k
      have hinv : (csdMat (csdOf rampTraces 1) k)⁻¹ = (8 : ℂ) • (1 : Matrix (Fin 2) (Fin 2) ℂ) := by
        apply Matrix.inv_eq_right_inv
        rw [hmat, smul_mul_smul_comm, mul_one]
        norm_num
      unfold uncorrOf
      rw [hinv]
      simp
  · have hz : (csdMat (csdOf (fun _ _ => 0 : Fin 2 → Fin 2 → ZMod 2 → ℝ) 1) 0).det = 0 := by
      have hseg : segFft (0 : ZMod 2 → ℝ) 0 = 0 := by
        simp [segFft, rfft, fftR_apply]
      rw [Matrix.det_fin_two]
      simp [csdMat, csdOf, csd1, hseg]
    simp only [calculateUncorrNoise, zeroObj, rampObj, calculateCsd]
    rw [if_neg (by norm_num : ¬ (2 : ℕ) = 1)]
    simp only [storeUncorr]
    rw [if_pos ⟨0, hz⟩]

/-! ### C21: correlated and uncorrelated noise -/

theorem csdScale_nonneg (fs : ℝ) (hfs : 0 ≤ fs) (k : Half n) : 0 ≤ csdScale n fs k := by
  unfold csdScale
  have : 0 ≤ ∑ j, hann n j ^ 2 := Finset.sum_nonneg fun j _ => sq_nonneg _
  split_ifs <;> positivity

omit [NeZero n] in
theorem fillNeg_pos (a : Half n → ℝ) (k : Half n) (h : 0 < a k) : fillNeg a k = a k := by
  unfold fillNeg
  rw [Utils.fillNegatives_preserves (List.ofFn a) k (a k)
    (by rw [List.getElem?_eq_getElem (by rw [List.length_ofFn]; exact k.2), List.getElem_ofFn]) h]
  rfl

/-- Every stored CSD is the CSD of some set of traces, after any sequence of calls. -/
theorem reachable_csd (o : Obj m c n) (ho : Fresh o) (ops : List Op) :
    (run o ops).fs = o.fs ∧ ∀ d, (run o ops).csd = some d →
      ∃ traces : Fin m → Fin c → ZMod n → ℝ, d = csdOf traces o.fs := by
  have key : ∀ (ops : List Op) (q : Obj m c n), q.fs = o.fs →
      (∀ d, q.csd = some d → ∃ traces : Fin m → Fin c → ZMod n → ℝ, d = csdOf traces o.fs) →
      (run q ops).fs = o.fs ∧ ∀ d, (run q ops).csd = some d →
        ∃ traces : Fin m → Fin c → ZMod n → ℝ, d = csdOf traces o.fs := by
    intro ops
    induction ops with
    | nil => intro q h1 h2; exact ⟨h1, h2⟩
    | cons op ops ih =>
      intro q h1 h2
      have hst : ∀ (q' : Obj m c n) (d : Csd c n), (storeUncorr q' d).2.fs = q'.fs ∧
          (storeUncorr q' d).2.csd = q'.csd := by
        intro q' d; unfold storeUncorr; split_ifs <;> exact ⟨rfl, rfl⟩
      refine ih (step q op) ?_ ?_
      · cases op with
        | removeTraceSlope => exact h1
        | calculatePsd => exact h1
        | calculateCorrcoeff => simp only [step, calculateCorrcoeff]; split_ifs <;> exact h1
        | calculateCsd => simp only [step, calculateCsd]; split_ifs <;> exact h1
        | calculateUncorrNoise =>
          simp only [step, calculateUncorrNoise]
          cases q.csd with
          | some d => simp only [(hst q d).1]; exact h1
          | none =>
            simp only [calculateCsd]
            by_cases hc : c = 1
            · simp only [if_pos hc]; exact h1
            · simp only [if_neg hc]; rw [(hst _ _).1]; exact h1
      · cases op with
        | removeTraceSlope => exact h2
        | calculatePsd => exact h2
        | calculateCorrcoeff => simp only [step, calculateCorrcoeff]; split_ifs <;> exact h2
        | calculateCsd =>
          simp only [step, calculateCsd]
          split_ifs
          · exact h2
          · intro d hd
            exact ⟨q.traces, by rw [← h1]; exact (Option.some.inj hd).symm⟩
        | calculateUncorrNoise =>
          simp only [step, calculateUncorrNoise]
          cases hq : q.csd with
          | some d => simp only [(hst q d).2]; exact h2
          | none =>
            simp only [calculateCsd]
            by_cases hc : c = 1
            · simp only [if_pos hc]; exact h2
            · simp only [if_neg hc]
              rw [(hst _ _).2]
              intro d hd
              exact ⟨q.traces, by rw [← h1]; exact (Option.some.inj hd).symm⟩
  exact key ops o rfl (by rw [ho.2.2.2.1]; simp)

/-- When `calculate_uncorr_noise` succeeds on a CSD computed from traces (always the
case: `reachable_csd`), the two parts add up to
the channel's CSD, which is its real diagonal entry; the uncorrelated part is positive and neither
part exceeds the total. -/
theorem uncorr_split (o o' : Obj m c n) (hm : 0 < m) (hfs : 0 ≤ o.fs)
    (hcur : ∀ d, o.csd = some d → ∃ traces : Fin m → Fin c → ZMod n → ℝ, d = csdOf traces o.fs)
    (h : calculateUncorrNoise o = (.ok (), o')) :
    ∃ (traces : Fin m → Fin c → ZMod n → ℝ) (u r : Fin c → Half n → ℝ),
      o'.csd = some (csdOf traces o.fs) ∧ o'.uncorr = some u ∧ o'.corr = some r ∧
      ∀ j k, u j k + r j k = (csdOf traces o.fs).real j j k ∧
        (csdOf traces o.fs).real j j k = ((csdOf traces o.fs).csd j j k).re ∧
        0 < u j k ∧ u j k ≤ (csdOf traces o.fs).real j j k ∧ 0 ≤ r j k := by
  obtain ⟨traces, hd, o'', ho'', hcsd⟩ : ∃ traces : Fin m → Fin c → ZMod n → ℝ,
      (¬ ∃ k, (csdMat (csdOf traces o.fs) k).det = 0) ∧ ∃ o'' : Obj m c n,
      o' = { o'' with uncorr := some (uncorrOf (csdOf traces o.fs))
                      corr := some (corrOf (csdOf traces o.fs)) } ∧
      o''.csd = some (csdOf traces o.fs) := by
    unfold calculateUncorrNoise at h
    cases hc : o.csd with
    | some d =>
      obtain ⟨tr, rfl⟩ := hcur d hc
      rw [hc] at h
      simp only [storeUncorr] at h
      split_ifs at h with hdet
      · simp at h
      · exact ⟨tr, hdet, o, by simpa using (Prod.mk.inj h).2.symm, hc⟩
    | none =>
      rw [hc] at h
      simp only [calculateCsd] at h
      by_cases h1 : c = 1
      · rw [if_pos h1] at h; simp at h
      · rw [if_neg h1] at h
        simp only [storeUncorr] at h
        split_ifs at h with hdet
        · simp at h
        · exact ⟨o.traces, hdet, { o with csd := some (csdOf o.traces o.fs) }, (Prod.mk.inj h).2.symm,
            rfl⟩
  subst ho''
  refine ⟨traces, uncorrOf (csdOf traces o.fs), corrOf (csdOf traces o.fs), hcsd, rfl, rfl,
    fun j k => ?_⟩
  have hm' : (m : ℝ) ≠ 0 := Nat.cast_ne_zero.2 hm.ne'
  obtain ⟨g1, g2, g3⟩ := gram_inv (fun t i => segFft (traces t i) k) (csdScale n o.fs k / m)
    (div_nonneg (csdScale_nonneg o.fs hfs k) (Nat.cast_nonneg m)) (csdMat (csdOf traces o.fs) k) (by
      intro i j
      simp only [csdMat, csdOf, csd1]
      rw [Finset.sum_div]
      refine Finset.sum_congr rfl fun t _ => ?_
      push_cast
      ring) (fun h0 => hd ⟨k, h0⟩) j
  have hre : ((csdOf traces o.fs).csd j j k).re =
      avg fun t => (csd1 (traces t j) (traces t j) o.fs k).re := by
    simp only [csdOf, avg]
    rw [show ((∑ t, csd1 (traces t j) (traces t j) o.fs k) / (m : ℂ)) =
      (∑ t, csd1 (traces t j) (traces t j) o.fs k) / ((m : ℝ) : ℂ) by push_cast; rfl,
      Complex.div_ofReal_re, Complex.re_sum]
  have hreal : (csdOf traces o.fs).real j j k = ((csdOf traces o.fs).csd j j k).re := by
    have : (csdOf traces o.fs).real j j k = fillNeg (fun k => avg fun t =>
      (csd1 (traces t j) (traces t j) o.fs k).re) k := rfl
    rw [this, fillNeg_pos _ _ (by rw [← hre]; exact g3), ← hre]
  refine ⟨by simp [uncorrOf, corrOf], hreal, ?_, ?_, ?_⟩
  · unfold uncorrOf; positivity
  · rw [hreal]; exact g2
  · unfold corrOf
    rw [hreal, sub_nonneg]; exact g2

/-- The hypotheses are met by the ramp traces. -/
example : ∃ o', calculateUncorrNoise (step rampObj .calculateCsd) = (.ok (), o') := by
  have hdet : ¬ ∃ k, (csdMat (csdOf rampTraces 1) k).det = 0 := by
    rintro ⟨k, hk⟩
    rw [Matrix.det_fin_two] at hk
    simp [csdMat, ramp_csd] at hk
  have h : (calculateUncorrNoise (step rampObj .calculateCsd)).1 = .ok () := by
    simp only [step, calculateCsd, calculateUncorrNoise, rampObj]
    rw [if_neg (by norm_num : ¬ (2 : ℕ) = 1)]
    simp only [storeUncorr]
    rw [if_neg hdet]
  exact ⟨_, Prod.ext h rfl⟩

/-! ### C62: slope removal -/

/-- `remove_trace_slope` leaves traces of zero slope, so doing it twice changes nothing. -/
theorem removeSlope_zero (o : Obj m c n) (ht : ∃ i j, seq o.time i ≠ seq o.time j) :
    (∀ t i, Utils.slope (seq o.time) (seq ((removeTraceSlope o).traces t i)) true = 0) ∧
    removeTraceSlope (removeTraceSlope o) = removeTraceSlope o := by
  have hn : 0 < n := NeZero.pos n
  have h1 : ∀ t i, Utils.slope (seq o.time) (seq ((removeTraceSlope o).traces t i)) true = 0 := by
    intro t i
    set s := Utils.slope (seq o.time) (seq (o.traces t i)) true with hs
    have e : seq ((removeTraceSlope o).traces t i) =
        fun a => 1 * seq (o.traces t i) a + (-s) * seq o.time a := by
      funext a
      simp only [removeTraceSlope, unslope, seq, hs]
      ring
    have h2 : Utils.slope (seq o.time) (seq o.time) true = 1 := by
      have := Utils.slope_affine (seq o.time) ht 1 0
      simpa using this
    rw [e, Utils.slope_linear _ _ _ hn, h2, ← hs]; ring
  refine ⟨h1, ?_⟩
  have : (removeTraceSlope (removeTraceSlope o)).traces = (removeTraceSlope o).traces := by
    funext t i j
    change unslope o.time ((removeTraceSlope o).traces t i) j = _
    unfold unslope
    rw [h1, zero_mul, sub_zero]
  unfold removeTraceSlope at this ⊢
  simp only at this ⊢
  rw [this]

/-- The default time axis is admissible for at least two samples. -/
example : ∃ i j, seq rampObj.time i ≠ seq rampObj.time j :=
  ⟨0, 1, by
    change ((0 : ℕ) : ℝ) ≠ ((1 : ℕ) : ℝ)
    norm_num⟩

/-! ### C63: correlation coefficients -/

theorem cov_comm (a b : Fin m → ℝ) : cov a b = cov b a := by
  unfold cov; exact Finset.sum_congr rfl fun t _ => mul_comm _ _

/-- Correlation coefficients are symmetric in the channels, lie in `[-1, 1]`, and are `1` on the
diagonal wherever they are defined. -/
theorem corrcoeff_range (traces : Fin m → Fin c → ZMod n → ℝ) (i j : Fin c) (k : Half n) :
    corrcoeffOf traces i j k = corrcoeffOf traces j i k ∧
    (∀ r, corrcoeffOf traces i j k = some r → -1 ≤ r ∧ r ≤ 1) ∧
    (∀ r, corrcoeffOf traces i i k = some r → r = 1) := by
  have hnn : ∀ a : Fin m → ℝ, 0 ≤ cov a a := fun a =>
    Finset.sum_nonneg fun t _ => mul_self_nonneg _
  refine ⟨?_, ?_, ?_⟩
  · unfold corrcoeffOf corrcoef
    simp only [or_comm (a := cov (fun t => ‖rfft (traces t j) k‖) _ = 0)]
    rw [cov_comm (fun t => ‖rfft (traces t j) k‖) (fun t => ‖rfft (traces t i) k‖),
      mul_comm (Real.sqrt _)]
  · intro r hr
    unfold corrcoeffOf at hr
    generalize (fun t => ‖rfft (traces t j) k‖) = a at hr
    generalize (fun t => ‖rfft (traces t i) k‖) = b at hr
    unfold corrcoef at hr
    split_ifs at hr with h
    push Not at h
    cases hr
    have ha := (hnn a).lt_of_ne' h.1
    have hb := (hnn b).lt_of_ne' h.2
    have hcs : cov a b ^ 2 ≤ cov a a * cov b b := by
      have := Finset.sum_mul_sq_le_sq_mul_sq Finset.univ (fun t => a t - avg a) (fun t => b t - avg b)
      simpa [cov, pow_two] using this
    have hab : |cov a b| ≤ Real.sqrt (cov a a) * Real.sqrt (cov b b) := by
      rw [← Real.sqrt_mul (hnn a), ← Real.sqrt_sq_eq_abs]
      exact Real.sqrt_le_sqrt hcs
    have hpos : 0 < Real.sqrt (cov a a) * Real.sqrt (cov b b) :=
      mul_pos (Real.sqrt_pos.2 ha) (Real.sqrt_pos.2 hb)
    rw [abs_le] at hab
    constructor
    · rw [le_div_iff₀ hpos]; linarith
    · rw [div_le_iff₀ hpos]; linarith
  · intro r hr
    unfold corrcoeffOf at hr
    generalize (fun t => ‖rfft (traces t i) k‖) = a at hr
    unfold corrcoef at hr
    split_ifs at hr with h
    cases hr
    rw [Real.mul_self_sqrt (hnn a)]
    push Not at h
    exact div_self h.1

/-- Two traces with different heights in both channels have a defined coefficient. -/
example : corrcoef (fun t : Fin 2 => (t : ℝ)) (fun t : Fin 2 => (t : ℝ)) ≠ none := by
  simp [corrcoef, cov, avg, Fin.sum_univ_two]; norm_num

/-! ### C64: generated noise -/

/-- For a symmetric non-negative PSD the generated trace has exactly the transform prescribed by the draws. -/
theorem genNoise_fft (psd : ZMod n → ℝ) (fs : ℝ) (vals : ZMod n → ℝ) (hs : ∀ k, psd (-k) = psd k)
    (k : ZMod n) :
    fftR (genNoise psd fs vals) k = fftR vals k * (Real.sqrt (psd k * fs) : ℂ) := by
  set F : ZMod n → ℂ := fun k => fftR vals k * (Real.sqrt (psd k * fs) : ℂ) with hF
  have hreal : ∀ j, ((genNoise psd fs vals j : ℝ) : ℂ) = ifft F j := by
    intro j
    have hconj : starRingEnd ℂ (ifft F j) = ifft F j := by
      rw [ifft_apply, map_mul, map_sum]
      congr 1
      · simp
      · refine Fintype.sum_equiv (Equiv.neg _) _ _ fun k => ?_
        simp only [Equiv.neg_apply, hF, map_mul, conj_e, Complex.conj_ofReal]
        rw [← fftR_neg, hs, neg_mul]
    exact Complex.conj_eq_iff_re.1 hconj
  have : fftR (genNoise psd fs vals) = fft (ifft F) := by
    unfold fftR fft
    congr 1
    funext j
    exact hreal j
  rw [this, fft_ifft]

theorem norm_sq_fftR (x : ZMod n → ℝ) (k : ZMod n) :
    ‖fftR x k‖ ^ 2 = ∑ i, ∑ j, (e (k * (j - i))).re * (x i * x j) := by
  have h : ((‖fftR x k‖ ^ 2 : ℝ) : ℂ) = ∑ i, ∑ j, e (k * (j - i)) * ((x i * x j : ℝ) : ℂ) := by
    rw [← Complex.normSq_eq_norm_sq, ← Complex.mul_conj, fftR_apply, map_sum, Finset.sum_mul_sum]
    refine Finset.sum_congr rfl fun i _ => Finset.sum_congr rfl fun j _ => ?_
    rw [map_mul, conj_e, neg_neg, Complex.conj_ofReal, show k * (j - i) = -(i * k) + j * k by ring,
      e_add]
    push_cast; ring
  have h2 := congrArg Complex.re h
  rw [Complex.ofReal_re] at h2
  rw [h2, Complex.re_sum]
  refine Finset.sum_congr rfl fun i _ => ?_
  rw [Complex.re_sum]
  exact Finset.sum_congr rfl fun j _ => Complex.re_mul_ofReal _ _

/-- The periodogram of a generated trace is the input PSD times the periodogram of the draws. -/
theorem genNoise_psd (psd : ZMod n → ℝ) (fs : ℝ) (vals : Fin m → ZMod n → ℝ)
    (hs : ∀ k, psd (-k) = psd k) (hp : ∀ k, 0 ≤ psd k) (hfs : 0 < fs) (k : ZMod n) :
    calcPsdTwoSided (fun t => genNoise psd fs (vals t)) fs k =
      psd k * avg fun t => ‖fftR (vals t) k‖ ^ 2 / n := by
  have hn : (n : ℝ) ≠ 0 := Nat.cast_ne_zero.2 (NeZero.ne n)
  unfold calcPsdTwoSided avg
  have : ∀ t, ‖fftR (genNoise psd fs (vals t)) k‖ ^ 2 = ‖fftR (vals t) k‖ ^ 2 * (psd k * fs) := by
    intro t
    rw [genNoise_fft psd fs _ hs, norm_mul, mul_pow, Complex.norm_real, Real.norm_eq_abs, sq_abs,
      Real.sq_sqrt (mul_nonneg (hp k) hfs.le)]
  simp only [this, ← Finset.sum_mul, ← Finset.sum_div]
  field_simp

open MeasureTheory in
/-- Averaged over uncorrelated unit-variance draws, the PSD of the generated traces is the PSD
that was asked for, bin by bin. -/
theorem genNoise_mean {Ω : Type*} [MeasurableSpace Ω] (μ : Measure Ω) (hm : 0 < m)
    (psd : ZMod n → ℝ) (fs : ℝ) (vals : Ω → Fin m → ZMod n → ℝ)
    (hs : ∀ k, psd (-k) = psd k) (hp : ∀ k, 0 ≤ psd k) (hfs : 0 < fs)
    (hint : ∀ t i j, Integrable (fun ω => vals ω t i * vals ω t j) μ)
    (hcov : ∀ t i j, ∫ ω, vals ω t i * vals ω t j ∂μ = if i = j then 1 else 0) (k : ZMod n) :
    ∫ ω, calcPsdTwoSided (fun t => genNoise psd fs (vals ω t)) fs k ∂μ = psd k := by
  have hn : (n : ℝ) ≠ 0 := Nat.cast_ne_zero.2 (NeZero.ne n)
  have hm' : (m : ℝ) ≠ 0 := Nat.cast_ne_zero.2 hm.ne'
  simp only [genNoise_psd psd fs _ hs hp hfs, avg, norm_sq_fftR]
  rw [integral_const_mul, integral_div, integral_finsetSum]
  · have : ∀ t, ∫ ω, (∑ i, ∑ j, (e (k * (j - i))).re * (vals ω t i * vals ω t j)) / n ∂μ = 1 := by
      intro t
      rw [integral_div, integral_finsetSum _ fun i _ => integrable_finsetSum _ fun j _ =>
        (hint t i j).const_mul _]
      have h2 : ∀ i, ∫ ω, ∑ j, (e (k * (j - i))).re * (vals ω t i * vals ω t j) ∂μ = 1 := by
        intro i
        rw [integral_finsetSum _ fun j _ => (hint t i j).const_mul _]
        simp only [integral_const_mul, hcov]
        rw [Finset.sum_eq_single i]
        · simp
        · intro j _ hj; simp [Ne.symm hj]
        · simp
      simp [h2, ZMod.card, hn]
    simp [this, hm']
  · intro t _
    exact (integrable_finsetSum _ fun i _ => integrable_finsetSum _ fun j _ =>
      (hint t i j).const_mul _).div_const _

open MeasureTheory in
/-- Draws meeting the hypotheses on the covariance, for three bins. -/
example : ∃ vals : Fin 3 → Fin 1 → ZMod 3 → ℝ,
    (∀ t i j, Integrable (fun ω => vals ω t i * vals ω t j) (Measure.count : Measure (Fin 3))) ∧
    (∀ t i j, ∫ ω, vals ω t i * vals ω t j ∂(Measure.count : Measure (Fin 3)) =
      if i = j then 1 else 0) := by
  refine ⟨fun ω _ j => if (show ZMod 3 from ω) = j then 1 else 0, fun t i j => .of_finite,
    fun t i j => ?_⟩
  rw [integral_fintype .of_finite]
  simp only [measureReal_def, Measure.count_singleton, ENNReal.toReal_one, one_smul, ite_mul,
    one_mul, zero_mul]
  refine (Finset.sum_ite_eq' Finset.univ (show Fin 3 from i) _).trans ?_
  rw [if_pos (Finset.mem_univ _)]

end Verif.Noise
