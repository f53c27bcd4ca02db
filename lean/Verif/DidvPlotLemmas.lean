import Verif.DidvPlotSpec
import Verif.DidvWaveProps
import Verif.DidvObjProps

/-! Helper lemmas for the drawings. -/

namespace Verif.Didv
open Verif Dft

theorem has_iff (poles : Poles) (k : ℤ) (hk : k = 1 ∨ k = 2 ∨ k = 3) : poles.has k = true ↔ Requested poles k := by
  cases poles with
  | all => rcases hk with rfl | rfl | rfl <;> simp [Poles.has, Requested]
  | one j => simp only [Poles.has, Requested, beq_iff_eq]; exact eq_comm
  | list l => simp [Poles.has, Requested]

/-- The drawn fits in terms of a lookup of the results. -/
theorem drawn_of (v : View) (poles : Poles) (g : ℤ → Option PlotFit) (h1 : g 1 = v.fit1) (h2 : g 2 = v.fit2)
    (h3 : g 3 = v.fit3) (h0 : ∀ k, k ≠ 1 → k ≠ 2 → k ≠ 3 → g k = none) :
    ∃ ks : List ℤ, ks.Pairwise (· < ·) ∧ (∀ k, k ∈ ks ↔ Requested poles k ∧ g k ≠ none) ∧
      (v.drawn poles).map some = ks.map g := by
  refine ⟨[1, 2, 3].filter fun k => poles.has k && (g k).isSome, ?_, ?_, ?_⟩
  · exact List.Pairwise.filter _ (by decide)
  · intro k
    rw [List.mem_filter, Bool.and_eq_true, Option.isSome_iff_ne_none]
    constructor
    · rintro ⟨hk, h, hg⟩
      exact ⟨(has_iff poles k (by simpa using hk)).1 h, hg⟩
    · rintro ⟨h, hg⟩
      have hk : k = 1 ∨ k = 2 ∨ k = 3 := by
        by_contra hc
        push Not at hc
        exact hg (h0 k hc.1 hc.2.1 hc.2.2)
      exact ⟨by simpa using hk, (has_iff poles k hk).2 h, hg⟩
  · have hb : ∀ (b : Bool) (k : ℤ), (if b then (g k).toList else []).map some =
        ((if (b && (g k).isSome) = true then [k] else []) : List ℤ).map g := by
      intro b k
      cases b
      · simp
      · cases hg : g k <;> simp [hg]
    have hf : ([1, 2, 3] : List ℤ).filter (fun k => poles.has k && (g k).isSome) =
        (if (poles.has 1 && (g 1).isSome) = true then [1] else []) ++
        (if (poles.has 2 && (g 2).isSome) = true then [2] else []) ++
        (if (poles.has 3 && (g 3).isSome) = true then [3] else []) := by
      simp only [List.filter_cons, List.filter_nil]
      split_ifs <;> rfl
    rw [hf, View.drawn, ← h1, ← h2, ← h3]
    simp only [List.map_append, hb]

/-! ### Lowest cost -/

theorem minCost_mem {l : List PlotFit} {f : PlotFit} (h : minCost l = some f) :
    f ∈ l ∧ ∀ g ∈ l, f.cost ≤ g.cost := by
  induction l generalizing f with
  | nil => cases h
  | cons a l ih =>
    unfold minCost at h
    cases hm : minCost l with
    | none =>
      rw [hm] at h
      cases h
      have : l = [] := by
        cases l with
        | nil => rfl
        | cons b l =>
          exfalso
          unfold minCost at hm
          revert hm
          cases minCost l with
          | none => simp
          | some g =>
            dsimp only
            split_ifs <;> simp
      subst this
      simp
    | some g =>
      rw [hm] at h
      obtain ⟨h1, h2⟩ := ih hm
      by_cases hc : a.cost ≤ g.cost
      · simp only [if_pos hc] at h
        cases h
        refine ⟨by simp, fun b hb => ?_⟩
        rcases List.mem_cons.1 hb with rfl | hb
        · exact le_rfl
        · exact hc.trans (h2 b hb)
      · simp only [if_neg hc] at h
        cases h
        refine ⟨by simp [h1], fun b hb => ?_⟩
        rcases List.mem_cons.1 hb with rfl | hb
        · exact (not_le.1 hc).le
        · exact h2 b hb

theorem minCost_none {l : List PlotFit} (h : minCost l = none) : l = [] := by
  cases l with
  | nil => rfl
  | cons b l =>
    exfalso
    unfold minCost at h
    revert h
    cases minCost l with
    | none => simp
    | some g =>
      dsimp only
      split_ifs <;> simp

/-- The fit found is the first with its cost. -/
theorem minCost_first (a b : List PlotFit) (f : PlotFit) (ha : ∀ g ∈ a, f.cost < g.cost)
    (hb : ∀ g ∈ b, f.cost ≤ g.cost) : minCost (a ++ f :: b) = some f := by
  induction a with
  | nil =>
    simp only [List.nil_append]
    unfold minCost
    cases hm : minCost b with
    | none => rfl
    | some g => simp only [if_pos (hb g (minCost_mem hm).1)]
  | cons c a ih =>
    simp only [List.cons_append]
    unfold minCost
    rw [ih fun g hg => ha g (by simp [hg])]
    simp only [if_neg (not_le.2 (ha c (by simp)))]

/-! ### Frequencies -/

theorem freqIdx_inj {n : ℕ} [NeZero n] {k j : ZMod n} (h : freqIdx k = freqIdx j) : k = j := by
  rw [← freqIdx_cast k, h, freqIdx_cast]

theorem freqAt_inj {n : ℕ} {fs : ℝ} (hfs : 0 < fs) {k j : ℕ} (hk : k < n) (hj : j < n)
    (h : freqAt n fs k = freqAt n fs j) : k = j := by
  cases n with
  | zero => omega
  | succ m =>
    unfold freqAt fftfreq at h
    have hm : ((m + 1 : ℕ) : ℝ) ≠ 0 := by positivity
    have h1 : ((freqIdx (k : ZMod (m + 1)) : ℤ) : ℝ) = (freqIdx (j : ZMod (m + 1)) : ℤ) := by
      have := (div_left_inj' hm).1 h
      exact mul_right_cancel₀ hfs.ne' this
    have h2 := freqIdx_inj (by exact_mod_cast h1 : freqIdx (k : ZMod (m + 1)) = freqIdx (j : ZMod (m + 1)))
    have := congrArg ZMod.val h2
    rwa [ZMod.val_natCast_of_lt hk, ZMod.val_natCast_of_lt hj] at this

theorem mem_fitBins {v : View} {k : ℕ} : k ∈ v.fitBins ↔ k < v.proc.nbins ∧ 0 < v.freq k := by
  simp [View.fitBins]

theorem mem_plotBins {v : View} {k : ℕ} : k ∈ v.plotBins ↔
    (k < v.proc.nbins ∧ 0 < v.freq k) ∧ good (v.proc.didvmean k) (v.proc.didvstd k) := by
  simp [View.plotBins, mem_fitBins]

/-- The value drawn for a fit at a bin. -/
theorem fitFreq_value {v : View} (hfs : 0 < v.fs) {f : PlotFit} {fn : ℂ → ℝ} {k : ℕ} {y : ℂ}
    (hk : k ∈ v.fitBins) (hy : complexadmittance (v.freq k) f.args = .ok y) (q : Option ℝ) :
    (v.freq k, q) ∈ v.fitFreq fn f ↔ q = some (fn y) := by
  unfold View.fitFreq
  rw [List.mem_map]
  constructor
  · rintro ⟨j, hj, e⟩
    have e1 := congrArg Prod.fst e
    have e2 := congrArg Prod.snd e
    simp only at e1 e2
    have : j = k := freqAt_inj hfs (mem_fitBins.1 hj).1 (mem_fitBins.1 hk).1 e1
    subst this
    rw [hy] at e2
    exact e2.symm
  · rintro rfl
    exact ⟨k, hk, by rw [hy]⟩

theorem phase_mul (v : View) (f : PlotFit) (k : ℕ) (y : ℂ)
    (h : v.proc.didvmean k = y * Complex.exp (-2 * Complex.I * Real.pi * v.freq k * f.dt)) :
    v.proc.didvmean k * v.phase k =
      y * Complex.exp (2 * Complex.I * Real.pi * v.freq k * (v.bestOffset - f.dt)) := by
  rw [h, View.phase, mul_assoc, ← Complex.exp_add]
  congr 2
  ring

theorem lmax_mem {l : List ℝ} (h : l ≠ []) : lmax l ∈ l := by
  unfold lmax
  have : ∀ (a : ℝ) (t : List ℝ), t.foldr max a = a ∨ t.foldr max a ∈ t := by
    intro a t
    induction t with
    | nil => simp
    | cons b t ih =>
      rw [List.foldr_cons]
      rcases max_choice b (t.foldr max a) with e | e
      · right; rw [e]; simp
      · rw [e]
        rcases ih with ih | ih
        · left; exact ih
        · right; simp [ih]
  cases l with
  | nil => exact absurd rfl h
  | cons b t =>
    rcases this b (b :: t) with e | e
    · simp only [List.headD_cons]; rw [e]; simp
    · exact e

theorem lmin_mem {l : List ℝ} (h : l ≠ []) : lmin l ∈ l := by
  unfold lmin
  have : ∀ (a : ℝ) (t : List ℝ), t.foldr min a = a ∨ t.foldr min a ∈ t := by
    intro a t
    induction t with
    | nil => simp
    | cons b t ih =>
      rw [List.foldr_cons]
      rcases min_choice b (t.foldr min a) with e | e
      · right; rw [e]; simp
      · rw [e]
        rcases ih with ih | ih
        · left; exact ih
        · right; simp [ih]
  cases l with
  | nil => exact absurd rfl h
  | cons b t =>
    rcases this b (b :: t) with e | e
    · simp only [List.headD_cons]; rw [e]; simp
    · exact e

/-! ### Transforms -/

variable {n : ℕ} [NeZero n]

theorem fftR_inj {x y : ZMod n → ℝ} (h : ∀ k, fftR x k = fftR y k) : x = y := by
  have h1 : (fun j => (x j : ℂ)) = fun j => (y j : ℂ) := ZMod.dft.injective (funext h)
  funext j
  exact_mod_cast congrFun h1 j

omit [NeZero n] in
theorem sqWave_zero (dx sgamp rsh sgfreq duty : ℝ) : sqWave dx sgamp rsh sgfreq duty (0 : ZMod n) = 0 := by
  have hf : fftfreq (1 / dx) (0 : ZMod n) / sgfreq = 0 := by simp [fftfreq, freqIdx]
  have hn : ¬ nearOne |fftfreq (1 / dx) (0 : ZMod n) / sgfreq| := by
    rw [hf]
    unfold nearOne
    norm_num
  unfold sqWave
  simp only [if_neg hn]
  rw [if_neg (not_or.2 ⟨hn, fun h => h.2 rfl⟩), ite_self]

/-- The response at a Nyquist bin without drive. -/
theorem squarewave_nyquist {dx sgamp sgfreq duty : ℝ} {a : Args} {tr : ZMod n → ℝ}
    (h : squarewaveresponse dx sgamp sgfreq duty a = .ok tr) (k : ZMod n) (hk : 2 * k.val = n)
    (h0 : sqWave dx sgamp (a.rsh.getD 0) sgfreq duty k = 0) : fftR tr k = 0 := by
  obtain ⟨A, B, C, t1, t2, t3, hc, _⟩ := squarewave_convolve h
  have hneg : -k = k := by
    have h2 : ((2 * k.val : ℕ) : ZMod n) = 0 := by rw [hk]; simp
    push_cast at h2
    rw [ZMod.natCast_zmod_val] at h2
    linear_combination -h2
  unfold convolve at hc
  by_cases hn : ∃ k : ZMod n, ∀ y, threePoleY (fftfreq (1 / dx) k) A B C t1 t2 t3 ≠ .ok y
  · rw [if_pos hn] at hc; cases hc
  · rw [if_neg hn] at hc
    cases hc
    rw [fftR_re_ifft, hneg, h0]
    simp

/-- Subtracting the mean removes the zero frequency and nothing else. -/
theorem fftR_sub_mean (x : ZMod n → ℝ) (k : ZMod n) :
    fftR (fun j => x j - (∑ i, x i) / n) k = if k = 0 then 0 else fftR x k := by
  have hn : (n : ℂ) ≠ 0 := Nat.cast_ne_zero.2 (NeZero.ne n)
  have := fftR_sub x (fun _ => (∑ i, x i) / n) k
  rw [this, fftR_const]
  split_ifs with h
  · subst h
    rw [fftR_zero_bin]
    push_cast
    field_simp
    simp
  · simp

theorem sum_range_val (f : ℕ → ℝ) : ∑ j : ZMod n, f j.val = ∑ i ∈ Finset.range n, f i := by
  rw [Finset.sum_range]
  cases n with
  | zero => exact absurd rfl (NeZero.ne 0)
  | succ m => rfl

theorem Sampled.offset' {v : View} {t0 : ℝ} (h : Sampled v n t0) :
    v.proc.offset = (∑ j, v.trace n j) / n := by
  rw [h.offset, ← sum_range_val]
  rfl

/-- The phase of a half period. -/
theorem e_half {q N : ℕ} (hn : n = N * (2 * q)) (k : ZMod n) :
    e (-((q : ZMod n) * k)) = -1 ↔ ∃ h : ℤ, Odd h ∧ freqIdx k = N * h := by
  have hpos : 0 < n := NeZero.pos n
  have hN : 0 < N := Nat.pos_of_ne_zero fun h0 => by subst h0; simp at hn; omega
  have hq : 0 < q := Nat.pos_of_ne_zero fun h0 => by subst h0; simp at hn; omega
  have hNc : (N : ℂ) ≠ 0 := by exact_mod_cast hN.ne'
  have hqc : (q : ℂ) ≠ 0 := by exact_mod_cast hq.ne'
  have e1 : -((q : ZMod n) * k) = ((-(q * freqIdx k) : ℤ) : ZMod n) := by
    push_cast; rw [freqIdx_cast]
  rw [e1, e, ZMod.stdAddChar_coe, ← Complex.exp_pi_mul_I, Complex.exp_eq_exp_iff_exists_int]
  have hpi : (Real.pi : ℂ) * Complex.I ≠ 0 := by simp [Real.pi_ne_zero]
  have hnc : (n : ℂ) = N * (2 * q) := by rw [hn]; push_cast; ring
  constructor
  · rintro ⟨m, hm⟩
    refine ⟨-(2 * m + 1), ⟨-m - 1, by ring⟩, ?_⟩
    rw [hnc] at hm
    push_cast at hm
    have : (freqIdx k : ℂ) = N * -(2 * m + 1) := by
      field_simp at hm
      linear_combination -hm
    exact_mod_cast this
  · rintro ⟨h, ⟨r, rfl⟩, hk⟩
    refine ⟨-r - 1, ?_⟩
    rw [hk, hnc]
    push_cast
    field_simp
    ring

/-- A trace which changes its sign after half a period, around the circle and within the trace. -/
theorem antiperiodic_circle {q N : ℕ} (hn : n = N * (2 * q)) (x : ℕ → ℝ) :
    (∀ j, j + q < n → x (j + q) = -x j) ↔
      ∀ i : ZMod n, x (i - (q : ZMod n)).val = -x i.val := by
  have hpos : 0 < n := NeZero.pos n
  have hN : 0 < N := Nat.pos_of_ne_zero fun h0 => by subst h0; simp at hn; omega
  have hq : 0 < q := Nat.pos_of_ne_zero fun h0 => by subst h0; simp at hn; omega
  have hqn : q < n := by
    have : 1 * (2 * q) ≤ N * (2 * q) := Nat.mul_le_mul_right _ hN
    omega
  have hv : ∀ i : ZMod n, (i - (q : ZMod n)).val = if q ≤ i.val then i.val - q else i.val + n - q := by
    intro i
    have hi := ZMod.val_lt i
    have hqv : ((q : ℕ) : ZMod n).val = q := ZMod.val_natCast_of_lt hqn
    split_ifs with h
    · rw [ZMod.val_sub (by rw [hqv]; exact h), hqv]
    · have : i - (q : ZMod n) = ((i.val + n - q : ℕ) : ZMod n) := by
        rw [Nat.cast_sub (by omega)]
        push_cast
        simp
      rw [this, ZMod.val_natCast_of_lt (by omega)]
  constructor
  · intro h i
    have hi := ZMod.val_lt i
    rw [hv]
    split_ifs with hc
    · have := h (i.val - q) (by omega)
      rw [Nat.sub_add_cancel hc] at this
      rw [this, neg_neg]
    · -- walk along the trace
      have hw : ∀ m : ℕ, i.val + m * q < n → x (i.val + m * q) = (-1) ^ m * x i.val := by
        intro m
        induction m with
        | zero => simp
        | succ m ih =>
          intro hm
          have e1 : i.val + (m + 1) * q = i.val + m * q + q := by ring
          rw [e1] at hm ⊢
          rw [h _ hm, ih (by omega), pow_succ]
          ring
      have e2 : i.val + n - q = i.val + (2 * N - 1) * q := by
        have : (2 * N - 1) * q = n - q := by
          rw [Nat.sub_mul, hn]
          congr 1 <;> ring
        omega
      rw [e2, hw (2 * N - 1) (by omega)]
      have : Odd (2 * N - 1) := ⟨N - 1, by omega⟩
      rw [this.neg_one_pow]
      ring
  · intro h j hj
    have := h ((j + q : ℕ) : ZMod n)
    rw [hv, ZMod.val_natCast_of_lt hj, if_pos (by omega), Nat.add_sub_cancel] at this
    rw [this, neg_neg]

/-! ### Concrete drawings -/

/-- A drawing made of a trace, an averaged admittance with deviations and up to two results. -/
noncomputable def viewOf (n : ℕ) [NeZero n] (fs sg duty : ℝ) (x : ZMod n → ℝ) (mean std : ℕ → ℂ)
    (f1 f2 : Option PlotFit) : View :=
  ⟨⟨n, fun i => i / fs, fun i => x i, [], mean, std, (∑ j, x j) / n, 0⟩, fs, 1, sg, duty, f1, f2, none⟩

theorem viewOf_trace (fs sg duty : ℝ) (x : ZMod n → ℝ) (mean std : ℕ → ℂ) (f1 f2 : Option PlotFit) :
    (viewOf n fs sg duty x mean std f1 f2).trace n = x := by
  funext j
  simp [View.trace, viewOf]

theorem viewOf_sampled {fs : ℝ} (hfs : 0 < fs) (sg duty : ℝ) (x : ZMod n → ℝ) (mean std : ℕ → ℂ)
    (f1 f2 : Option PlotFit) : Sampled (viewOf n fs sg duty x mean std f1 f2) n 0 where
  nbins := rfl
  fs_pos := hfs
  time i := by simp [viewOf]
  offset := by
    rw [← sum_range_val]
    simp [viewOf]

theorem viewOf_fitCurve {m : ℕ} {fs sg duty : ℝ} (x : ZMod (m + 2) → ℝ) (mean std : ℕ → ℂ)
    (f1 f2 : Option PlotFit) (f : PlotFit) {y : ZMod (m + 2) → ℝ}
    (h : squarewaveresponse (1 / fs) 1 sg duty f.args = .ok y) :
    (viewOf (m + 2) fs sg duty x mean std f1 f2).fitCurve f =
      .ok ((List.range (m + 2)).map fun (i : ℕ) => ((i / fs + f.dt) * 10 ^ 6, y (i : ZMod (m + 2)) * 10 ^ 6)) := by
  unfold View.fitCurve
  change (match squarewaveresponse (n := m + 2) (((1 : ℕ) : ℝ) / fs - ((0 : ℕ) : ℝ) / fs) 1 sg duty f.args with
    | .error e => .error e
    | .ok y => .ok ((List.range (m + 2)).map fun (i : ℕ) =>
        ((i / fs + f.dt) * 10 ^ 6, y (i : ZMod (m + 2)) * 10 ^ 6)) : Except Err Curve) = _
  rw [show ((1 : ℕ) : ℝ) / fs - ((0 : ℕ) : ℝ) / fs = 1 / fs by simp, h]

/-- The mean over the bins of the averaged trace is the average of the means of the traces. -/
theorem mean_swap (ts : List (ℕ → ℝ)) (nb : ℕ) :
    lmean (ts.map fun t => lmean ((List.range nb).map t)) =
      (∑ i ∈ Finset.range nb, lmean (ts.map fun t => t i)) / nb := by
  have h1 : ∀ t : ℕ → ℝ, lmean ((List.range nb).map t) = (∑ i ∈ Finset.range nb, t i) / nb := by
    intro t
    simp [lmean, Finset.sum, Multiset.range]
  simp only [h1]
  have h2 : ∀ ts : List (ℕ → ℝ), (ts.map fun t => (∑ i ∈ Finset.range nb, t i) / (nb : ℝ)).sum =
      (∑ i ∈ Finset.range nb, (ts.map fun t => t i).sum) / nb := by
    intro ts
    induction ts with
    | nil => simp
    | cons t ts ih =>
      simp only [List.map_cons, List.sum_cons, ih, Finset.sum_add_distrib]
      ring
  simp only [lmean, List.length_map, h2]
  rw [← Finset.sum_div]
  ring

theorem ohm_admittance (f : ℝ) : complexadmittance f oddArgs = .ok (1 / 2) := by
  have hp : poleExtractor oddArgs = .ok 1 := by simp [poleExtractor, oddArgs]
  have hc : convertFrom [1, 1, 0, 0] = .ok [1 + 1, 0 / (1 + 1), 0] := by
    simp only [convertFrom]
    rw [if_neg (by norm_num)]
  have hc' : convertFrom [oddArgs.rsh.getD 0, oddArgs.rp.getD 0, oddArgs.L.getD 0, 0] =
      .ok [1 + 1, 0 / (1 + 1), 0] := hc
  unfold complexadmittance compleximpedance
  simp only [hp, hc', recipZ, onePoleZ]
  rw [if_neg (by norm_num)]
  norm_num

theorem ohm_response (dx sg d : ℝ) (N : ℕ) [NeZero N] : ∃ tr : ZMod N → ℝ,
    squarewaveresponse dx 1 sg d oddArgs = .ok tr := by
  have hp : poleExtractor oddArgs = .ok 1 := by simp [poleExtractor, oddArgs]
  have hc : convertFrom [1, 1, 0, 0] = .ok [1 + 1, 0 / (1 + 1), 0] := by
    simp only [convertFrom]
    rw [if_neg (by norm_num)]
  have hc' : convertFrom [oddArgs.rsh.getD 0, oddArgs.rp.getD 0, oddArgs.L.getD 0, 0] =
      .ok [1 + 1, 0 / (1 + 1), 0] := hc
  unfold squarewaveresponse
  simp only [hp, hc']
  unfold convolve
  rw [if_neg]
  · exact ⟨_, rfl⟩
  · push Not
    intro k
    rw [threePoleY_one]
    unfold recipZ
    rw [if_neg (by norm_num [onePoleZ])]
    exact ⟨_, rfl⟩

/-- Data of a 2 Ω resistor, delayed by an eighth of a second. -/
noncomputable def ohmData (f : ℕ → ℝ) (k : ℕ) : ℂ :=
  1 / 2 * Complex.exp (-2 * Complex.I * Real.pi * f k * (1 / 8 : ℝ))

/-- A drawing of these data with equal deviations of both parts. -/
noncomputable def ohmView (f1 f2 : Option PlotFit) : View :=
  viewOf 8 8 1 (1 / 2) 0 (ohmData (freqAt 8 8)) (fun _ => (1 / 100 : ℝ) * (1 + Complex.I)) f1 f2

theorem ohm_freq (f1 f2 : Option PlotFit) : (ohmView f1 f2).freq 1 = 1 := by
  change freqAt 8 8 1 = 1
  change fftfreq (n := 8) 8 ((1 : ℕ) : ZMod 8) = 1
  rw [fftfreq, show freqIdx ((1 : ℕ) : ZMod 8) = 1 by decide]
  norm_num

theorem ohm_bin (f1 f2 : Option PlotFit) : 1 ∈ (ohmView f1 f2).plotBins := by
  rw [mem_plotBins, ohm_freq]
  refine ⟨⟨by change 1 < 8; norm_num, one_pos⟩, ?_⟩
  change good (ohmData (freqAt 8 8) 1) ((1 / 100 : ℝ) * (1 + Complex.I))
  have hI : (1 + Complex.I : ℂ) ≠ 0 := by
    intro h
    have := congrArg Complex.re h
    simp at this
  have hs : (((1 / 100 : ℝ) : ℂ) * (1 + Complex.I)) ≠ 0 := mul_ne_zero (by norm_num) hI
  unfold good
  rw [if_neg hs, norm_div, ohmData, norm_mul, norm_mul]
  have h1 : ‖Complex.exp (-2 * Complex.I * Real.pi * freqAt 8 8 1 * (1 / 8 : ℝ))‖ = 1 := by
    have : (-2 * Complex.I * Real.pi * freqAt 8 8 1 * (1 / 8 : ℝ) : ℂ) =
        ((-2 * Real.pi * freqAt 8 8 1 * (1 / 8) : ℝ) : ℂ) * Complex.I := by
      push_cast
      ring
    rw [this, Complex.norm_exp_ofReal_mul_I]
  have h2 : ‖(1 + Complex.I : ℂ)‖ ≤ 2 := by
    calc ‖(1 + Complex.I : ℂ)‖ ≤ ‖(1 : ℂ)‖ + ‖Complex.I‖ := norm_add_le _ _
      _ = 2 := by rw [norm_one, Complex.norm_I]; norm_num
  have h3 : 0 < ‖(1 + Complex.I : ℂ)‖ := norm_pos_iff.2 hI
  rw [h1, Complex.norm_real, lt_div_iff₀ (mul_pos (by norm_num) h3)]
  norm_num
  linarith

theorem ohm_fits (f1 f2 : Option PlotFit) (c : ℝ) (k : ℕ) :
    FitsBin (ohmView f1 f2) ⟨c, 1 / 8, oddArgs⟩ k := ⟨1 / 2, ohm_admittance _, rfl⟩

end Verif.Didv
