import Verif.DidvTwinLemmas
import Verif.NonLinIdentLemmas
import Verif.DevicePriorsLemmas

import Mathlib.Tactic.FinCases

/-! A measurement for the examples of C154: two traces of four samples. -/

namespace Verif.Device
open Verif Verif.Dft Verif.Didv

/-- An object without traces. -/
noncomputable def twinBase : Obj := ⟨[], 4, 4, 1, 1, 1, 1, 1, 0, 1 / 2, false, 0, none, none, none, none⟩

theorem twin_drive : drive twinBase (1 : ZMod 4) = 4 * Complex.I / Real.pi ∧ drive twinBase (3 : ZMod 4) = -(4 * Complex.I / Real.pi) ∧
    drive twinBase (0 : ZMod 4) = 0 ∧ drive twinBase (2 : ZMod 4) = 0 := by
  have hpi : (Real.pi : ℂ) ≠ 0 := Complex.ofReal_ne_zero.2 Real.pi_ne_zero
  have one : nearOne 1 := by unfold nearOne; norm_num
  refine ⟨?_, ?_, ?_, ?_⟩
  · unfold drive
    rw [if_neg (by decide)]
    have hh : fftfreq (1 / (1 / 4)) (1 : ZMod 4) / 1 = 1 := by
      unfold fftfreq
      rw [show freqIdx (1 : ZMod 4) = 1 by decide]
      norm_num
    change sqWave (1 / 4) 1 1 1 (1 / 2) (1 : ZMod 4) = _
    unfold sqWave
    simp only
    rw [if_pos trivial, hh, abs_one, if_pos one]
    push_cast
    field_simp
  · unfold drive
    rw [if_neg (by decide)]
    have hh : fftfreq (1 / (1 / 4)) (3 : ZMod 4) / 1 = -1 := by
      unfold fftfreq
      rw [show freqIdx (3 : ZMod 4) = -1 by decide]
      norm_num
    change sqWave (1 / 4) 1 1 1 (1 / 2) (3 : ZMod 4) = _
    unfold sqWave
    simp only
    rw [if_pos trivial, hh, abs_neg, abs_one, if_pos one]
    push_cast
    field_simp
  · unfold drive
    rw [if_neg (by decide)]
    have hh : fftfreq (1 / (1 / 4)) (0 : ZMod 4) / 1 = 0 := by
      unfold fftfreq
      rw [show freqIdx (0 : ZMod 4) = 0 by decide]
      norm_num
    change sqWave (1 / 4) 1 1 1 (1 / 2) (0 : ZMod 4) = _
    unfold sqWave
    simp only
    rw [if_pos trivial, hh, abs_zero, if_neg (by unfold nearOne; norm_num)]
  · unfold drive
    rw [if_pos (by decide)]

theorem std_rest {o : Obj} {n : ℕ} [NeZero n] {q : Proc} (h : (processtraces o).1 = .ok ())
    (hq : (processtraces o).2.proc = some q) (hn : q.nbins = n) {k : ZMod n} (hd : drive o k = 0)
    (ht : fftR (fun j : ZMod n => q.tmean j.val) k ≠ 0) : q.didvstd k.val = (1 + Complex.I) * 10 ^ 20 := by
  obtain ⟨e, -, -⟩ := process_ok h
  rw [hq] at e
  cases e
  change nBins o.nraw o.fs o.sgfreq = n at hn
  set tm : ℕ → ℝ := fun i => lmean ((keptTraces o (nBins o.nraw o.fs o.sgfreq)).map fun t => t i) with htm
  change fftR (fun j : ZMod n => tm j.val) k ≠ 0 at ht
  change (if (deconvAt (nBins o.nraw o.fs o.sgfreq) (1 / o.fs) tm o.rsh o.sgamp o.sgfreq o.duty k.val).2 then (1 + Complex.I) * 10 ^ 20
      else _) = _
  clear_value tm
  rw [hn, deconvAt_eq]
  refine if_pos ?_
  unfold deconvolve
  change (if fftR (fun j : ZMod n => tm j.val) k = 0 then ((Except.error Err.nan : Except Err ℂ), false) else
    if ‖drive o k / fftR (fun j : ZMod n => tm j.val) k‖ < 1 / 10 ^ 16 then _ else _).2 = true
  rw [if_neg ht, hd, zero_div, norm_zero, if_pos (by norm_num)]

/-- Two traces, the second twice the first. -/
theorem twin_measurement : ∃ (o : Obj) (q : Proc), (processtraces o).1 = .ok () ∧ (processtraces o).2.proc = some q ∧ q.nbins = 4 ∧
    o.fs = 4 ∧ o.rsh = 1 ∧ (∀ k : ZMod 4, Twin o none k ↔ k = 1) ∧
    q.didvmean 1 = 3 / 2 + 3 / 2 * Complex.I ∧ q.didvstd 1 = (1 + Complex.I) * (Real.sqrt (1 / 8) : ℝ) ∧
    q.didvmean 0 = 1 / (1 + Complex.I) ∧ q.didvmean 2 = 1 / (1 + Complex.I) ∧
    q.didvstd 0 = (1 + Complex.I) * 10 ^ 20 ∧ q.didvstd 2 = (1 + Complex.I) * 10 ^ 20 ∧ q.didvstd 3 = q.didvstd 1 := by
  obtain ⟨d1, d3, d0, d2⟩ := twin_drive
  have hpi : (Real.pi : ℂ) ≠ 0 := Complex.ofReal_ne_zero.2 Real.pi_ne_zero
  have all : ∀ P : ZMod 4 → Prop, P 0 → P 1 → P 2 → P 3 → ∀ k, P k := by
    intro P h0 h1 h2 h3 k
    fin_cases k
    exacts [h0, h1, h2, h3]
  have n0 : (-0 : ZMod 4) = 0 := by decide
  have n1 : (-1 : ZMod 4) = 3 := by decide
  have n2 : (-2 : ZMod 4) = 2 := by decide
  have n3 : (-3 : ZMod 4) = 1 := by decide
  have p01 : (0 : ZMod 4) ≠ 1 := by decide
  have p03 : (0 : ZMod 4) ≠ 3 := by decide
  have p21 : (2 : ZMod 4) ≠ 1 := by decide
  have p23 : (2 : ZMod 4) ≠ 3 := by decide
  have p31 : (3 : ZMod 4) ≠ 1 := by decide
  have c13 : starRingEnd ℂ (4 * Complex.I / Real.pi) = -(4 * Complex.I / Real.pi) := by
    simp [map_ofNat, neg_div]
  obtain ⟨tr, htr⟩ := NonLin.exists_real (n := 4) (fun k => if k = 1 then drive twinBase (1 : ZMod 4) * (1 + Complex.I) else
      if k = 3 then drive twinBase (3 : ZMod 4) * (1 - Complex.I) else 1) (by
    refine all _ ?_ ?_ ?_ ?_
    · rw [n0, if_neg p01, if_neg p03, map_one]
    · rw [n1, if_neg p31, if_pos rfl, if_pos rfl, d1, d3, map_mul, c13]
      simp [sub_eq_add_neg]
    · rw [n2, if_neg p21, if_neg p23, map_one]
    · rw [n3, if_pos rfl, if_neg p31, if_pos rfl, d1, d3, map_mul, map_neg, c13]
      simp)
  have t0 : fftR tr 0 = 1 := by rw [htr]; rw [if_neg (by decide), if_neg (by decide)]
  have t1 : fftR tr 1 = drive twinBase (1 : ZMod 4) * (1 + Complex.I) := by rw [htr]; rw [if_pos rfl]
  have t2 : fftR tr 2 = 1 := by rw [htr]; rw [if_neg (by decide), if_neg (by decide)]
  have t3 : fftR tr 3 = drive twinBase (3 : ZMod 4) * (1 - Complex.I) := by rw [htr]; rw [if_neg (by decide), if_pos rfl]
  set w : ℕ → ZMod 4 → ℝ := fun i j => if i = 0 then 0 else tr j with hw
  set t : ℕ → ℕ → ℝ := fun i j => tr (j : ZMod 4) + w i (j : ZMod 4) with ht
  have hsum : ∀ i, (fun j => tr j + w i j) = fun j => (if i = 0 then 1 else 2) * tr j := by
    intro i
    funext j
    simp only [hw]
    split_ifs <;> ring
  have i1 : (1 + Complex.I : ℂ) ≠ 0 := fun h => by simpa using congrArg Complex.re h
  have i3 : (1 - Complex.I : ℂ) ≠ 0 := fun h => by simpa using congrArg Complex.re h
  have e1 : drive twinBase (1 : ZMod 4) ≠ 0 := by rw [d1]; simp [hpi]
  have e3 : drive twinBase (3 : ZMod 4) ≠ 0 := by rw [d3]; simp [hpi]
  have hne : ∀ k, fftR tr k ≠ 0 := by
    refine all _ ?_ ?_ ?_ ?_
    · rw [t0]; exact one_ne_zero
    · rw [t1]; exact mul_ne_zero e1 i1
    · rw [t2]; exact one_ne_zero
    · rw [t3]; exact mul_ne_zero e3 i3
  have hbd : ∀ k, drive twinBase k ≠ 0 → ‖fftR tr k‖ ≤ 2 * ‖drive twinBase k‖ := by
    refine all _ (fun h => absurd d0 h) (fun _ => ?_) (fun h => absurd d2 h) (fun _ => ?_)
    · rw [t1, norm_mul, mul_comm]
      gcongr
      refine (norm_add_le _ _).trans ?_
      norm_num
    · rw [t3, norm_mul, mul_comm]
      gcongr
      refine (norm_sub_le _ _).trans ?_
      norm_num
  have hfft : ∀ i k, fftR (fun j => tr j + w i j) k = (if i = 0 then 1 else 2) * fftR tr k := by
    intro i k
    rw [hsum, fftR_apply, fftR_apply, Finset.mul_sum]
    refine Finset.sum_congr rfl fun j _ => ?_
    split_ifs <;> push_cast <;> ring
  have hsmall : ∀ i k, drive twinBase k ≠ 0 → ‖fftR (fun j => tr j + w i j) k‖ ≤ 10 ^ 16 * ‖drive twinBase k‖ := by
    intro i k hk
    rw [hfft, norm_mul]
    have h1 : ‖(if i = 0 then 1 else 2 : ℂ)‖ ≤ 2 := by split_ifs <;> norm_num
    have := hbd k hk
    have h0 := norm_nonneg (drive twinBase k)
    calc _ ≤ 2 * (2 * ‖drive twinBase k‖) := by gcongr
      _ ≤ _ := by nlinarith
  have w0 : ∀ k, fftR (w 0) k = 0 := by
    intro k
    rw [fftR_apply]
    simp [hw]
  have w1 : ∀ k, fftR (w 1) k = fftR tr k := by
    intro k
    congr 1
  obtain ⟨h1, q, h2, h3, h4, h5, h6⟩ := processed_first (o := twinBase) (tr := tr) (W := fun k => if k = 1 then 1 + Complex.I else 1 - Complex.I)
    (t := t) (w := w) (m := 2) (by
      change nBins 4 4 1 = 4
      have := nbins_eq (p := 4) (sg := 1) (n := 4) (by norm_num) (by norm_num)
      norm_num at this
      simpa using this) (by norm_num) (by
      refine all _ (fun h => absurd d0 h) (fun _ => ?_) (fun h => absurd d2 h) (fun _ => ?_)
      · rw [t1, if_pos rfl]
      · rw [t3, if_neg (by decide)])
    (by
      intro i j
      simp only [ht, twinBase, div_one, ZMod.natCast_zmod_val]) (by
      intro i k
      rw [hfft]
      refine mul_ne_zero ?_ (hne k)
      split_ifs <;> norm_num) hsmall (by norm_num)
  have hdr : ∀ k : ZMod 4, drive (first twinBase t 2) k = drive twinBase k := fun k => rfl
  have hval : ∀ m e : ℝ, IsStdErr [1, 2] m e → m = 3 / 2 ∧ e = Real.sqrt (1 / 8) := by
    rintro m e ⟨a1, a2, a3⟩
    norm_num at a2 a3
    have a4 : m = 3 / 2 := by linarith
    refine ⟨a4, ?_⟩
    rw [eq_comm, Real.sqrt_eq_iff_mul_self_eq (by norm_num) a1]
    rw [a4] at a3
    nlinarith
  obtain ⟨b1, b2⟩ := h5 1 e1
  have l1 : ((List.range 2).map fun i => ((fun k : ZMod 4 => if k = 1 then 1 + Complex.I else 1 - Complex.I) 1).re +
      (fftR (w i) 1 * (drive twinBase (1 : ZMod 4))⁻¹).re) = [1, 2] := by
    have : fftR tr 1 * (drive twinBase (1 : ZMod 4))⁻¹ = 1 + Complex.I := by rw [t1]; field_simp
    simp only [List.range_succ, List.range_zero, List.nil_append, List.map_append, List.map_cons, List.map_nil, w0, w1, this]
    norm_num
  have l2 : ((List.range 2).map fun i => ((fun k : ZMod 4 => if k = 1 then 1 + Complex.I else 1 - Complex.I) 1).im +
      (fftR (w i) 1 * (drive twinBase (1 : ZMod 4))⁻¹).im) = [1, 2] := by
    have : fftR tr 1 * (drive twinBase (1 : ZMod 4))⁻¹ = 1 + Complex.I := by rw [t1]; field_simp
    simp only [List.range_succ, List.range_zero, List.nil_append, List.map_append, List.map_cons, List.map_nil, w0, w1, this]
    norm_num
  rw [l1] at b1
  rw [l2] at b2
  obtain ⟨m1, s1⟩ := hval _ _ b1
  obtain ⟨m2, s2⟩ := hval _ _ b2
  change (q.didvmean 1).re = _ at m1
  change (q.didvstd 1).re = _ at s1
  change (q.didvmean 1).im = _ at m2
  change (q.didvstd 1).im = _ at s2
  have hmean : ∀ k, fftR (fun j : ZMod 4 => q.tmean j.val) k ≠ 0 := by
    intro k
    have : (fun j : ZMod 4 => q.tmean j.val) = fun j => 3 / 2 * tr j := by
      funext j
      rw [h4, Finset.sum_range_succ, Finset.sum_range_one]
      simp only [hw]
      norm_num
      ring
    have h9 : fftR (fun j => 3 / 2 * tr j) k = 3 / 2 * fftR tr k := by
      rw [fftR_apply, fftR_apply, Finset.mul_sum]
      refine Finset.sum_congr rfl fun j _ => ?_
      push_cast
      ring
    rw [this, h9]
    exact mul_ne_zero (by norm_num) (hne k)
  have htwin : ∀ k : ZMod 4, Twin (first twinBase t 2) none k ↔ k = 1 := ?_
  refine ⟨first twinBase t 2, q, h1, h2, h3, rfl, rfl, htwin, ?_, ?_, (h6 0 d0).1, (h6 2 d2).1,
    std_rest h1 h2 h3 (k := 0) d0 (hmean 0), std_rest h1 h2 h3 (k := 2) d2 (hmean 2), ?_⟩
  · refine Complex.ext ?_ ?_
    · rw [m1]; simp
    · rw [m2]; simp
  · refine Complex.ext ?_ ?_
    · rw [s1]; generalize Real.sqrt (1 / 8) = z; simp
    · rw [s2]; generalize Real.sqrt (1 / 8) = z; simp
  · have := (opposite h1 h2 h3 ((htwin 1).2 rfl).1).2
    rw [n1] at this
    exact this
  · -- the only pair
    refine all _ ?_ ?_ ?_ ?_
    · exact ⟨fun h => absurd (hdr 0 ▸ d0) h.1.1, fun h => absurd h p01⟩
    · refine ⟨fun _ => rfl, fun _ => ⟨⟨e1, by rw [n1]; exact e3, ?_⟩, fun v hv => (by simp at hv), by decide⟩⟩
      intro s hs
      obtain ⟨i, -, rfl⟩ := List.mem_map.1 hs
      have : (fun j : ZMod 4 => t i j.val / (first twinBase t 2).gain) = fun j => tr j + w i j := by
        funext j
        simp only [ht, first, twinBase, div_one, ZMod.natCast_zmod_val]
      rw [this]
      exact hsmall i 1 e1
    · exact ⟨fun h => absurd (hdr 2 ▸ d2) h.1.1, fun h => absurd h p21⟩
    · exact ⟨fun h => absurd h.2.2 (by decide), fun h => absurd h p31⟩

theorem twin_bars {q : Proc} (s0 : q.didvstd 0 = (1 + Complex.I) * 10 ^ 20) (s1 : q.didvstd 1 = (1 + Complex.I) * (Real.sqrt (1 / 8) : ℝ))
    (s2 : q.didvstd 2 = (1 + Complex.I) * 10 ^ 20) (s3 : q.didvstd 3 = q.didvstd 1) :
    ∀ k < 4, (q.didvstd k).re ≠ 0 ∧ (q.didvstd k).im ≠ 0 := by
  have h8 : Real.sqrt (1 / 8) ≠ 0 := (Real.sqrt_pos.2 (by norm_num)).ne'
  generalize Real.sqrt (1 / 8) = z at *
  have hz : ((10 : ℂ) ^ 20) = ((10 ^ 20 : ℝ) : ℂ) := by push_cast; ring
  rw [hz] at s0 s2
  have hp : ((10 : ℝ) ^ 20) ≠ 0 := by positivity
  generalize (10 : ℝ) ^ 20 = u at *
  intro k hk
  interval_cases k
  · rw [s0]; simpa using hp
  · rw [s1]; simpa using h8
  · rw [s2]; simpa using hp
  · rw [s3, s1]; simpa using h8

/-- A resistor. -/
theorem twin_model (f rp : ℝ) (h : 0 ≤ rp) : scaledY f [1, rp, 0, 0] = .ok ((1 / (1 + rp) : ℝ) : ℂ) := by
  have hne : (1 : ℝ) + rp ≠ 0 := by positivity
  have hd : docOne f 1 rp 0 = ((1 + rp : ℝ) : ℂ) := by unfold docOne; push_cast; ring
  have := (scaledY_doc f 1 rp 0 0 0 0 0 0 0 0 (by norm_num) (by simpa using hne) hne).1 (by rw [hd]; exact_mod_cast hne)
  rw [this, hd]
  simp

theorem twin_defined {o : Obj} {q : Proc} (h3 : q.nbins = 4) (hr : (processtraces o).2.rsh = 1)
    (hw : ∀ k < 4, (q.didvstd k).re ≠ 0 ∧ (q.didvstd k).im ≠ 0) (rp : ℝ) (hrp : 0 ≤ rp) (priors : List ℝ) (hp : priors.length = 4) (s : Fin 4 → ℝ) :
    ∃ v, nll 1 (fitPtsP (processtraces o).2 q none) priors ⟨4, pinv (independent s).m⟩ [1, rp, 0, 0] = .ok v := by
  have hpts : ∀ p ∈ fitPtsP (processtraces o).2 q none, p.err.re ≠ 0 ∧ p.err.im ≠ 0 := by
    intro p hp
    obtain ⟨f, k, ⟨hk, -, -⟩, rfl⟩ := mem_fitPtsP.1 hp
    rw [hr]
    simpa using hw k (h3 ▸ hk)
  exact nll_defined (C := independent s) (by simp [independent]) (fun v => by
      refine Finset.sum_nonneg fun i _ => ?_
      have e : (independent s).m.mulVec v i = s i ^ 2 * v i := Matrix.mulVec_diagonal _ _ _
      rw [e]
      nlinarith [sq_nonneg (s i * v i)]) (Or.inl ⟨rfl, rfl⟩) hp rfl hpts
    fun p _ => ⟨_, twin_model p.f rp hrp⟩

open Classical in
/-- The bins which count once. -/
theorem twin_bins {o : Obj} (ht : ∀ k : ZMod 4, Twin o none k ↔ k = 1) (g : ZMod 4 → ℝ) :
    (∑ k : ZMod 4 with Below o.fs none k ∧ ¬Twin o none (-k), g k) = g 0 + g 1 + g 2 ∧
      (∑ k : ZMod 4 with Twin o none k, g k) = g 1 := by
  have hb : ∀ k : ZMod 4, Below o.fs none k := fun k v hv => by simp at hv
  constructor
  · have : (Finset.univ.filter fun k : ZMod 4 => Below o.fs none k ∧ ¬Twin o none (-k)) = {0, 1, 2} := by
      ext k
      simp only [Finset.mem_filter, Finset.mem_univ, true_and, hb, ht, Finset.mem_insert, Finset.mem_singleton]
      revert k
      decide
    rw [this, Finset.sum_insert (by decide), Finset.sum_insert (by decide), Finset.sum_singleton, add_assoc]
  · have : (Finset.univ.filter fun k : ZMod 4 => Twin o none k) = {1} := by
      ext k
      simp [ht]
    rw [this, Finset.sum_singleton]

/-- The distance of the pair to a resistor. -/
theorem twin_deviation {o : Obj} {q : Proc} (hr : o.rsh = 1) (hm : q.didvmean 1 = 3 / 2 + 3 / 2 * Complex.I)
    (hs : q.didvstd 1 = (1 + Complex.I) * (Real.sqrt (1 / 8) : ℝ)) (y : ℝ) :
    deviation o q (fun _ => (y : ℂ)) (1 : ZMod 4) = 8 * ((3 / 2 - y) ^ 2 + 9 / 4) := by
  have h8 : Real.sqrt (1 / 8) ^ 2 = 1 / 8 := Real.sq_sqrt (by norm_num)
  unfold deviation
  change ((q.didvmean 1 * o.rsh - y).re / (q.didvstd 1 * o.rsh).re) ^ 2 + ((q.didvmean 1 * o.rsh - y).im / (q.didvstd 1 * o.rsh).im) ^ 2 = _
  rw [hr, hm, hs]
  generalize Real.sqrt (1 / 8) = z at *
  have a1 : ((3 / 2 + 3 / 2 * Complex.I) * ((1 : ℝ) : ℂ) - y).re = 3 / 2 - y := by simp
  have a2 : ((3 / 2 + 3 / 2 * Complex.I) * ((1 : ℝ) : ℂ) - y).im = 3 / 2 := by simp
  have a3 : ((1 + Complex.I) * (z : ℂ) * ((1 : ℝ) : ℂ)).re = z := by simp
  have a4 : ((1 + Complex.I) * (z : ℂ) * ((1 : ℝ) : ℂ)).im = z := by simp
  rw [a1, a2, a3, a4, div_pow, div_pow, h8]
  ring

/-- The bins without drive do not matter. -/
theorem rest_deviation {o : Obj} {q : Proc} (hr : o.rsh = 1) {k : ZMod 4} (hm : q.didvmean k.val = 1 / (1 + Complex.I))
    (hs : q.didvstd k.val = (1 + Complex.I) * 10 ^ 20) {y : ℝ} (h0 : 0 ≤ y) (h1 : y ≤ 1) :
    0 ≤ deviation o q (fun _ => (y : ℂ)) k ∧ deviation o q (fun _ => (y : ℂ)) k ≤ 1 := by
  unfold deviation
  rw [hr, hm, hs]
  have hi : (1 / (1 + Complex.I) : ℂ) = 1 / 2 - 1 / 2 * Complex.I := by
    have i1 : (1 + Complex.I : ℂ) ≠ 0 := fun h => by simpa using congrArg Complex.re h
    rw [div_eq_iff i1]
    linear_combination (1 / 2 : ℂ) * Complex.I_sq
  have hz : ((10 : ℂ) ^ 20) = ((10 ^ 20 : ℝ) : ℂ) := by push_cast; ring
  rw [hi, hz]
  have hz0 : (1 : ℝ) ≤ 10 ^ 20 := by norm_num
  generalize (10 : ℝ) ^ 20 = z at *
  have a1 : ((1 / 2 - 1 / 2 * Complex.I) * ((1 : ℝ) : ℂ) - y).re = 1 / 2 - y := by simp
  have a2 : ((1 / 2 - 1 / 2 * Complex.I) * ((1 : ℝ) : ℂ) - y).im = -1 / 2 := by simp; norm_num
  have a3 : ((1 + Complex.I) * (z : ℂ) * ((1 : ℝ) : ℂ)).re = z := by simp
  have a4 : ((1 + Complex.I) * (z : ℂ) * ((1 : ℝ) : ℂ)).im = z := by simp
  rw [a1, a2, a3, a4, div_pow, div_pow]
  refine ⟨by positivity, ?_⟩
  have hz2 : (1 : ℝ) ≤ z ^ 2 := by nlinarith
  rw [← add_div, div_le_one (by positivity)]
  nlinarith

theorem twin_prior (s : ℝ) (hs : s ≠ 0) (rp : ℝ) :
    distancePriors [1, 1, 0, 0] ⟨4, pinv (independent fun _ : Fin 4 => s).m⟩ [1, rp, 0, 0] = ((1 - rp) / s) ^ 2 := by
  have h := penalty_independent [1, 1, 0, 0] [1, rp, 0, 0] (fun _ : Fin 4 => s)
  have e : distancePriors [1, 1, 0, 0] ⟨4, pinv (independent fun _ : Fin 4 => s).m⟩ [1, rp, 0, 0] =
      priorForm [1, 1, 0, 0] ⟨4, pinv (Matrix.diagonal fun _ : Fin 4 => s ^ 2)⟩ [1, rp, 0, 0] := by
    unfold priorForm distancePriors
    simp only [Matrix.vecMul, dotProduct, Finset.sum_mul]
    exact Finset.sum_comm
  rw [e, h]
  simp [Fin.sum_univ_succ, hs]

end Verif.Device
