import Verif.DidvTwinSpec
import Verif.DidvLimitLemmas
import Verif.DidvPriorsProps
import Verif.DidvProps
import Verif.SimOFLemmas

/-! Helper lemmas for C154. -/

namespace Verif.Device
open Verif Verif.Dft Verif.Didv

section
variable {n : ℕ} [NeZero n]

theorem half_of_drive {o : Obj} {k : ZMod n} (h : drive o k ≠ 0) : k.val ≠ n / 2 := by
  intro e
  unfold drive at h
  rw [if_pos e] at h
  exact h rfl

theorem drive_opposite {o : Obj} {k : ZMod n} (h : drive o k ≠ 0) (h' : drive o (-k) ≠ 0) :
    drive o (-k) = starRingEnd ℂ (drive o k) := by
  have h1 := half_of_drive h
  have h2 := half_of_drive h'
  unfold drive
  rw [if_neg h1, if_neg h2]
  exact sqWave_neg _ _ _ _ _ k (by omega)

theorem Paired.neg {o : Obj} {k : ZMod n} (h : Paired o k) : Paired o (-k) := by
  obtain ⟨h1, h2, h3⟩ := h
  refine ⟨h2, by rwa [neg_neg], fun t ht => ?_⟩
  rw [fftR_neg, drive_opposite h1 h2, RCLike.norm_conj, RCLike.norm_conj]
  exact h3 t ht

theorem cmean_conj {α : Type*} (l : List α) (f : α → ℂ) :
    cmean (l.map fun t => starRingEnd ℂ (f t)) = starRingEnd ℂ (cmean (l.map f)) := by
  unfold cmean
  rw [map_div₀, map_list_sum, List.map_map, List.length_map, List.length_map]
  simp [Function.comp_def]

theorem lstd_neg {α : Type*} (l : List α) (f : α → ℝ) : lstd (l.map fun t => -f t) = lstd (l.map f) := by
  have hm : lmean (l.map fun t => -f t) = -lmean (l.map f) := by
    unfold lmean
    rw [List.length_map, List.length_map, ← neg_div]
    congr 1
    induction l with
    | nil => simp
    | cons a l ih => simp only [List.map_cons, List.sum_cons, ih]; ring
  unfold lstd
  rw [hm]
  simp only [List.map_map]
  congr 2
  refine List.map_congr_left fun t _ => ?_
  simp only [Function.comp]
  ring

theorem stdcomplex_conj {α : Type*} (l : List α) (f : α → ℂ) :
    stdcomplex (l.map fun t => starRingEnd ℂ (f t)) = stdcomplex (l.map f) := by
  unfold stdcomplex
  simp only [List.map_map, Function.comp_def, Complex.conj_re, Complex.conj_im]
  rw [lstd_neg]

theorem flag_neg {o : Obj} {k : ZMod n} (h : drive o k ≠ 0) (h' : drive o (-k) ≠ 0) (t : ZMod n → ℝ) :
    (deconvolve (1 / o.fs) t o.rsh o.sgamp o.sgfreq o.duty (-k)).2 = (deconvolve (1 / o.fs) t o.rsh o.sgamp o.sgfreq o.duty k).2 := by
  unfold deconvolve
  change (if fftR t (-k) = 0 then ((Except.error Err.nan : Except Err ℂ), false) else if ‖drive o (-k) / fftR t (-k)‖ < 1 / 10 ^ 16 then _ else _).2 =
    (if fftR t k = 0 then ((Except.error Err.nan : Except Err ℂ), false) else if ‖drive o k / fftR t k‖ < 1 / 10 ^ 16 then _ else _).2
  rw [fftR_neg, drive_opposite h h', ← map_div₀, RCLike.norm_conj]
  simp only [map_eq_zero]
  split_ifs <;> rfl

theorem opposite {o : Obj} {q : Proc} (h : (processtraces o).1 = .ok ()) (hq : (processtraces o).2.proc = some q)
    (hn : q.nbins = n) {k : ZMod n} (hk : Paired o k) :
    q.didvmean (-k).val = starRingEnd ℂ (q.didvmean k.val) ∧ q.didvstd (-k).val = q.didvstd k.val := by
  obtain ⟨e, -, -⟩ := process_ok h
  rw [hq] at e
  cases e
  change nBins o.nraw o.fs o.sgfreq = n at hn
  obtain ⟨h1, h2, h3⟩ := hk
  have hv : ∀ t ∈ keptTraces o n, deconvVal n (1 / o.fs) t o.rsh o.sgamp o.sgfreq o.duty (-k).val =
      starRingEnd ℂ (deconvVal n (1 / o.fs) t o.rsh o.sgamp o.sgfreq o.duty k.val) := by
    intro t ht
    unfold keptTraces at ht
    obtain ⟨a1, a2⟩ := List.mem_filter.1 ht
    obtain ⟨t0, ht0, rfl⟩ := List.mem_map.1 a1
    have a3 : ∀ k < n, ∃ y, (deconvAt n (1 / o.fs) (fun i => t0 i / o.gain) o.rsh o.sgamp o.sgfreq o.duty k).1 = .ok y := by
      simpa using a2
    have a4 : fftR (fun j : ZMod n => t0 j.val / o.gain) k ≠ 0 := by
      intro h0
      obtain ⟨y, hy⟩ := a3 k.val (ZMod.val_lt k)
      rw [deconvAt_eq] at hy
      unfold deconvolve at hy
      simp only [if_pos h0] at hy
      cases hy
    have a5 : fftR (fun j : ZMod n => t0 j.val / o.gain) (-k) ≠ 0 := by
      rw [fftR_neg]; simpa using a4
    have b1 := deconv_driven (o := o) a4 (h3 t0 ht0)
    have b2 := deconv_driven (o := o) a5 ((Paired.neg ⟨h1, h2, h3⟩).2.2 t0 ht0)
    unfold deconvVal
    rw [deconvAt_eq, deconvAt_eq, b1, b2]
    simp only
    rw [fftR_neg, drive_opposite h1 h2, ← map_div₀]
  constructor
  · change cmean ((keptTraces o (nBins o.nraw o.fs o.sgfreq)).map fun t =>
      deconvVal (nBins o.nraw o.fs o.sgfreq) (1 / o.fs) t o.rsh o.sgamp o.sgfreq o.duty (-k).val) =
      starRingEnd ℂ (cmean ((keptTraces o (nBins o.nraw o.fs o.sgfreq)).map fun t =>
      deconvVal (nBins o.nraw o.fs o.sgfreq) (1 / o.fs) t o.rsh o.sgamp o.sgfreq o.duty k.val))
    rw [hn, ← cmean_conj]
    congr 1
    exact List.map_congr_left hv
  · set tm : ℕ → ℝ := fun i => lmean ((keptTraces o (nBins o.nraw o.fs o.sgfreq)).map fun t => t i) with htm
    change (if (deconvAt (nBins o.nraw o.fs o.sgfreq) (1 / o.fs) tm o.rsh o.sgamp o.sgfreq o.duty (-k).val).2 then (1 + Complex.I) * 10 ^ 20
      else stdcomplex ((keptTraces o (nBins o.nraw o.fs o.sgfreq)).map fun t =>
        deconvVal (nBins o.nraw o.fs o.sgfreq) (1 / o.fs) t o.rsh o.sgamp o.sgfreq o.duty (-k).val) /
          Real.sqrt (keptTraces o (nBins o.nraw o.fs o.sgfreq)).length) =
      (if (deconvAt (nBins o.nraw o.fs o.sgfreq) (1 / o.fs) tm o.rsh o.sgamp o.sgfreq o.duty k.val).2 then (1 + Complex.I) * 10 ^ 20
      else stdcomplex ((keptTraces o (nBins o.nraw o.fs o.sgfreq)).map fun t =>
        deconvVal (nBins o.nraw o.fs o.sgfreq) (1 / o.fs) t o.rsh o.sgamp o.sgfreq o.duty k.val) /
          Real.sqrt (keptTraces o (nBins o.nraw o.fs o.sgfreq)).length)
    clear_value tm
    rw [hn, deconvAt_eq, deconvAt_eq, flag_neg h1 h2, List.map_congr_left hv, stdcomplex_conj]

theorem scaledY_conj {f : ℝ} {params : List ℝ} {y : ℂ} (h : scaledY f params = .ok y) :
    scaledY (-f) params = .ok (starRingEnd ℂ y) := by
  unfold scaledY at h ⊢
  cases hc : complexadmittance f (sspArgs params) with
  | error e => rw [hc] at h; cases h
  | ok z =>
    rw [hc] at h
    have h2 : complexadmittance (-f) (sspArgs params) = .ok (starRingEnd ℂ z) := by
      unfold complexadmittance at hc ⊢
      cases hz : compleximpedance f (sspArgs params) with
      | error e => rw [hz] at hc; cases hc
      | ok w =>
        rw [hz] at hc
        rw [compleximpedance_conj hz]
        simp only [recipZ, map_eq_zero] at hc ⊢
        split_ifs at hc ⊢ with h0
        cases hc
        rw [map_div₀, map_one]
    rw [h2]
    simp only [Except.ok.injEq] at h ⊢
    rw [← h, map_mul, map_mul, Complex.conj_ofReal, ← Complex.exp_conj]
    congr 2
    simp [map_ofNat]

theorem below_neg {fs : ℝ} {c : Option ℝ} {k : ZMod n} : Below fs c (-k) ↔ Below fs c k := by
  have h : |fftfreq fs (-k)| = |fftfreq fs k| := sq_eq_sq_iff_abs_eq_abs _ _ |>.1 (Sim.fftfreq_neg_sq fs k)
  unfold Below
  rw [h]

omit [NeZero n] in
theorem deviation_neg {o : Obj} {q : Proc} {Y : ZMod n → ℂ} {k : ZMod n} (rsh : ℝ) (hr : o.rsh = rsh)
    (h1 : q.didvmean (-k).val = starRingEnd ℂ (q.didvmean k.val)) (h2 : q.didvstd (-k).val = q.didvstd k.val)
    (hY : Y (-k) = starRingEnd ℂ (Y k)) : deviation o q Y (-k) = deviation o q Y k := by
  unfold deviation
  rw [h1, h2, hY, hr]
  have h : starRingEnd ℂ (q.didvmean k.val) * rsh - starRingEnd ℂ (Y k) = starRingEnd ℂ (q.didvmean k.val * rsh - Y k) := by
    rw [map_sub, map_mul, Complex.conj_ofReal]
  rw [h, Complex.conj_re, Complex.conj_im, neg_div, neg_sq]

theorem filter_sum (P : ℕ → Bool) (g : ℕ → ℝ) (N : ℕ) :
    (((List.range N).filter P).map g).sum = ∑ i ∈ Finset.range N, if P i then g i else 0 := by
  induction N with
  | zero => simp
  | succ N ih =>
    rw [List.range_succ, List.filter_append, List.map_append, List.sum_append, ih, Finset.sum_range_succ]
    congr 1
    by_cases h : P N <;> simp [h]

open Classical in
theorem fit_sum (p : Proc) (fs : ℝ) (c : Option ℝ) (hn : p.nbins = n) (g : Pt → ℝ) :
    ((fitPts p fs c).map g).sum = ∑ k : ZMod n with Below fs c k, g ⟨fftfreq fs k, p.didvmean k.val, p.didvstd k.val⟩ := by
  obtain ⟨m, rfl⟩ : ∃ m, n = m + 1 := Nat.exists_eq_succ_of_ne_zero (NeZero.ne n)
  unfold fitPts
  rw [hn, List.map_map, filter_sum, Finset.sum_filter]
  have h2 := Fin.sum_univ_eq_sum_range (fun i : ℕ => if Below fs c (i : ZMod (m + 1)) then
    g ⟨fftfreq fs (i : ZMod (m + 1)), p.didvmean i, p.didvstd i⟩ else 0) (m + 1)
  refine Eq.trans ?_ (h2.symm.trans ?_)
  · refine Finset.sum_congr rfl fun i _ => ?_
    simp only [decide_eq_true_eq]
    by_cases hb : Below fs c (i : ZMod (m + 1))
    · rw [if_pos hb]; exact if_pos hb
    · rw [if_neg hb]; exact if_neg hb
  · change ∑ i : ZMod (m + 1), _ = _
    refine Finset.sum_congr rfl fun i _ => ?_
    have : ((i.val : ℕ) : ZMod (m + 1)) = i := ZMod.natCast_zmod_val i
    change (if Below fs c ((i.val : ℕ) : ZMod (m + 1)) then g ⟨fftfreq fs ((i.val : ℕ) : ZMod (m + 1)), p.didvmean i.val, p.didvstd i.val⟩ else 0) = _
    rw [this]

/-- The cost of the fit with priors. -/
theorem cost_twice {o : Obj} {q : Proc} (h : (processtraces o).1 = .ok ()) (hq : (processtraces o).2.proc = some q)
    (hn : q.nbins = n) {poles : ℤ} {priors : List ℝ} {inv : Cov} {c : Option ℝ} {params : List ℝ} {v : ℝ}
    (hv : nll poles (fitPtsP (processtraces o).2 q c) priors inv params = .ok v) :
    ∃ Y : ZMod n → ℂ, (∀ k, Below o.fs c k → scaledY (fftfreq o.fs k) params = .ok (Y k)) ∧
      (∀ k, Twin o c k → deviation o q Y (-k) = deviation o q Y k) ∧
      open Classical in v = logPosterior o q c priors inv params Y + (∑ k : ZMod n with Twin o c k, deviation o q Y k) / 2 := by
  classical
  obtain ⟨-, -, h3, -, -, h6, -⟩ := process_keeps o
  obtain ⟨-, -, -, Y, hY, hc, -⟩ := nll_chi2 hv
  have hpts : ∀ k : ZMod n, Below o.fs c k → scaledY (fftfreq o.fs k) params = .ok (Y (fftfreq o.fs k)) := by
    intro k hb
    have hmem : (⟨fftfreq o.fs k, q.didvmean k.val * (processtraces o).2.rsh, q.didvstd k.val * (processtraces o).2.rsh⟩ : Pt) ∈
        fitPtsP (processtraces o).2 q c := by
      obtain ⟨m, rfl⟩ : ∃ m, n = m + 1 := Nat.exists_eq_succ_of_ne_zero (NeZero.ne n)
      refine List.mem_map.2 ⟨⟨fftfreq o.fs k, q.didvmean k.val, q.didvstd k.val⟩, List.mem_map.2 ⟨k.val, ?_, ?_⟩, rfl⟩
      · rw [List.mem_filter, hn, List.mem_range, h3]
        refine ⟨ZMod.val_lt k, decide_eq_true fun v hvc => ?_⟩
        change |fftfreq o.fs ((k.val : ℕ) : ZMod (m + 1))| < v
        rw [ZMod.natCast_zmod_val]
        exact hb v hvc
      · rw [hn, h3]
        change (⟨fftfreq o.fs ((k.val : ℕ) : ZMod (m + 1)), _, _⟩ : Pt) = _
        rw [ZMod.natCast_zmod_val]
    have h9 := hY _ hmem
    simpa only using h9
  have hdev : ∀ k : ZMod n, Twin o c k →
      deviation o q (fun k : ZMod n => Y (fftfreq o.fs k)) (-k) = deviation o q (fun k : ZMod n => Y (fftfreq o.fs k)) k := by
    rintro k ⟨hp, hb, -⟩
    obtain ⟨e1, e2⟩ := opposite h hq hn hp
    refine deviation_neg _ rfl e1 e2 ?_
    have a1 := half_of_drive hp.1
    have a2 : fftfreq o.fs (-k) = -fftfreq o.fs k := by
      unfold fftfreq
      rw [freqIdx_neg k (by omega)]
      push_cast
      ring
    have a3 := scaledY_conj (hpts k hb)
    have a4 := hpts (-k) (below_neg.2 hb)
    rw [a2, a3] at a4
    rw [a2]
    exact (Except.ok.inj a4).symm
  refine ⟨fun k => Y (fftfreq o.fs k), hpts, hdev, ?_⟩
  · unfold logPosterior distancePriors
    have hsum : ((fitPtsP (processtraces o).2 q c).map fun p => p.chi2 (Y p.f)).sum =
        ∑ k : ZMod n with Below o.fs c k, deviation o q (fun k : ZMod n => Y (fftfreq o.fs k)) k := by
      unfold fitPtsP
      rw [List.map_map, fit_sum q _ c hn, h3, h6]
      refine Finset.sum_congr rfl fun k _ => ?_
      simp only [Function.comp, Pt.chi2, deviation, Complex.sub_re, Complex.sub_im]
    have hsplit : ∑ k : ZMod n with Below o.fs c k, deviation o q (fun k : ZMod n => Y (fftfreq o.fs k)) k =
        ∑ k : ZMod n with Below o.fs c k ∧ ¬Twin o c (-k), deviation o q (fun k : ZMod n => Y (fftfreq o.fs k)) k +
        ∑ k : ZMod n with Twin o c k, deviation o q (fun k : ZMod n => Y (fftfreq o.fs k)) k := by
      rw [← Finset.sum_filter_add_sum_filter_not _ (fun k => ¬Twin o c (-k)), Finset.filter_filter, Finset.filter_filter]
      congr 1
      refine Finset.sum_bij' (fun k _ => -k) (fun k _ => -k) ?_ ?_ (fun k _ => neg_neg k) (fun k _ => neg_neg k) ?_
      · intro k hk
        simp only [Finset.mem_filter, Finset.mem_univ, true_and, not_not] at hk ⊢
        exact hk.2
      · intro k hk
        simp only [Finset.mem_filter, Finset.mem_univ, true_and, not_not, neg_neg] at hk ⊢
        exact ⟨below_neg.2 hk.2.1, hk⟩
      · intro k hk
        simp only [Finset.mem_filter, Finset.mem_univ, true_and, not_not] at hk
        have := hdev _ hk.2
        rwa [neg_neg] at this
    rw [hc, hsum, hsplit]
    ring

end

end Verif.Device
