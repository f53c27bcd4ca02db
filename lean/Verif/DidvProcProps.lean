import Verif.DidvProcLemmas

/-! Property C114: the averages and errors that `processtraces` stores. -/

namespace Verif.Didv
open Verif

/-- **C114.**  After `processtraces` the averaged trace is the mean of the usable traces divided by the gain, on
a time axis whose origin is the time offset; the offset is the mean of the averaged trace and its error the
standard error of the means of the traces. -/
theorem processed_averages {o : Obj} {q : Proc} (h : (processtraces o).1 = .ok ())
    (hq : (processtraces o).2.proc = some q) :
    used o q.nbins ≠ [] ∧
    (∀ i, ((used o q.nbins).length : ℝ) * q.tmean i = ((used o q.nbins).map fun t => t i / o.gain).sum) ∧
    (∀ i, q.time i = i / o.fs - (processtraces o).2.dt0) ∧
    (q.nbins : ℝ) * q.offset = ((List.range q.nbins).map q.tmean).sum ∧
    IsStdErr ((used o q.nbins).map fun t => ((List.range q.nbins).map fun i => t i / o.gain).sum / q.nbins)
      q.offset q.offsetErr := by
  obtain ⟨e, hne, h2⟩ := process_ok h
  have hd : (processtraces o).2.dt0 = (shiftDt0 o).dt0 := by
    rcases process_cases o with ⟨_, e⟩ | ⟨_, _, e⟩ | ⟨_, _, _, e⟩ | ⟨_, _, _, e⟩ <;> rw [e] at h ⊢
    all_goals cases h
  rw [hq, kept_used] at e
  rw [kept_used] at hne
  cases e
  rw [hd]
  simp only [procOf] at *
  set nb := nBins o.nraw o.fs o.sgfreq
  have hu : used o nb ≠ [] := by simpa using hne
  have hul : ((used o nb).length : ℝ) ≠ 0 := by simpa using hu
  have hnb : (nb : ℝ) ≠ 0 := by
    have : nb ≠ 0 := by omega
    exact_mod_cast this
  have htm : ∀ i, ((used o nb).length : ℝ) * lmean (((used o nb).map fun t i => t i / o.gain).map fun t => t i) =
      ((used o nb).map fun t => t i / o.gain).sum := by
    intro i
    have := lmean_len (l := ((used o nb).map fun t i => t i / o.gain).map fun t => t i) (by simpa using hu)
    simpa [List.map_map, Function.comp_def] using this
  refine ⟨hu, htm, fun i => ?_, ?_, ?_⟩
  · simp [shiftDt0, div_eq_mul_inv]
  · have hsw := sum_swap ((used o nb).map fun t i => t i / o.gain) nb
    have h3 : ((List.range nb).map fun i => (((used o nb).map fun t i => t i / o.gain).map fun t => t i).sum).sum =
        ((used o nb).length : ℝ) * ((List.range nb).map fun i =>
          lmean (((used o nb).map fun t i => t i / o.gain).map fun t => t i)).sum := by
      rw [← List.sum_map_mul_left]
      congr 1
      refine List.map_congr_left fun i _ => ?_
      rw [htm i, List.map_map]
      rfl
    have h4 : (((used o nb).map fun t i => t i / o.gain).map fun t => ((List.range nb).map t).sum).sum =
        (nb : ℝ) * ((used o nb).length * lmean
          (((used o nb).map fun t i => t i / o.gain).map fun t => lmean ((List.range nb).map t))) := by
      have := lmean_len (l := ((used o nb).map fun t i => t i / o.gain).map fun t => lmean ((List.range nb).map t))
        (by simpa using hu)
      rw [List.length_map, List.length_map] at this
      rw [this, ← List.sum_map_mul_left]
      congr 1
      refine List.map_congr_left fun t _ => ?_
      rw [← lmean_len (by simpa using (by omega : nb ≠ 0)), List.length_map, List.length_range]
    rw [h4, h3] at hsw
    have h5 : ((used o nb).length : ℝ) * ((nb : ℝ) * lmean
          (((used o nb).map fun t i => t i / o.gain).map fun t => lmean ((List.range nb).map t))) =
        ((used o nb).length : ℝ) * ((List.range nb).map fun i =>
          lmean (((used o nb).map fun t i => t i / o.gain).map fun t => t i)).sum := by
      rw [← hsw]; ring
    exact mul_left_cancel₀ hul h5
  · have := lstd_stdErr (l := ((used o nb).map fun t i => t i / o.gain).map fun t => lmean ((List.range nb).map t))
      (by simpa using hu)
    have e1 : (((used o nb).map fun t i => t i / o.gain).map fun t => lmean ((List.range nb).map t)) =
        (used o nb).map fun t => ((List.range nb).map fun i => t i / o.gain).sum / nb := by
      rw [List.map_map]
      refine List.map_congr_left fun t _ => ?_
      simp [lmean]
    rw [e1] at this ⊢
    simpa using this

/-- Two traces are averaged, with and without the added phase. -/
example (b : Bool) : ∃ q, (processtraces (exObj ([1, 2].map spike) b 0)).1 = .ok () ∧
    (processtraces (exObj ([1, 2].map spike) b 0)).2.proc = some q ∧ q.nbins = 6 ∧
    (used (exObj ([1, 2].map spike) b 0) 6).length = 2 ∧ q.tmean 0 = 3 / 2 := by
  have hp := exObj_proc [1, 2] (by simp) (by simp) b 0
  refine ⟨_, exObj_ok [1, 2] (by simp) (by simp) b 0, hp, rfl, ?_, ?_⟩
  · have := congrArg List.length (kept_used (exObj ([1, 2].map spike) b 0) 6)
    rw [exObj_kept [1, 2] (by simp)] at this
    simpa using this.symm
  · norm_num [procOf, lmean, spike]

/-- **C114.**  The averaged admittance is the mean over the usable traces of the admittance of each, and at bins
where the averaged trace is not flagged its errors are the standard errors of the real and the imaginary part;
at flagged bins both are `1e20`, so that the fits do not see them. -/
theorem processed_didv {o : Obj} {q : Proc} (h : (processtraces o).1 = .ok ())
    (hq : (processtraces o).2.proc = some q) (k : ℕ) :
    if (deconvAt q.nbins (1 / o.fs) q.tmean o.rsh o.sgamp o.sgfreq o.duty k).2 = true then
      (q.didvstd k).re = 10 ^ 20 ∧ (q.didvstd k).im = 10 ^ 20 ∧
      ((used o q.nbins).length : ℂ) * q.didvmean k = ((used o q.nbins).map (traceDidv o q.nbins k)).sum
    else
      IsStdErr ((used o q.nbins).map fun t => (traceDidv o q.nbins k t).re) (q.didvmean k).re (q.didvstd k).re ∧
      IsStdErr ((used o q.nbins).map fun t => (traceDidv o q.nbins k t).im) (q.didvmean k).im (q.didvstd k).im := by
  obtain ⟨e, hne, h2⟩ := process_ok h
  rw [hq, kept_used] at e
  rw [kept_used] at hne
  cases e
  simp only [procOf] at *
  set nb := nBins o.nraw o.fs o.sgfreq
  have hu : used o nb ≠ [] := by simpa using hne
  have e2 : (((used o nb).map fun t i => t i / o.gain).map fun t =>
      deconvVal nb (1 / (shiftDt0 o).fs) t (shiftDt0 o).rsh (shiftDt0 o).sgamp (shiftDt0 o).sgfreq
        (shiftDt0 o).duty k) = (used o nb).map (traceDidv o nb k) := by
    rw [List.map_map]
    rfl
  rw [e2]
  dsimp +instances only [shiftDt0]
  split_ifs with hz
  · have hre : (((1 : ℂ) + Complex.I) * 10 ^ 20).re = 10 ^ 20 ∧ (((1 : ℂ) + Complex.I) * 10 ^ 20).im = 10 ^ 20 := by
      have : ((10 : ℂ) ^ 20) = ((10 ^ 20 : ℝ) : ℂ) := by push_cast; rfl
      rw [this, Complex.re_mul_ofReal, Complex.im_mul_ofReal]
      simp
    refine ⟨?_, ?_, ?_⟩
    · exact hre.1
    · exact hre.2
    have hul : ((used o nb).length : ℂ) ≠ 0 := by simpa using hu
    unfold cmean
    rw [List.length_map]
    field_simp
  · have hl : ((used o nb).map (traceDidv o nb k)) ≠ [] := by simpa using hu
    rw [Complex.div_ofReal_re, Complex.div_ofReal_im, cmean_re, cmean_im]
    have h1 := lstd_stdErr (l := ((used o nb).map (traceDidv o nb k)).map Complex.re) (by simpa using hu)
    have h3 := lstd_stdErr (l := ((used o nb).map (traceDidv o nb k)).map Complex.im) (by simpa using hu)
    simp only [List.length_map] at h1 h3
    simp only [List.length_map, stdcomplex]
    have e3 : ((used o nb).map fun t => (traceDidv o nb k t).re) =
        ((used o nb).map (traceDidv o nb k)).map Complex.re := by rw [List.map_map]; rfl
    have e4 : ((used o nb).map fun t => (traceDidv o nb k t).im) =
        ((used o nb).map (traceDidv o nb k)).map Complex.im := by rw [List.map_map]; rfl
    rw [e3, e4]
    exact ⟨h1, h3⟩

/-- A bin of each kind: the frequency of the drive, and the highest one. -/
example (b : Bool) : ∃ q, (processtraces (exObj ([1, 2].map spike) b 0)).1 = .ok () ∧
    (processtraces (exObj ([1, 2].map spike) b 0)).2.proc = some q ∧
    (deconvAt q.nbins (1 / 1) q.tmean 1 1 (1 / 3) (1 / 2) 2).2 = false ∧
    (deconvAt q.nbins (1 / 1) q.tmean 1 1 (1 / 3) (1 / 2) 3).2 = true := by
  have hp := exObj_proc [1, 2] (by simp) (by simp) b 0
  refine ⟨_, exObj_ok [1, 2] (by simp) (by simp) b 0, hp, ?_⟩
  have ht : (procOf (shiftDt0 (exObj ([1, 2].map spike) b 0)) 6 ([1, 2].map fun a i => spike a i / 1)).tmean =
      fun i => spike (3 / 2) i / 1 := by
    funext i
    by_cases hi : i = 0 <;> norm_num [procOf, lmean, spike, hi]
  rw [ht]
  refine ⟨spike_unflagged (a := 3 / 2) (by norm_num) (by norm_num [abs_of_pos]), ?_⟩
  change (deconvolve (n := 6) (1 / 1) (fun j => spike (3 / 2) j.val / 1) 1 1 (1 / 3) (1 / 2) 3).2 = true
  unfold deconvolve
  simp only
  rw [fft_spike, if_neg (Complex.ofReal_ne_zero.2 (by norm_num)), if_pos (show (3 : ZMod 6).val = 6 / 2 by decide), zero_div,
    norm_zero,
    if_pos (by norm_num)]

/-- **C114.**  Neither the order of the traces nor the units they are recorded in matter: traces and gain
multiplied by the same factor give the same averages, and so do the traces in any other order. -/
theorem processed_units (o : Obj) {c : ℝ} (hc : c ≠ 0) {l : List (ℕ → ℝ)} (hl : o.raw.Perm l) :
    (processtraces { o with raw := l.map fun t i => c * t i, gain := c * o.gain }).1 = (processtraces o).1 ∧
    ((processtraces o).1 = .ok () →
      (processtraces { o with raw := l.map fun t i => c * t i, gain := c * o.gain }).2.proc =
        (processtraces o).2.proc) := by
  set nb := nBins o.nraw o.fs o.sgfreq
  have e1 : keptTraces { o with raw := l.map fun t i => c * t i, gain := c * o.gain } nb =
      keptTraces { o with raw := l } nb := kept_scale { o with raw := l } nb hc
  have e2 := kept_perm (o := o) nb hl
  have h1 : (processtraces { o with raw := l.map fun t i => c * t i, gain := c * o.gain }).1 =
      (processtraces o).1 := by
    have h0 : o.raw = [] ↔ (l.map fun t i => c * t i) = [] := by
      rw [List.map_eq_nil_iff]
      exact ⟨fun h => List.nil_perm.1 (h ▸ hl), fun h => List.perm_nil.1 (h ▸ hl)⟩
    have h2 : keptTraces o nb = [] ↔
        keptTraces { o with raw := l.map fun t i => c * t i, gain := c * o.gain } nb = [] := by
      rw [e1]
      exact ⟨fun h => List.nil_perm.1 (h ▸ e2), fun h => List.perm_nil.1 (h ▸ e2)⟩
    unfold processtraces
    simp only [← h0, ← h2, nb]
    split_ifs <;> rfl
  refine ⟨h1, fun h => ?_⟩
  have a := (process_ok h).1
  have b := (process_ok (h1.trans h)).1
  rw [a, b]
  change some (procOf _ nb (keptTraces _ nb)) = some (procOf _ nb (keptTraces _ nb))
  rw [e1, procOf_perm _ nb e2]
  rfl

/-- Two traces in the other order and recorded with ten times the gain. -/
example : (exObj ([1, 2].map spike) false 0).raw.Perm ([2, 1].map spike) ∧
    (processtraces (exObj ([1, 2].map spike) false 0)).1 = .ok () :=
  ⟨List.Perm.map _ (List.Perm.swap _ _ _), exObj_ok [1, 2] (by simp) (by simp) false 0⟩

/-- **C114.**  The object holds the traces and rate it was given if the rate is a whole multiple of the
frequency of the drive, and otherwise what `resample_data` made of them; everything else is as given. -/
theorem create_attributes {rs : List (ℕ → ℝ) → ℕ → ℝ → ℝ → (List (ℕ → ℝ) × ℕ × ℝ)} {raw : List (ℕ → ℝ)}
    {nraw : ℕ} {fs sgfreq sgamp rsh gain r0 rp duty : ℝ} {add180 : Bool} {dt0 : ℝ} {auto : Bool} {o : Obj}
    (h : create rs raw nraw fs sgfreq sgamp rsh gain r0 rp duty add180 dt0 auto = .ok o) (hs : sgfreq ≠ 0) :
    o.sgfreq = sgfreq ∧ o.sgamp = sgamp ∧ o.rsh = rsh ∧ o.gain = gain ∧ o.r0 = r0 ∧ o.rp = rp ∧ o.duty = duty ∧
    o.add180 = add180 ∧ o.dt0 = dt0 ∧ o.proc = none ∧ o.res1 = none ∧ o.res2 = none ∧ o.res3 = none ∧
    (((∃ z : ℤ, fs = z * sgfreq) ∧ o.raw = raw ∧ o.nraw = nraw ∧ o.fs = fs) ∨
      ((¬ ∃ z : ℤ, fs = z * sgfreq) ∧ auto = true ∧ (o.raw, o.nraw, o.fs) = rs raw nraw fs sgfreq)) := by
  have key : (sgfreq = 0 ∨ fs - sgfreq * ⌊fs / sgfreq⌋ ≠ 0) ↔ ¬ ∃ z : ℤ, fs = z * sgfreq := by
    rw [or_iff_right hs, ne_eq, not_iff_not]
    constructor
    · intro h
      exact ⟨⌊fs / sgfreq⌋, by linarith⟩
    · rintro ⟨z, rfl⟩
      rw [mul_div_assoc, div_self hs, mul_one, Int.floor_intCast]
      ring
  unfold create at h
  simp only at h
  split_ifs at h with h1 h2
  · cases h
    refine ⟨rfl, rfl, rfl, rfl, rfl, rfl, rfl, rfl, rfl, rfl, rfl, rfl, rfl, Or.inr ⟨key.1 h2, ?_, rfl⟩⟩
    have := not_and.1 h1 h2
    simpa using this
  · cases h
    exact ⟨rfl, rfl, rfl, rfl, rfl, rfl, rfl, rfl, rfl, rfl, rfl, rfl, rfl,
      Or.inl ⟨not_not.1 fun h => h2 (key.2 h), rfl, rfl, rfl⟩⟩

/-- Both cases occur: a rate of three samples per period, and one of three and a half. -/
example (rs : List (ℕ → ℝ) → ℕ → ℝ → ℝ → (List (ℕ → ℝ) × ℕ × ℝ)) :
    (∃ o, create rs [spike 1] 7 1 (1 / 3) 1 1 1 1 1 (1 / 2) false 0 true = .ok o ∧ o.raw = [spike 1]) ∧
    (∃ o, create rs [spike 1] 7 1 (2 / 7) 1 1 1 1 1 (1 / 2) false 0 true = .ok o ∧
      o.raw = (rs [spike 1] 7 1 (2 / 7)).1) := by
  have f1 : ⌊(1 : ℝ) / (1 / 3)⌋ = 3 := by norm_num
  have f2 : ⌊(1 : ℝ) / (2 / 7)⌋ = 3 := by
    rw [Int.floor_eq_iff]; norm_num
  constructor
  · unfold create
    simp only [f1]
    norm_num
  · unfold create
    simp only [f2]
    norm_num

/-! ### C48: what the starting guess means -/

/-- In the flat region, which lies in the low half of the drive, the settled response of a detector of
zero-frequency admittance `y` is below the mean by `y` times half the amplitude.  Then the loop gain is taken to
be below one exactly if `y` is positive, and the starting point of the two-pole fit has the admittance `y` at zero
frequency (in the case of a positive `y`, if the estimated resistance `A` is not above `1 / y`). -/
theorem guess_lowfreq {o : Obj} {p : Proc} {A0 B0 C0 t1 t2 t3 dt y : ℝ} {sub1 : Bool}
    (h : startGuess o p 2 = .ok ((A0, B0, C0, t1, t2, t3, dt), sub1)) (hpos : 0 < o.sgamp * o.rsh)
    (hset : lmean p.flat = lmean p.trace - y * (o.sgamp * o.rsh / 2)) :
    y ≠ 0 ∧ (sub1 = true ↔ 0 < y) ∧ ∃ A B u1 u2,
      (chosen 2 A0 B0 C0 t1 t2 t3 dt sub1).1 = [A, B, u1, u2, dt] ∧
      (A * y ≤ 1 → twoPoleY 0 A B u1 u2 = .ok (y : ℂ)) ∧
      A * (lmax p.trace - lmean p.flat) = o.sgamp * o.rsh := by
  have hgen : ∀ {A B u1 u2 : ℝ}, y ≠ 0 → A + B = 1 / y → twoPoleY 0 A B u1 u2 = .ok (y : ℂ) := by
    intro A B u1 u2 hy hAB
    have e : twoPoleZ 0 A B u1 u2 = ((1 / y : ℝ) : ℂ) := by
      rw [← hAB]
      simp [twoPoleZ, jw]
    have : ((1 / y : ℝ) : ℂ) ≠ 0 := Complex.ofReal_ne_zero.2 (one_div_ne_zero hy)
    unfold twoPoleY recipZ
    rw [e, if_neg this]
    push_cast
    rw [one_div_one_div]
  unfold startGuess at h
  rw [if_neg (by norm_num), if_pos rfl] at h
  cases hg : guessParams p.trace p.flat o.sgamp o.rsh (1 / 10 ^ 7) with
  | error e => rw [hg] at h; cases h
  | ok g =>
    obtain ⟨a, b, c, d⟩ := g
    rw [hg] at h
    simp only [Except.ok.injEq, Prod.mk.injEq] at h
    obtain ⟨⟨rfl, rfl, rfl, rfl, rfl, rfl, rfl⟩, rfl⟩ := h
    have hd : lmean p.flat - lmean p.trace = -(y * (o.sgamp * o.rsh / 2)) := by rw [hset]; ring
    have hab : 2 * |lmean p.flat - lmean p.trace| / (o.sgamp * o.rsh) = |y| := by
      rw [hd, abs_neg, abs_mul, abs_of_pos (half_pos hpos)]
      generalize o.sgamp * o.rsh = m at hpos
      field_simp
    unfold guessParams at hg
    by_cases h0 : p.flat = [] ∨ o.sgamp * o.rsh = 0
    · rw [if_pos h0] at hg; cases hg
    rw [if_neg h0] at hg
    simp only [hab] at hg
    by_cases h1 : |y| = 0 ∨ (lmax p.trace - lmean p.flat) / (o.sgamp * o.rsh) = 0
    · rw [if_pos h1] at hg; cases hg
    rw [if_neg h1] at hg
    push Not at h0 h1
    have hy : y ≠ 0 := abs_ne_zero.1 h1.1
    have hsub : guessSub1 p.trace p.flat = true ↔ 0 < y := by
      unfold guessSub1
      rw [if_neg h0.1, decide_eq_true_iff, hset]
      constructor
      · intro h
        by_contra hn
        have := mul_nonneg (neg_nonneg.2 (not_lt.1 hn)) (half_pos hpos).le
        linarith
      · intro h
        have := mul_pos h (half_pos hpos)
        linarith
    refine ⟨hy, hsub, ?_⟩
    by_cases h2 : guessSub1 p.trace p.flat = true
    · rw [if_pos h2] at hg
      have hyp := hsub.1 h2
      rw [h2]
      simp only [Except.ok.injEq, Prod.mk.injEq] at hg
      obtain ⟨rfl, rfl, rfl, rfl⟩ := hg
      have hA := h1.2
      refine ⟨_, _, _, _, rfl, fun hle => hgen hy ?_, ?_⟩
      · rw [abs_of_pos hyp]
        have : 1 / ((lmax p.trace - lmean p.flat) / (o.sgamp * o.rsh)) ≤ 1 / y := by
          rw [le_div_iff₀ hyp]; exact hle
        split_ifs with h3
        · ring
        · have : 1 / y - 1 / ((lmax p.trace - lmean p.flat) / (o.sgamp * o.rsh)) = 0 := by linarith
          linarith
      · have : lmax p.trace - lmean p.flat ≠ 0 := fun h => hA (by rw [h, zero_div])
        field_simp
    · rw [if_neg h2] at hg
      have hyn : y < 0 := lt_of_le_of_ne (not_lt.1 fun h => h2 (hsub.2 h)) hy
      have h2' : guessSub1 p.trace p.flat = false := by simpa using h2
      rw [h2']
      simp only [Except.ok.injEq, Prod.mk.injEq] at hg
      obtain ⟨rfl, rfl, rfl, rfl⟩ := hg
      have hA := h1.2
      refine ⟨_, _, _, _, rfl, fun hle => hgen hy ?_, ?_⟩
      · rw [abs_of_neg hyn]
        field_simp
        ring
      · have : lmax p.trace - lmean p.flat ≠ 0 := fun h => hA (by rw [h, zero_div])
        field_simp

/-- A detector of admittance `2 / 5`: a response of that kind exists. -/
example : ∃ g, startGuess (exObj [] false 0)
    ⟨4, fun _ => 0, fun i => [-1 / 5, -1 / 5, 1 / 5, 1 / 5].getD i 0, [1], fun _ => 0, fun _ => 0, 0, 0⟩ 2 = .ok g ∧
    g.2 = true := by
  refine ⟨_, by
    norm_num [startGuess, guessParams, Proc.trace, Proc.flat, List.range, List.range.loop, exObj, lmean, lmax]
    norm_num [guessSub1, lmean]; rfl, ?_⟩
  simp

/-! ### C72: the better of the two branches -/

/-- Without a decision on the loop gain both branches are fitted and the better one is kept.  With an optimiser
which finds the optimum the cost is the smallest among all parameters with non-negative times `tau2`, `tau3`, where
for one pole `A` may have either sign, and for more the pairs `B`, `tau1` and `C` have a common sign. -/
theorem fit_better_branch {ls : LS} (hls : Optimal ls) {pts : List Pt} {A0 B0 C0 t1 t2 t3 d : ℝ} {params : List ℝ}
    {cov : List (List ℝ)} {cost : ℝ} :
    (fitdidv ls pts 1 A0 B0 C0 t1 t2 t3 d none = .ok (params, cov, cost) →
      ∀ A tau2 dt r, 0 ≤ tau2 → residual pts [A, tau2, dt] = .ok r → cost ≤ (r.map fun v => v ^ 2).sum / 2) ∧
    (fitdidv ls pts 2 A0 B0 C0 t1 t2 t3 d none = .ok (params, cov, cost) →
      ∀ A B tau1 tau2 dt r, 0 ≤ A → 0 ≤ tau2 → ((B ≤ 0 ∧ tau1 ≤ 0) ∨ (0 ≤ B ∧ 0 ≤ tau1)) →
        residual pts [A, B, tau1, tau2, dt] = .ok r → cost ≤ (r.map fun v => v ^ 2).sum / 2) ∧
    (fitdidv ls pts 3 A0 B0 C0 t1 t2 t3 d none = .ok (params, cov, cost) →
      ∀ A B C tau1 tau2 tau3 dt r, 0 ≤ A → 0 ≤ tau2 → 0 ≤ tau3 →
        ((B ≤ 0 ∧ C ≤ 0 ∧ tau1 ≤ 0) ∨ (0 ≤ B ∧ 0 ≤ C ∧ 0 ≤ tau1)) →
        residual pts [A, B, C, tau1, tau2, tau3, dt] = .ok r → cost ≤ (r.map fun v => v ^ 2).sum / 2) := by
  have key : ∀ {n : ℕ}, fitdidv ls pts n A0 B0 C0 t1 t2 t3 d none = .ok (params, cov, cost) →
      ∀ x r, residual pts x = .ok r →
        (List.Forall₂ inB x (starts n A0 B0 C0 t1 t2 t3 d).2.1 ∨
          List.Forall₂ inB x (starts n A0 B0 C0 t1 t2 t3 d).2.2.2) → cost ≤ (r.map fun v => v ^ 2).sum / 2 := by
    intro n h x r hr hx
    unfold fitdidv at h
    simp only at h
    cases h1 : leastSquares ls (residual pts) (starts n A0 B0 C0 t1 t2 t3 d).1 (starts n A0 B0 C0 t1 t2 t3 d).2.1
        ((starts n A0 B0 C0 t1 t2 t3 d).1.map abs) with
    | error e => rw [h1] at h; cases h
    | ok r1 =>
      cases h2 : leastSquares ls (residual pts) (starts n A0 B0 C0 t1 t2 t3 d).2.2.1
          (starts n A0 B0 C0 t1 t2 t3 d).2.2.2 ((starts n A0 B0 C0 t1 t2 t3 d).1.map abs) with
      | error e => rw [h1, h2] at h; cases h
      | ok r2 =>
        rw [h1, h2] at h
        simp only at h
        have q1 : r1 = ls (residual pts) (starts n A0 B0 C0 t1 t2 t3 d).1 (starts n A0 B0 C0 t1 t2 t3 d).2.1 := (leastSquares_ok h1).2.2.2
        have q2 : r2 = ls (residual pts) (starts n A0 B0 C0 t1 t2 t3 d).2.2.1
            (starts n A0 B0 C0 t1 t2 t3 d).2.2.2 := (leastSquares_ok h2).2.2.2
        have hc : cost ≤ r1.cost ∧ cost ≤ r2.cost := by
          split_ifs at h with hlt
          · cases hcv : r1.cov with
            | error e => rw [hcv] at h; cases h
            | ok c => rw [hcv] at h; cases h; exact ⟨le_rfl, hlt.le⟩
          · cases hcv : r2.cov with
            | error e => rw [hcv] at h; cases h
            | ok c => rw [hcv] at h; cases h; exact ⟨not_lt.1 hlt, le_rfl⟩
        rcases hx with hx | hx
        · exact hc.1.trans (q1 ▸ hls _ _ _ x r hx hr)
        · exact hc.2.trans (q2 ▸ hls _ _ _ x r hx hr)
  have bpos : ∀ x : ℝ, 0 ≤ x → inB x (some 0, none) := fun x hx =>
    ⟨fun l hl => (by cases hl; exact hx), fun u hu => (by cases hu)⟩
  have bneg : ∀ x : ℝ, x ≤ 0 → inB x (none, some 0) := fun x hx =>
    ⟨fun u hu => (by cases hu), fun l hl => (by cases hl; exact hx)⟩
  have bfree : ∀ x : ℝ, inB x (none, none) := fun x =>
    ⟨fun u hu => (by cases hu), fun u hu => (by cases hu)⟩
  refine ⟨fun h A tau2 dt r ht hr => key h _ r hr ?_, fun h A B tau1 tau2 dt r hA ht hB hr => key h _ r hr ?_,
    fun h A B C tau1 tau2 tau3 dt r hA ht h3 hB hr => key h _ r hr ?_⟩
  · rcases le_total 0 A with hA | hA
    · exact Or.inl (.cons (bpos _ hA) (.cons (bpos _ ht) (.cons (bfree _) .nil)))
    · exact Or.inr (.cons (bneg _ hA) (.cons (bpos _ ht) (.cons (bfree _) .nil)))
  · rcases hB with ⟨h1, h2⟩ | ⟨h1, h2⟩
    · exact Or.inl (.cons (bpos _ hA) (.cons (bneg _ h1) (.cons (bneg _ h2) (.cons (bpos _ ht)
        (.cons (bfree _) .nil)))))
    · exact Or.inr (.cons (bpos _ hA) (.cons (bpos _ h1) (.cons (bpos _ h2) (.cons (bpos _ ht)
        (.cons (bfree _) .nil)))))
  · rcases hB with ⟨h1, h2, h4⟩ | ⟨h1, h2, h4⟩
    · exact Or.inl (.cons (bpos _ hA) (.cons (bneg _ h1) (.cons (bneg _ h2) (.cons (bneg _ h4) (.cons (bpos _ ht)
        (.cons (bpos _ h3) (.cons (bfree _) .nil)))))))
    · exact Or.inr (.cons (bpos _ hA) (.cons (bpos _ h1) (.cons (bpos _ h2) (.cons (bpos _ h4) (.cons (bpos _ ht)
        (.cons (bpos _ h3) (.cons (bfree _) .nil)))))))

/-- Without data points every optimiser of cost zero is optimal, and such a fit returns. -/
example : Optimal (fun _ p0 _ => ⟨p0, 0, .ok []⟩) ∧
    ∃ q, fitdidv (fun _ p0 _ => ⟨p0, 0, .ok []⟩) [] 1 1 0 0 1 1 1 1 none = .ok q := by
  constructor
  · intro res p0 b x r _ _
    have : 0 ≤ (r.map fun v => v ^ 2).sum := List.sum_nonneg fun v hv => by
      obtain ⟨w, -, rfl⟩ := List.mem_map.1 hv
      positivity
    simp only
    positivity
  · have bpos : ∀ x : ℝ, 0 ≤ x → inB x (some 0, none) := fun x hx =>
      ⟨fun l hl => (by cases hl; exact hx), fun u hu => (by cases hu)⟩
    have bneg : ∀ x : ℝ, x ≤ 0 → inB x (none, some 0) := fun x hx =>
      ⟨fun u hu => (by cases hu), fun l hl => (by cases hl; exact hx)⟩
    have bfree : ∀ x : ℝ, inB x (none, none) := fun x =>
      ⟨fun u hu => (by cases hu), fun u hu => (by cases hu)⟩
    have h1 : List.Forall₂ inB [(1 : ℝ), 1, 1] [(some 0, none), (some 0, none), (none, none)] :=
      .cons (bpos _ zero_le_one) (.cons (bpos _ zero_le_one) (.cons (bfree _) .nil))
    have h2 : List.Forall₂ inB [(-1 : ℝ), 1, 1] [(none, some 0), (some 0, none), (none, none)] :=
      .cons (bneg _ (by norm_num)) (.cons (bpos _ zero_le_one) (.cons (bfree _) .nil))
    simp [fitdidv, leastSquares, starts, residual, h1, h2, show ¬ (1 : ℝ) ≤ 0 by norm_num]

end Verif.Didv
