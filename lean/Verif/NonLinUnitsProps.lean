import Verif.NonLinUnitsLemmas

/-!
Properties of `OFnonlin` and `MuonTailFit` under a change of units, of the time of the pulse, of its
sign and of its baseline (C132).  `init psd fs tmpl` is the object, `prepare` the data of the fit;
primed or converted quantities are those a user would pass in the new units.
-/

namespace Verif.NonLin
open Verif Verif.Dft Matrix

variable {n : ℕ} [NeZero n] (u : Units)

/-- **C132.**  The pulse models carry units: parameters in the new units give the spectrum in the new
units (a trace divided by the root of a frequency), with the same errors. -/
theorem model_in_units (psd : ZMod n → ℝ) (fs : ℝ) (tmpl : Option (List ℝ)) (pulse : ZMod n → ℝ)
    (npole : ℤ) (errscale : ℝ) (tau : Option ℝ) (scale : Bool) (p : List ℝ) :
    ((init (u.psd psd) (fs / u.τ) tmpl).prepare (u.trace pulse) npole errscale (tau.map (u.τ * ·))
        scale).model (u.params p) =
      (((init psd fs tmpl).prepare pulse npole errscale tau scale).model p).map
        fun m k => ((u.s * Real.sqrt u.τ : ℝ) : ℂ) * m k :=
  model_units (prepare_scaled ..) p

/-- **C132 (partial).**  All residuals are the same in the new units, except those of the
zero-frequency bin (the first two), which are multiplied by `s √τ`. -/
theorem residuals_units_partial (psd : ZMod n → ℝ) (fs : ℝ) (tmpl : Option (List ℝ)) (pulse : ZMod n → ℝ)
    (npole : ℤ) (errscale : ℝ) (tau : Option ℝ) (scale : Bool) (p : List ℝ) :
    ((init (u.psd psd) (fs / u.τ) tmpl).prepare (u.trace pulse) npole errscale (tau.map (u.τ * ·))
        scale).residuals (u.params p) =
      (((init psd fs tmpl).prepare pulse npole errscale tau scale).residuals p).map fun r =>
        (r.take 2).map (u.s * Real.sqrt u.τ * ·) ++ r.drop 2 :=
  residuals_scaled p

open Classical in
/-- **C132 (partial).**  A fit in the new units, with an optimiser which finds the same solution, fails
in the same way or returns the parameters in the new units; its chi2 differs only by the zero-frequency
bin, whose noise is `10^40` in any units. -/
theorem fit_units_partial {psd : ZMod n → ℝ} {fs : ℝ} {tmpl : Option (List ℝ)} {pulse : ZMod n → ℝ}
    {npole : ℤ} {errscale : ℝ} (herr : 0 < errscale) {g : List ℝ} {bounds : Option (List EReal × List EReal)}
    {tau : Option ℝ} {scale : Bool} {solve solve' : List ℝ → List EReal × List EReal → Lsq n}
    (hsol : ∀ b, (solve' (u.params g) (u.bounds g.length b)).x = u.params (solve g b).x) :
    (∀ e, ((init psd fs tmpl).fit pulse npole errscale (some g) bounds tau scale solve).2 = .error e →
      ((init (u.psd psd) (fs / u.τ) tmpl).fit (u.trace pulse) npole errscale (some (u.params g))
        (bounds.map (u.bounds g.length)) (tau.map (u.τ * ·)) scale solve').2 = .error e) ∧
    ∀ r, ((init psd fs tmpl).fit pulse npole errscale (some g) bounds tau scale solve).2 = .ok r →
      ∃ r' m, ((init (u.psd psd) (fs / u.τ) tmpl).fit (u.trace pulse) npole errscale (some (u.params g))
        (bounds.map (u.bounds g.length)) (tau.map (u.τ * ·)) scale solve').2 = .ok r' ∧
      r'.lsq.x = u.params r.lsq.x ∧
      ((init psd fs tmpl).prepare pulse npole errscale tau scale).model r.lsq.x = .ok m ∧
      r'.chi2 = r.chi2 + (u.s ^ 2 * u.τ - 1) * errscale *
        ‖fftR pulse 0 / (Real.sqrt (fs * n) : ℂ) - m 0‖ ^ 2 / 10 ^ 40 / (((n : ℤ) - dofOf npole : ℤ) : ℝ) := by
  have hS := prepare_scaled (u := u) psd fs tmpl tmpl pulse npole errscale tau scale
  have hres := residuals_scaled (u := u) (psd := psd) (fs := fs) (tmpl := tmpl) (tmpl' := tmpl)
    (pulse := pulse) (npole := npole) (errscale := errscale) (tau := tau) (scale := scale) g
  have hchi := calcchi2_scaled (u := u) (psd := psd) (fs := fs) (tmpl := tmpl) (tmpl' := tmpl)
    (pulse := pulse) (npole := npole) herr (tau := tau) (scale := scale)
  unfold Obj.fit
  dsimp only
  set o := (init psd fs tmpl).prepare pulse npole errscale tau scale with ho
  set o' := (init (u.psd psd) (fs / u.τ) tmpl).prepare (u.trace pulse) npole errscale (tau.map (u.τ * ·))
    scale with ho'
  have hnp : o.npole = npole := rfl
  have hstart : o'.start (u.trace pulse) (some (u.params g)) =
      (o.start pulse (some g)).map u.params := by
    unfold Obj.start
    dsimp only
    rw [hS.npole, params_length]
    split_ifs <;> rfl
  have htau : tau.map (u.τ * ·) = none ↔ tau = none := by simp
  unfold Obj.run
  rw [hS.npole, hstart]
  by_cases h1 : o.npole = 1 ∧ tau = none
  · rw [if_pos h1, if_pos ⟨h1.1, htau.2 h1.2⟩]
    exact ⟨fun e h => h, fun r h => by cases h⟩
  rw [if_neg h1, if_neg fun h => h1 ⟨h.1, htau.1 h.2⟩]
  cases hs : o.start pulse (some g) with
  | error e => exact ⟨fun e h => h, fun r h => by cases h⟩
  | ok p0 =>
    obtain rfl := start_some hs
    have hlen : p0.length = dofOf o.npole := by
      unfold Obj.start at hs
      unfold dofOf
      dsimp only at hs
      split_ifs at hs ⊢ <;> simp_all
    have hb : (bounds.map (u.bounds p0.length)).getD (o'.defaultBounds (u.params p0)) =
        u.bounds p0.length (bounds.getD (o.defaultBounds p0)) := by
      cases bounds with
      | none => exact defaultBounds_units hS hlen
      | some b => rfl
    simp only [Except.map, hb]
    generalize bounds.getD (o.defaultBounds p0) = b at hb ⊢
    by_cases hv : LsqValid p0 b p0
    · rw [if_neg (not_not.2 hv), if_neg (not_not.2 ((lsqValid_units p0 b).2 hv)), hres]
      cases hr : o.residuals p0 with
      | error e => cases e <;> exact ⟨fun e h => h, fun r h => by cases h⟩
      | ok rs =>
        simp only [Except.map]
        rw [hsol b, model_units hS]
        cases hm : o.model (solve p0 b).x with
        | error e => exact ⟨fun e h => h, fun r h => by cases h⟩
        | ok m =>
          simp only [Except.map]
          rw [hchi]
          cases hc : o.calcchi2 m (dofOf o.npole) with
          | error e => exact ⟨fun e h => h, fun r h => by cases h⟩
          | ok chi2 =>
            simp only [Except.map]
            refine ⟨fun e h => (by cases h), fun r h => ?_⟩
            cases h
            refine ⟨_, m, rfl, ?_, hm, rfl⟩
            change (solve' (u.params p0) _).x = _
            rw [hb]
            exact hsol b
    · rw [if_pos hv, if_pos fun h => hv ((lsqValid_units p0 b).1 h)]
      exact ⟨fun e h => h, fun r h => by cases h⟩

/-- **C132 (violated).**  The reduced chi2 depends on the units wherever the trace and the model differ
in the zero-frequency bin: with the same solution in both units it is different whenever the unit of the
data, `s √τ`, is not the old one. -/
theorem chi2_units_violated {psd : ZMod n → ℝ} {fs : ℝ} {tmpl : Option (List ℝ)} {pulse : ZMod n → ℝ}
    {npole : ℤ} {errscale : ℝ} (herr : 0 < errscale) {g : List ℝ} {bounds : Option (List EReal × List EReal)}
    {tau : Option ℝ} {scale : Bool} {solve solve' : List ℝ → List EReal × List EReal → Lsq n}
    (hsol : ∀ b, (solve' (u.params g) (u.bounds g.length b)).x = u.params (solve g b).x)
    {r r' : FitResult n} {m : ZMod n → ℂ}
    (h : ((init psd fs tmpl).fit pulse npole errscale (some g) bounds tau scale solve).2 = .ok r)
    (h' : ((init (u.psd psd) (fs / u.τ) tmpl).fit (u.trace pulse) npole errscale (some (u.params g))
        (bounds.map (u.bounds g.length)) (tau.map (u.τ * ·)) scale solve').2 = .ok r')
    (hm : ((init psd fs tmpl).prepare pulse npole errscale tau scale).model r.lsq.x = .ok m)
    (h0 : fftR pulse 0 / (Real.sqrt (fs * n) : ℂ) ≠ m 0) (hu : u.s ^ 2 * u.τ ≠ 1) :
    r'.chi2 ≠ r.chi2 := by
  obtain ⟨r'', m', hr'', -, hm', hc⟩ := (fit_units_partial u herr hsol).2 r h
  rw [h'] at hr''
  cases hr''
  rw [hm] at hm'
  cases hm'
  rw [hc]
  have hd : (((n : ℤ) - dofOf npole : ℤ) : ℝ) ≠ 0 := by
    unfold Obj.fit at h
    simp only at h
    obtain ⟨-, p0, m, res, -, -, -, -, -, hc', -, -⟩ := run_ok h
    unfold Obj.calcchi2 at hc'
    split_ifs at hc' with hd
    exact_mod_cast hd
  have h1 : ‖fftR pulse 0 / (Real.sqrt (fs * n) : ℂ) - m 0‖ ^ 2 ≠ 0 := by
    rw [Ne, sq_eq_zero_iff, norm_eq_zero, sub_eq_zero]
    exact h0
  have h2 : u.s ^ 2 * u.τ - 1 ≠ 0 := sub_ne_zero.2 hu
  rw [Ne, add_eq_left]
  positivity

/-- **C132 (partial).**  A constant added to the trace changes the residual of the real part of the
zero-frequency bin only (by `b √(n/fs) √errscale / 10^20`). -/
theorem offset_partial {psd : ZMod n → ℝ} {fs : ℝ} (hfs : 0 < fs) {tmpl : Option (List ℝ)}
    {pulse : ZMod n → ℝ} {npole : ℤ} {errscale : ℝ} (herr : 0 < errscale) {tau : Option ℝ} {scale : Bool}
    (b : ℝ) (p : List ℝ) :
    ((init psd fs tmpl).prepare (fun i => pulse i + b) npole errscale tau scale).residuals p =
      (((init psd fs tmpl).prepare pulse npole errscale tau scale).residuals p).map fun r =>
        r.modify 0 (· + b * Real.sqrt (n / fs) * Real.sqrt errscale / 10 ^ 20) := by
  have hn := NeZero.ne n
  have hn0 : (0 : ℝ) < n := by exact_mod_cast Nat.pos_of_ne_zero hn
  unfold Obj.residuals
  have hm : ((init psd fs tmpl).prepare (fun i => pulse i + b) npole errscale tau scale).model p =
      ((init psd fs tmpl).prepare pulse npole errscale tau scale).model p := rfl
  have he : ((init psd fs tmpl).prepare (fun i => pulse i + b) npole errscale tau scale).error =
      ((init psd fs tmpl).prepare pulse npole errscale tau scale).error := rfl
  rw [hm, he]
  cases ((init psd fs tmpl).prepare pulse npole errscale tau scale).model p with
  | error e => rfl
  | ok m =>
    simp only [Except.map]
    split_ifs
    · rfl
    · congr 1
      rw [flatten_cons _ _ hn, flatten_cons _ _ hn]
      have hd : ∀ k : ZMod n, ((init psd fs tmpl).prepare (fun i => pulse i + b) npole errscale tau scale).data k =
          ((init psd fs tmpl).prepare pulse npole errscale tau scale).data k +
            if k = 0 then ((b * Real.sqrt (n / fs) : ℝ) : ℂ) else 0 := by
        intro k
        simp only [Obj.prepare, init]
        rw [fftR_add pulse fun _ => b, fftR_const, add_div]
        congr 1
        split_ifs
        · rw [Real.sqrt_div hn0.le, Real.sqrt_mul hfs.le]
          have h2 := Real.mul_self_sqrt hn0.le
          have h3 : (Real.sqrt n : ℂ) ≠ 0 := by exact_mod_cast (Real.sqrt_pos.2 hn0).ne'
          have h4 : (Real.sqrt fs : ℂ) ≠ 0 := by exact_mod_cast (Real.sqrt_pos.2 hfs).ne'
          have h5 : (Real.sqrt n : ℂ) * Real.sqrt n = n := by exact_mod_cast h2
          push_cast
          field_simp
          linear_combination (-b : ℂ) * h5
        · rw [zero_div]
      have he0 : ((init psd fs tmpl).prepare pulse npole errscale tau scale).error 0 =
          10 ^ 20 / Real.sqrt errscale := by
        simp only [Obj.prepare, init, Function.update_self]
        rw [Real.sqrt_div (by positivity), show (10 : ℝ) ^ 40 = (10 ^ 20) ^ 2 by norm_num,
          Real.sqrt_sq (by positivity)]
      have h5 : Real.sqrt errscale ≠ 0 := (Real.sqrt_pos.2 herr).ne'
      simp only [List.cons_append, List.nil_append, List.modify_zero_cons]
      congr 1
      · simp only [hd, he0, if_true, Complex.sub_re, Complex.add_re, Complex.ofReal_re]
        field_simp
        ring
      congr 1
      · simp only [hd, if_true, Complex.sub_im, Complex.add_im, Complex.ofReal_im, add_zero]
      · refine List.flatMap_congr fun k hk' => ?_
        have : ((k + 1 : ℕ) : ZMod n) ≠ 0 := by
          rw [Ne, ZMod.natCast_eq_zero_iff]
          intro hd
          have := Nat.le_of_dvd (by omega) hd
          have := List.mem_range.1 hk'
          omega
        simp only [hd, if_neg this, add_zero]

/-- **C132.**  A trace delayed by a whole number of samples (of either sign) is fitted as well by the
parameters with the later start time: the sum of the squared residuals is the same. -/
theorem residuals_later {psd : ZMod n → ℝ} {fs : ℝ} (hfs : 0 < fs) {tmpl : Option (List ℝ)}
    {pulse : ZMod n → ℝ} {npole : ℤ} {errscale : ℝ} {tau : Option ℝ} {scale : Bool} (m : ℤ) (p : List ℝ) :
    (((init psd fs tmpl).prepare (roll pulse m) npole errscale tau scale).residuals
        (later (m / fs) p)).map sumsq =
      (((init psd fs tmpl).prepare pulse npole errscale tau scale).residuals p).map sumsq := by
  unfold Obj.residuals
  have hm : ((init psd fs tmpl).prepare (roll pulse m) npole errscale tau scale).model (later (m / fs) p) =
      (((init psd fs tmpl).prepare pulse npole errscale tau scale).model p).map
        fun M k => e (-((m : ZMod n) * k)) * M k :=
    model_later (o := (init psd fs tmpl).prepare pulse npole errscale tau scale) hfs p m
  have he : ((init psd fs tmpl).prepare (roll pulse m) npole errscale tau scale).error =
      ((init psd fs tmpl).prepare pulse npole errscale tau scale).error := rfl
  rw [hm, he]
  cases ((init psd fs tmpl).prepare pulse npole errscale tau scale).model p with
  | error e => rfl
  | ok M =>
    simp only [Except.map]
    split_ifs
    · rfl
    · unfold sumsq
      simp only
      rw [flatten_sq, flatten_sq]
      congr 1
      refine Finset.sum_congr rfl fun k _ => ?_
      have : ((init psd fs tmpl).prepare (roll pulse m) npole errscale tau scale).data k =
          e (-((m : ZMod n) * k)) * ((init psd fs tmpl).prepare pulse npole errscale tau scale).data k := by
        simp only [Obj.prepare, init]
        rw [fftR_roll, mul_div_assoc]
      rw [this, ← mul_sub, norm_mul, norm_e, one_mul]

/-- **C132.**  The trace of opposite sign has the opposite residuals at the opposite amplitudes. -/
theorem residuals_flip {psd : ZMod n → ℝ} {fs : ℝ} {tmpl : Option (List ℝ)}
    {pulse : ZMod n → ℝ} {npole : ℤ} {errscale : ℝ} {tau : Option ℝ} {scale : Bool} (p : List ℝ) :
    ((init psd fs tmpl).prepare (fun i => -pulse i) npole errscale tau scale).residuals (flip p) =
      (((init psd fs tmpl).prepare pulse npole errscale tau scale).residuals p).map (List.map (- ·)) := by
  unfold Obj.residuals
  have hm : ((init psd fs tmpl).prepare (fun i => -pulse i) npole errscale tau scale).model (flip p) =
      (((init psd fs tmpl).prepare pulse npole errscale tau scale).model p).map fun M k => -M k :=
    model_flip ((init psd fs tmpl).prepare pulse npole errscale tau scale) p
  have he : ((init psd fs tmpl).prepare (fun i => -pulse i) npole errscale tau scale).error =
      ((init psd fs tmpl).prepare pulse npole errscale tau scale).error := rfl
  rw [hm, he]
  cases ((init psd fs tmpl).prepare pulse npole errscale tau scale).model p with
  | error e => rfl
  | ok M =>
    simp only [Except.map]
    split_ifs
    · rfl
    · simp only
      rw [← flatten_neg]
      congr 2
      funext k
      simp only [Obj.prepare, init]
      have := fftR_smul (-1) pulse k
      simp only [neg_mul, one_mul] at this
      rw [this]
      push_cast
      ring

/-- **C132 (partial).**  Without a guess, the start point follows the unit of the trace (`τ = 1`). -/
theorem default_guess_units_partial (hτ : u.τ = 1) {psd psd' : ZMod n → ℝ} {fs : ℝ} {tmpl : Option (List ℝ)}
    {pulse : ZMod n → ℝ} {npole : ℤ} {errscale : ℝ} {tau : Option ℝ} {scale : Bool} :
    ((init psd' fs tmpl).prepare (u.trace pulse) npole errscale tau scale).start (u.trace pulse) none =
      (((init psd fs tmpl).prepare pulse npole errscale tau scale).start pulse none).map u.params := by
  have hs := u.hs
  unfold Obj.start Obj.defaultGuess
  simp only [Obj.prepare, init]
  cases tmpl with
  | none =>
    simp only
    rw [toL_units, argmax_scale hs]
    cases argmax (toL pulse) with
    | error e => rfl
    | ok mi =>
      simp only
      rw [slice_map, mean_scale]
      cases Np.mean (slice (toL pulse) (mi - 7) (mi + 7)) with
      | none => rfl
      | some y =>
        simp only [Option.map_some]
        rw [← toL_units, mul_assoc, falltime_units]
        by_cases c4 : npole = 4
        · simp only [c4, if_true, Except.map, params8, hτ, one_mul, mul_div_assoc]
        by_cases c3 : npole = 3
        · simp only [c3, if_true, if_neg (show ¬ (3 : ℤ) = 4 by norm_num), Except.map, params6, hτ, one_mul,
            mul_div_assoc]
        simp only [c4, c3, if_false]
        cases argmax ((slice (toL pulse) (mi + 1) (mi + 1 + OF.trunc (300 / 10 ^ 6 * fs))).map
            fun z => -|z - 37 / 100 * (y * 1)|) with
        | error e => rfl
        | ok i =>
          by_cases c2 : npole = 2
          · simp only [c2, if_true, Except.map, params4, hτ, one_mul]
          · simp only [c2, if_false, Except.map, params3, hτ, one_mul]
  | some t =>
    simp only
    cases argmax t with
    | error e => rfl
    | ok mi =>
      simp only
      cases Np.mean (slice t (mi - 7) (mi + 7)) with
      | none => rfl
      | some y =>
        simp only [ampscale_units]
        rw [mul_left_comm, falltime_units]
        by_cases c4 : npole = 4
        · simp only [c4, if_true, Except.map, params8, hτ, one_mul, mul_div_assoc]
        by_cases c3 : npole = 3
        · simp only [c3, if_true, if_neg (show ¬ (3 : ℤ) = 4 by norm_num), Except.map, params6, hτ, one_mul,
            mul_div_assoc]
        simp only [c4, c3, if_false]
        cases argmax ((slice (toL pulse) (mi + 1) (mi + 1 + OF.trunc (300 / 10 ^ 6 * fs))).map
            fun z => -|z - 37 / 100 * (y * ampscale pulse)|) with
        | error e => rfl
        | ok i =>
          by_cases c2 : npole = 2
          · simp only [c2, if_true, Except.map, params4, hτ, one_mul]
          · simp only [c2, if_false, Except.map, params3, hτ, one_mul]

/-- **C132 (violated).**  The default start point does not follow the unit of time: whatever the unit,
the first time constant is tried at `20·10⁻⁶` (two, three or four poles). -/
theorem default_guess_time_violated {psd : ZMod n → ℝ} {fs : ℝ} {tmpl : Option (List ℝ)}
    {pulse : ZMod n → ℝ} {npole : ℤ} (hn : npole = 2 ∨ npole = 3 ∨ npole = 4) {errscale : ℝ} {tau : Option ℝ}
    {scale : Bool} {p p' : List ℝ} (hτ : u.τ ≠ 1)
    (h : ((init psd fs tmpl).prepare pulse npole errscale tau scale).start pulse none = .ok p)
    (h' : ((init (u.psd psd) (fs / u.τ) tmpl).prepare (u.trace pulse) npole errscale (tau.map (u.τ * ·))
      scale).start (u.trace pulse) none = .ok p') :
    p' ≠ u.params p := by
  have key : ∀ (psd : ZMod n → ℝ) (fs : ℝ) (pulse : ZMod n → ℝ) (tau : Option ℝ) (p : List ℝ),
      ((init psd fs tmpl).prepare pulse npole errscale tau scale).start pulse none = .ok p →
      (npole = 2 ∧ ∃ a b c, p = [a, 20 / 10 ^ 6, b, c]) ∨
      (npole = 3 ∧ ∃ a b c d e, p = [a, b, 20 / 10 ^ 6, c, d, e]) ∨
      (npole = 4 ∧ ∃ a b c d e f g, p = [a, b, c, 20 / 10 ^ 6, d, e, f, g]) := by
    intro psd fs pulse tau p hp
    unfold Obj.start Obj.defaultGuess at hp
    simp only [Obj.prepare, init] at hp
    split at hp
    · cases hp
    · split at hp
      · cases hp
      · rcases hn with rfl | rfl | rfl
        · simp only [show ¬ (2 : ℤ) = 4 by norm_num, show ¬ (2 : ℤ) = 3 by norm_num, if_false, if_true] at hp
          split at hp
          · cases hp
          · cases hp
            exact .inl ⟨rfl, _, _, _, rfl⟩
        · simp only [show ¬ (3 : ℤ) = 4 by norm_num, if_false, if_true] at hp
          cases hp
          exact .inr (.inl ⟨rfl, _, _, _, _, _, rfl⟩)
        · simp only [if_true] at hp
          cases hp
          exact .inr (.inr ⟨rfl, _, _, _, _, _, _, _, rfl⟩)
  intro he
  subst he
  have : ¬ (u.τ * (20 / 10 ^ 6) = 20 / 10 ^ 6) := by
    intro h
    exact hτ (by linarith)
  rcases key _ _ _ _ _ h with ⟨rfl, a, b, c, rfl⟩ | ⟨rfl, a, b, c, d, e, rfl⟩ | ⟨rfl, a, b, c, d, e, f, g, rfl⟩ <;>
    rcases key _ _ _ _ _ h' with ⟨h2, h3⟩ | ⟨h2, h3⟩ | ⟨h2, h3⟩ <;> (try (norm_num at h2)) 
  · obtain ⟨a', b', c', h3⟩ := h3
    rw [params4] at h3
    simp only [List.cons.injEq] at h3
    exact this h3.2.1
  · obtain ⟨a', b', c', d', e', h3⟩ := h3
    rw [params6] at h3
    simp only [List.cons.injEq] at h3
    exact this h3.2.2.1
  · obtain ⟨a', b', c', d', e', f', g', h3⟩ := h3
    rw [params8] at h3
    simp only [List.cons.injEq] at h3
    exact this h3.2.2.2.1

/-! ### the muon tail -/

/-- **C132.**  The muon-tail fit carries units.  An optimiser which finds the same solution in the new
units (with the derivatives of the residuals in the new units) makes it fail in the same way or return
the parameters in the new units with the same chi2; the errors and the covariance carry the units of
the parameters. -/
theorem muon_units {psd : ZMod n → ℝ} {fs : ℝ} {signal : ZMod n → ℝ} {errscale : ℝ}
    {solve solve' : List ℝ → List EReal × List EReal → Lsq n}
    (hsol : ∀ p b, (solve' (u.params p) (u.bounds 2 b)).x = u.params (solve p b).x) :
    (∀ e, muonFit psd fs signal errscale solve = .error e →
      muonFit (u.psd psd) (fs / u.τ) (u.trace signal) errscale solve' = .error e) ∧
    ∀ r, muonFit psd fs signal errscale solve = .ok r →
      ∃ r', muonFit (u.psd psd) (fs / u.τ) (u.trace signal) errscale solve' = .ok r' ∧
      r'.lsq.x = u.params r.lsq.x ∧ r'.chi2 = r.chi2 ∧
      ∀ (hx : r'.lsq.x.length = r.lsq.x.length) (X : Matrix _ _ ℝ),
        (∀ i j, r'.lsq.jac i (Fin.cast hx.symm j) = r.lsq.jac i j / u.factor 2 j) →
        r.lsq.jacᵀ * r.lsq.jac * X = 1 →
        (∀ i, r'.errors (Fin.cast hx.symm i) = u.factor 2 i * r.errors i) ∧
        ∀ i j, r'.cov (Fin.cast hx.symm i) (Fin.cast hx.symm j) = u.factor 2 i * u.factor 2 j * r.cov i j := by
  have hc : 0 < u.s * Real.sqrt u.τ := mul_pos u.hs (Real.sqrt_pos.2 u.hτ)
  have hcc : ((u.s * Real.sqrt u.τ : ℝ) : ℂ) ≠ 0 := by exact_mod_cast hc.ne'
  unfold muonFit
  dsimp only
  rw [muonTau_units, ampscale_units]
  cases muonTau fs signal with
  | error e => exact ⟨fun e h => h, fun r h => by cases h⟩
  | ok tau =>
    simp only [Except.map]
    have hb : (([0, 0], [((u.s * ampscale signal * 100 : ℝ) : EReal), ((u.τ * tau * 100 : ℝ) : EReal)]) :
        List EReal × List EReal) = u.bounds 2 ([0, 0], [((ampscale signal * 100 : ℝ) : EReal),
          ((tau * 100 : ℝ) : EReal)]) := by
      simp [Units.bounds, Units.bound, Units.factor, Units.factors, mul_assoc]
    have hv : [|u.s * ampscale signal|, |u.τ * tau|] = [|ampscale signal|, |tau|].mapIdx
        fun i x => u.factor [ampscale signal, tau].length i * x := by
      simp [Units.factor, Units.factors, abs_mul, abs_of_pos u.hs, abs_of_pos u.hτ]
    have hp : [u.s * ampscale signal, u.τ * tau] = u.params [ampscale signal, tau] := (params2 _ _).symm
    rw [hb, hv, hp]
    generalize (([0, 0], [((ampscale signal * 100 : ℝ) : EReal), ((tau * 100 : ℝ) : EReal)]) :
      List EReal × List EReal) = b
    have c1 : LsqValid (u.params [ampscale signal, tau]) (u.bounds 2 b) ([|ampscale signal|, |tau|].mapIdx
        fun i x => u.factor [ampscale signal, tau].length i * x) ↔
        LsqValid [ampscale signal, tau] b [|ampscale signal|, |tau|] :=
      lsqValid_scaled (u := u) [ampscale signal, tau] [|ampscale signal|, |tau|] b
    by_cases hval : LsqValid [ampscale signal, tau] b [|ampscale signal|, |tau|]
    · rw [if_neg (not_not.2 hval), if_neg (not_not.2 (c1.2 hval))]
      have he : ∀ k, (Muon.prepare (u.psd psd) (fs / u.τ) (u.trace signal) errscale).error k =
          u.s * Real.sqrt u.τ * (Muon.prepare psd fs signal errscale).error k := fun k => err_units _ _
      have c2 : (∃ k, (Muon.prepare (u.psd psd) (fs / u.τ) (u.trace signal) errscale).error k ≤ 0) ↔
          ∃ k, (Muon.prepare psd fs signal errscale).error k ≤ 0 := by
        refine exists_congr fun k => ?_
        rw [he, mul_nonpos_iff_pos_imp_nonpos]
        exact ⟨fun h => h.1 hc, fun h => ⟨fun _ => h, fun _ => hc.le⟩⟩
      by_cases hex : ∃ k, (Muon.prepare psd fs signal errscale).error k ≤ 0
      · rw [if_pos hex, if_pos (c2.2 hex)]
        exact ⟨fun e h => h, fun r h => by cases h⟩
      · rw [if_neg hex, if_neg fun h => hex (c2.1 h)]
        have hx := hsol [ampscale signal, tau] b
        generalize solve' (u.params [ampscale signal, tau]) (u.bounds 2 b) = L' at hx
        generalize solve [ampscale signal, tau] b = L at hx
        by_cases hl : L.x.length = 2
        · obtain ⟨A, t, hA⟩ : ∃ A t, L.x = [A, t] := by
            match h : L.x, hl with
            | [A, t], _ => exact ⟨A, t, rfl⟩
          have hA' : L'.x = [u.s * A, u.τ * t] := by rw [hx, hA, params2]
          simp only [hA, hA']
          refine ⟨fun e h => (by cases h), fun r h => ?_⟩
          cases h
          refine ⟨_, rfl, ?_, ?_, ?_⟩
          · change L'.x = u.params L.x
            rw [hA', hA, params2]
          · change Muon.calcchi2 _ _ = Muon.calcchi2 _ _
            unfold Muon.calcchi2
            refine Finset.sum_congr rfl fun k _ => ?_
            have hd : (Muon.prepare (u.psd psd) (fs / u.τ) (u.trace signal) errscale).data k =
                ((u.s * Real.sqrt u.τ : ℝ) : ℂ) * (Muon.prepare psd fs signal errscale).data k :=
              data_units signal k
            rw [he, hd, muonFcn_units psd _ fs signal, ← mul_sub, norm_mul, Complex.norm_real,
              Real.norm_of_nonneg hc.le, mul_pow (u.s * Real.sqrt u.τ), mul_pow (u.s * Real.sqrt u.τ), mul_div_mul_left _ _ (pow_ne_zero 2 hc.ne')]
          · intro hx' X hJ hX
            have hf : ∀ i, u.factor 2 i ≠ 0 := fun i => (u.factor_pos 2 i).ne'
            refine ⟨fun i => ?_, fun i j => pinv_gram_scaled hx' hf hJ hX i j⟩
            change Real.sqrt (pinv _ _ _) = _ * Real.sqrt (pinv _ _ _)
            rw [pinv_gram_scaled hx' hf hJ hX i i, Real.sqrt_mul (mul_self_nonneg _),
              Real.sqrt_mul_self (u.factor_pos 2 i).le]
        · have hl' : L'.x.length ≠ 2 := by rw [hx, params_length]; exact hl
          split
          · rename_i h; rw [h] at hl; simp at hl
          · split
            · rename_i h; rw [h] at hl'; simp at hl'
            · exact ⟨fun e h => h, fun r h => by cases h⟩
    · rw [if_pos hval, if_pos fun h => hval (c1.1 h)]
      exact ⟨fun e h => h, fun r h => by cases h⟩

/-! ### non-vacuity -/

/-- Microamperes and milliseconds. -/
def exUnits : Units := ⟨10 ^ 6, 10 ^ 3, by norm_num, by norm_num⟩

/-- A two-pole fit of a constant trace with an optimiser which stops at once: the hypotheses of
`fit_units_partial` and `chi2_units_violated` hold. -/
example : ∃ (solve solve' : List ℝ → List EReal × List EReal → Lsq 16) (r r' : FitResult 16) (m : ZMod 16 → ℂ),
    (∀ b, (solve' (exUnits.params [1, 1, 2, 1]) (exUnits.bounds 4 b)).x = exUnits.params (solve [1, 1, 2, 1] b).x) ∧
    ((init (fun _ => 1) 16 none).fit (fun _ => 2) 2 1 (some [1, 1, 2, 1]) none none false solve).2 = .ok r ∧
    ((init (exUnits.psd fun _ => 1) (16 / exUnits.τ) none).fit (exUnits.trace fun _ => 2) 2 1
      (some (exUnits.params [1, 1, 2, 1])) none none false solve').2 = .ok r' ∧
    ((init (fun _ => 1) 16 none).prepare (fun _ => 2) 2 1 none false).model r.lsq.x = .ok m ∧
    fftR (fun _ : ZMod 16 => (2 : ℝ)) 0 / (Real.sqrt (16 * (16 : ℕ)) : ℂ) ≠ m 0 ∧
    exUnits.s ^ 2 * exUnits.τ ≠ 1 ∧ r'.chi2 ≠ r.chi2 := by
  let solve : List ℝ → List EReal × List EReal → Lsq 16 := fun p _ => ⟨p, 0, true⟩
  have hsol : ∀ b, (solve (exUnits.params [1, 1, 2, 1]) (exUnits.bounds 4 b)).x =
      exUnits.params (solve [1, 1, 2, 1] b).x := fun b => rfl
  have hmod : ∀ b, ∃ m, ((init (fun _ : ZMod 16 => (1 : ℝ)) 16 none).prepare (fun _ => 2) 2 1 none false).model
      (solve ([1, 1, 2] ++ [1]) b).x = .ok m := fun b => ⟨_, rfl⟩
  obtain ⟨r, hr⟩ := fit_defined_partial (n := 16) (psd := fun _ => 1) (fs := 16) (by norm_num) none (fun _ => 2)
    (npole := 2) (errscale := 1) (g := [1, 1, 2]) (t0 := 1) (taurise := none) (scale := false) solve
    (fun _ _ => one_pos) one_pos (by simp) (by simp) one_pos (by norm_num) ⟨_, rfl⟩ hmod
  have hr1 : ((init (fun _ : ZMod 16 => (1 : ℝ)) 16 none).fit (fun _ => 2) 2 1 (some [1, 1, 2, 1]) none none false
    solve).2 = .ok r := hr
  obtain ⟨r', m, hr', hx, hm, -⟩ := (fit_units_partial exUnits one_pos (bounds := none) hsol).2 r hr1
  have hx0 : r.lsq.x = [1, 1, 2, 1] := by
    obtain ⟨⟨b, hb⟩, -⟩ := fit_reported (fun _ _ => one_pos) one_pos hr1
    rw [hb]
  have h0 : fftR (fun _ : ZMod 16 => (2 : ℝ)) 0 / (Real.sqrt (16 * (16 : ℕ)) : ℂ) ≠ m 0 := by
    rw [hx0] at hm
    have hm0 : m 0 = 1 := by
      have : ((init (fun _ : ZMod 16 => (1 : ℝ)) 16 none).prepare (fun _ => 2) 2 1 none false).model [1, 1, 2, 1] =
          ((init (fun _ : ZMod 16 => (1 : ℝ)) 16 none).prepare (fun _ => 2) 2 1 none false).twopole 1 1 2 1 := rfl
      rw [this] at hm
      unfold Obj.twopole at hm
      rw [if_neg (by simp [Obj.prepare])] at hm
      cases hm
      have hw : ((init (fun _ : ZMod 16 => (1 : ℝ)) 16 none).prepare (fun _ => 2) 2 1 none false).omega 0 = 0 := by
        simp [Obj.omega, fftfreq, freqIdx]
      have hdf : ((init (fun _ : ZMod 16 => (1 : ℝ)) 16 none).prepare (fun _ => 2) 2 1 none false).df = 1 := by
        simp [Obj.df, Obj.prepare, init]
      simp only [hw, hdf, pole]
      norm_num
    rw [hm0, fftR_const, if_pos rfl, show (16 * ((16 : ℕ) : ℝ)) = 16 ^ 2 by norm_num,
      Real.sqrt_sq (by norm_num)]
    norm_num
  have hu : exUnits.s ^ 2 * exUnits.τ ≠ 1 := by simp only [exUnits]; norm_num
  exact ⟨solve, solve, r, r', m, hsol, hr1, hr', hm, h0, hu,
    chi2_units_violated exUnits one_pos (bounds := none) hsol hr1 hr' hm h0 hu⟩

/-- An optimiser which returns its start point finds the same solution in all units. -/
example (p : List ℝ) (b : List EReal × List EReal) :
    ((fun p _ => ⟨p, 0, true⟩ : List ℝ → List EReal × List EReal → Lsq n) (exUnits.params p) (exUnits.bounds 2 b)).x =
      exUnits.params ((fun p _ => ⟨p, 0, true⟩ : List ℝ → List EReal × List EReal → Lsq n) p b).x := rfl

end Verif.NonLin
