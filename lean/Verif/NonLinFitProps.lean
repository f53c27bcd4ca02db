import Verif.NonLinFitLemmas

/-! Properties of `fit_falltimes` and `fitmuontail`: C42, C82-C84. -/

namespace Verif.NonLin

open Verif Verif.Dft Matrix

variable {n : ℕ} [NeZero n]

/-! ### C42: validation -/

/-- **C42.**  A guess whose length does not fit the number of poles raises `ValueError`, whatever the
other arguments. -/
theorem guess_length (o : Obj n) (pulse : ZMod n → ℝ) (errscale : ℝ) {g : List ℝ}
    (bounds : Option (List EReal × List EReal)) (taurise : Option ℝ) (scale : Bool) (solve)
    {npole : ℤ} (h : (npole = 4 ∧ g.length ≠ 8) ∨ (npole = 3 ∧ g.length ≠ 6) ∨
      (npole = 2 ∧ g.length ≠ 4) ∨ (npole = 1 ∧ g.length ≠ 3)) :
    (o.fit pulse npole errscale (some g) bounds taurise scale solve).2 = .error .valueError := by
  unfold Obj.fit
  simp only
  unfold Obj.run
  split_ifs
  · rfl
  have : (o.prepare pulse npole errscale taurise scale).start pulse (some g) = .error .valueError := by
    unfold Obj.start
    rcases h with ⟨rfl, h⟩ | ⟨rfl, h⟩ | ⟨rfl, h⟩ | ⟨rfl, h⟩ <;> simp [Obj.prepare, h]
  rw [this]

example : ((init (n := 8) (fun _ => 1) 1 none).fit (fun _ => 1) 2 1 (some [1, 2, 3]) none none true
    (fun p _ => ⟨p, 0, true⟩)).2 = .error .valueError :=
  guess_length _ _ _ _ _ _ _ (by norm_num)

/-- **C42.**  The one-pole fit demands `taurise`. -/
theorem taurise_required (o : Obj n) (pulse : ZMod n → ℝ) (errscale : ℝ) (guess : Option (List ℝ))
    (bounds : Option (List EReal × List EReal)) (scale : Bool) (solve) :
    (o.fit pulse 1 errscale guess bounds none scale solve).2 = .error .valueError := by
  unfold Obj.fit
  simp only
  unfold Obj.run
  rw [if_pos ⟨rfl, rfl⟩]

/-- **C42.**  Without explicit bounds the bounds strictly contain every guess with positive amplitudes
and times (any start time). -/
theorem bounds_contain (o : Obj n) (hfs : 0 < o.fs) (pulse : ZMod n → ℝ) {g p0 : List ℝ} {t0 : ℝ}
    (hs : o.start pulse (some (g ++ [t0])) = .ok p0) (hpos : ∀ x ∈ g, 0 < x) :
    (o.defaultBounds p0).1.length = p0.length ∧ (o.defaultBounds p0).2.length = p0.length ∧
    (∀ p ∈ (o.defaultBounds p0).1.zip p0, p.1 < (p.2 : EReal)) ∧
    ∀ p ∈ (o.defaultBounds p0).2.zip p0, (p.2 : EReal) < p.1 := by
  obtain rfl := start_some hs
  have hlen : g.length ≥ (if o.npole = 4 then 3 else if o.npole = 3 then 2 else 1) := by
    unfold Obj.start at hs
    simp only [List.length_append, List.length_singleton] at hs
    split_ifs at hs <;> split_ifs <;> omega
  unfold Obj.defaultBounds
  simp only
  generalize (if o.npole = 4 then 3 else if o.npole = 3 then 2 else 1) = k at hlen
  rw [List.take_append_of_le_length hlen, List.drop_append_of_le_length hlen]
  rw [List.dropLast_concat, List.getLast?_concat]
  have h30 : 0 < 30 / o.fs := by positivity
  have hz : ∀ (f1 f2 : ℝ → ℝ) (c : ℝ) (P : EReal → EReal → Prop), (∀ x, 0 < x → P (f1 x) x) →
      (∀ x, 0 < x → P (f2 x) x) → P c t0 →
      ∀ p ∈ ((((g.take k).map f1 ++ (g.drop k).map f2) ++ [c]).map (fun x : ℝ => (x : EReal))).zip
        (g ++ [t0]), P p.1 (p.2 : EReal) := by
    intro f1 f2 c P h1 h2 h3 p hp
    have e : g ++ [t0] = (g.take k ++ g.drop k) ++ [t0] := by rw [List.take_append_drop]
    rw [e, List.map_append, List.map_append, List.zip_append (by simp; omega),
      List.zip_append (by simp)] at hp
    simp only [List.map_map, List.mem_append] at hp
    rcases hp with (hp | hp) | hp
    · rw [List.zip_map_left, List.mem_map] at hp
      obtain ⟨q, hq, rfl⟩ := hp
      rw [List.zip_eq_zipWith, List.zipWith_self, List.mem_map] at hq
      obtain ⟨x, hx, rfl⟩ := hq
      exact h1 x (hpos x (List.mem_of_mem_take hx))
    · rw [List.zip_map_left, List.mem_map] at hp
      obtain ⟨q, hq, rfl⟩ := hp
      rw [List.zip_eq_zipWith, List.zipWith_self, List.mem_map] at hq
      obtain ⟨x, hx, rfl⟩ := hq
      exact h2 x (hpos x (List.mem_of_mem_drop hx))
    · simp at hp
      rw [hp]
      exact h3
  refine ⟨by simp [hlen]; omega, by simp [hlen]; omega, ?_, ?_⟩
  · refine hz _ _ _ (fun a b => a < b) (fun x hx => ?_) (fun x hx => ?_) ?_
    · exact EReal.coe_lt_coe_iff.2 (by linarith)
    · exact EReal.coe_lt_coe_iff.2 (by linarith)
    · exact EReal.coe_lt_coe_iff.2 (by linarith)
  · refine hz _ _ _ (fun a b => b < a) (fun x hx => ?_) (fun x hx => ?_) ?_
    · exact EReal.coe_lt_coe_iff.2 (by linarith)
    · exact EReal.coe_lt_coe_iff.2 (by linarith)
    · exact EReal.coe_lt_coe_iff.2 (by linarith)

omit [NeZero n] in
/-- **C42.**  The default bounds: a factor 100 for amplitudes, a factor 10 for times, and 30 samples
for the start time. -/
theorem default_bounds (o : Obj n) (A B C τr τ1 τ2 τ3 t0 : ℝ) :
    (o.npole = 4 → o.defaultBounds [A, B, C, τr, τ1, τ2, τ3, t0] =
      (([A / 100, B / 100, C / 100, τr / 10, τ1 / 10, τ2 / 10, τ3 / 10, t0 - 30 / o.fs] : List ℝ).map (↑),
       ([A * 100, B * 100, C * 100, τr * 10, τ1 * 10, τ2 * 10, τ3 * 10, t0 + 30 / o.fs] : List ℝ).map (↑))) ∧
    (o.npole = 3 → o.defaultBounds [A, B, τr, τ1, τ2, t0] =
      (([A / 100, B / 100, τr / 10, τ1 / 10, τ2 / 10, t0 - 30 / o.fs] : List ℝ).map (↑),
       ([A * 100, B * 100, τr * 10, τ1 * 10, τ2 * 10, t0 + 30 / o.fs] : List ℝ).map (↑))) ∧
    (o.npole = 2 → o.defaultBounds [A, τr, τ1, t0] =
      (([A / 100, τr / 10, τ1 / 10, t0 - 30 / o.fs] : List ℝ).map (↑),
       ([A * 100, τr * 10, τ1 * 10, t0 + 30 / o.fs] : List ℝ).map (↑))) ∧
    (o.npole = 1 → o.defaultBounds [A, τ1, t0] =
      (([A / 100, τ1 / 10, t0 - 30 / o.fs] : List ℝ).map (↑),
       ([A * 100, τ1 * 10, t0 + 30 / o.fs] : List ℝ).map (↑))) := by
  refine ⟨?_, ?_, ?_, ?_⟩ <;>
  · intro h
    simp [Obj.defaultBounds, h]

/-- **C42.**  What a call leaves behind on the object, even if it raises: the pole count and the
scaling of this call, and the rise time if one was given for a one-pole fit (otherwise the
earlier one). -/
theorem state_after (o : Obj n) (pulse : ZMod n → ℝ) (npole : ℤ) (errscale : ℝ)
    (guess : Option (List ℝ)) (bounds : Option (List EReal × List EReal)) (taurise : Option ℝ)
    (scale : Bool) (solve) :
    let o' := (o.fit pulse npole errscale guess bounds taurise scale solve).1
    o'.npole = npole ∧ o'.scale = scale ∧ o'.psd = o.psd ∧ o'.fs = o.fs ∧
      (∀ τ, npole = 1 → taurise = some τ → o'.taurise = some τ) ∧
      (npole ≠ 1 ∨ taurise = none → o'.taurise = o.taurise) := by
  refine ⟨rfl, rfl, rfl, rfl, ?_, ?_⟩
  · rintro τ rfl rfl
    rfl
  · rintro (h | rfl)
    · exact if_neg h
    · exact ite_self _

/-- **C42 is violated** for negative pulses (and start times of zero): a guess with any entry that is
not positive raises `ValueError` with every choice of bounds, because the guess is also used as the
scale of the variables. -/
theorem nonpositive_violated (o : Obj n) (pulse : ZMod n → ℝ) (npole : ℤ) (errscale : ℝ) {g : List ℝ}
    (hg : ∃ x ∈ g, x ≤ 0) (bounds : Option (List EReal × List EReal)) (taurise : Option ℝ)
    (scale : Bool) (solve) :
    (o.fit pulse npole errscale (some g) bounds taurise scale solve).2 = .error .valueError := by
  unfold Obj.fit
  simp only
  unfold Obj.run
  split_ifs
  · rfl
  cases hs : (o.prepare pulse npole errscale taurise scale).start pulse (some g) with
  | error e =>
    unfold Obj.start at hs
    simp only at hs
    split_ifs at hs <;> cases hs <;> rfl
  | ok p0 =>
    obtain rfl := start_some hs
    simp only
    rw [if_pos]
    rintro ⟨-, -, -, -, -, h⟩
    obtain ⟨x, hx, hle⟩ := hg
    exact absurd (h x hx) (not_lt.2 hle)

/-- **C42 is violated**: an unsupported number of poles is not rejected with `ValueError`; on a new
object the fit fails with `TypeError`. -/
theorem polecount_violated (psd : ZMod n → ℝ) {fs : ℝ} (hfs : 0 < fs) (tmpl : Option (List ℝ))
    (pulse : ZMod n → ℝ) {npole : ℤ} (hp : npole < 1 ∨ 4 < npole) (errscale : ℝ) {A τ t0 : ℝ}
    (hA : 0 < A) (hτ : 0 < τ) (ht : 0 < t0) (taurise : Option ℝ) (scale : Bool) (solve) :
    ((init psd fs tmpl).fit pulse npole errscale (some [A, τ, t0]) none taurise scale solve).2 =
      .error .typeError := by
  unfold Obj.fit
  simp only
  have hs : ((init psd fs tmpl).prepare pulse npole errscale taurise scale).start pulse
      (some ([A, τ] ++ [t0])) = .ok [A, τ, t0] := by
    unfold Obj.start
    have hnp : ((init psd fs tmpl).prepare pulse npole errscale taurise scale).npole = npole := rfl
    simp only [hnp]
    rw [if_neg (show ¬ npole = 4 by omega), if_neg (show ¬ npole = 3 by omega),
      if_neg (show ¬ npole = 2 by omega)]
    rfl
  obtain ⟨b1, b2, b3, b4⟩ := bounds_contain _ (by simpa [Obj.prepare, init] using hfs) pulse hs
    (by simp [hA, hτ])
  have hnp : ((init psd fs tmpl).prepare pulse npole errscale taurise scale).npole = npole := rfl
  unfold Obj.run
  rw [hnp, if_neg (show ¬ (npole = 1 ∧ taurise = none) by omega)]
  rw [show ([A, τ, t0] : List ℝ) = [A, τ] ++ [t0] from rfl, hs]
  simp only [Option.getD_none]
  rw [if_neg (not_not.2 (lsqValid_of b1 b2 b3 b4 (by simp [hA, hτ, ht])))]
  have hm : ((init psd fs tmpl).prepare pulse npole errscale taurise scale).residuals [A, τ, t0] =
      .error .typeError := by
    unfold Obj.residuals Obj.model
    rw [hnp, if_neg (show ¬ npole = 4 by omega), if_neg (show ¬ npole = 3 by omega),
      if_neg (show ¬ npole = 2 by omega)]
    simp only [Obj.onepole, Obj.prepare, init]
    rw [if_neg (show ¬ npole = 1 by omega)]
  rw [hm]

/-- **C42 is violated**: on an object that has done a one-pole fit before, an unsupported number of
poles silently repeats a one-pole fit with the old rise time. -/
theorem polecount_stale_violated {o : Obj n} {τr : ℝ} (h : o.taurise = some τr) (pulse : ZMod n → ℝ)
    {npole : ℤ} (hp : npole < 1 ∨ 4 < npole) (errscale : ℝ) (guess : Option (List ℝ))
    (bounds : Option (List EReal × List EReal)) (taurise : Option ℝ) (scale : Bool) (solve) :
    (o.fit pulse npole errscale guess bounds taurise scale solve).2 =
      (o.fit pulse 1 errscale guess bounds (some τr) scale solve).2 := by
  have e4 : ¬ npole = 4 := by omega
  have e3 : ¬ npole = 3 := by omega
  have e2 : ¬ npole = 2 := by omega
  have e1 : ¬ npole = 1 := by omega
  have hmod : ∀ x, (o.prepare pulse npole errscale taurise scale).model x =
      (o.prepare pulse 1 errscale (some τr) scale).model x := by
    intro x
    unfold Obj.model
    simp only [Obj.prepare, e4, e3, e2, e1, if_false, show ¬ (1 : ℤ) = 4 by norm_num,
      show ¬ (1 : ℤ) = 3 by norm_num, show ¬ (1 : ℤ) = 2 by norm_num, if_true]
    split
    · simp only [Obj.onepole, h]
      rfl
    · rfl
  have hres : ∀ x, (o.prepare pulse npole errscale taurise scale).residuals x =
      (o.prepare pulse 1 errscale (some τr) scale).residuals x := by
    intro x
    unfold Obj.residuals
    rw [hmod x]
    rfl
  have hstart : (o.prepare pulse npole errscale taurise scale).start pulse guess =
      (o.prepare pulse 1 errscale (some τr) scale).start pulse guess := by
    unfold Obj.start Obj.defaultGuess
    simp only [Obj.prepare, e4, e3, e2, if_false, show ¬ (1 : ℤ) = 4 by norm_num,
      show ¬ (1 : ℤ) = 3 by norm_num, show ¬ (1 : ℤ) = 2 by norm_num]
  have hb : ∀ x, (o.prepare pulse npole errscale taurise scale).defaultBounds x =
      (o.prepare pulse 1 errscale (some τr) scale).defaultBounds x := by
    intro x
    unfold Obj.defaultBounds
    simp only [Obj.prepare, e4, e3, if_false, show ¬ (1 : ℤ) = 4 by norm_num,
      show ¬ (1 : ℤ) = 3 by norm_num]
  have hc : ∀ m, (o.prepare pulse npole errscale taurise scale).calcchi2 m (dofOf npole) =
      (o.prepare pulse 1 errscale (some τr) scale).calcchi2 m (dofOf 1) := by
    intro m
    have : dofOf npole = dofOf 1 := by simp [dofOf, e4, e3, e2]
    rw [this]
    rfl
  have n1 : (o.prepare pulse npole errscale taurise scale).npole = npole := rfl
  have n2 : (o.prepare pulse 1 errscale (some τr) scale).npole = 1 := rfl
  have hmod' : (o.prepare pulse npole errscale taurise scale).model =
      (o.prepare pulse 1 errscale (some τr) scale).model := funext hmod
  have hb' : (o.prepare pulse npole errscale taurise scale).defaultBounds =
      (o.prepare pulse 1 errscale (some τr) scale).defaultBounds := funext hb
  unfold Obj.fit
  simp only
  unfold Obj.run
  rw [hstart, hb', hmod', n1, n2]
  rw [if_neg (fun h => e1 h.1), if_neg (fun h => by cases h.2)]
  simp only [hres, hc]

/-! ### C82: reported uncertainties and chi2 -/

/-- **C82.**  Whenever `fit_falltimes` returns: the start point is the guess, the variables are those
of the optimiser, the covariance is symmetric and positive semidefinite and is the inverse of `JᵀJ`
when that matrix is invertible, the errors are the roots of its diagonal, and the reduced chi2 is the
noise-weighted distance of the returned model from the data. -/
theorem fit_reported {psd : ZMod n → ℝ} {fs : ℝ} {tmpl : Option (List ℝ)} {pulse : ZMod n → ℝ}
    {npole : ℤ} {errscale : ℝ} {g : List ℝ} {bounds : Option (List EReal × List EReal)}
    {taurise : Option ℝ} {scale : Bool} {solve : List ℝ → List EReal × List EReal → Lsq n}
    {r : FitResult n} (hpsd : ∀ k, k ≠ 0 → 0 < psd k) (herr : 0 < errscale)
    (h : ((init psd fs tmpl).fit pulse npole errscale (some g) bounds taurise scale solve).2 = .ok r) :
    (∃ b, r.lsq = solve g b) ∧ r.covᵀ = r.cov ∧ (∀ v, 0 ≤ v ⬝ᵥ (r.cov *ᵥ v)) ∧
    (∀ i, 0 ≤ r.errors i ∧ r.errors i ^ 2 = r.cov i i) ∧
    (∀ X, r.lsq.jacᵀ * r.lsq.jac * X = 1 → X * (r.lsq.jacᵀ * r.lsq.jac) = 1 → r.cov = X) ∧
    ∃ m, ((init psd fs tmpl).prepare pulse npole errscale taurise scale).model r.lsq.x = .ok m ∧
      r.chi2 * ((n : ℝ) - (if npole = 4 then 8 else if npole = 3 then 6 else if npole = 2 then 4
        else 3)) =
      errscale * (‖fftR pulse 0 / (Real.sqrt (fs * n) : ℂ) - m 0‖ ^ 2 / 10 ^ 40 +
      ∑ k ∈ Finset.univ.erase 0, ‖fftR pulse k / (Real.sqrt (fs * n) : ℂ) - m k‖ ^ 2 / psd k) := by
  unfold Obj.fit at h
  simp only at h
  obtain ⟨-, p0, m, res, hs, -, -, hl, hm, hc, hcov, herrs⟩ := run_ok h
  obtain rfl := start_some hs
  obtain ⟨f1, f2, f3⟩ := cov_facts r.lsq.jac
  rw [← hcov] at f1 f2 f3
  refine ⟨⟨_, hl⟩, f1, f2, fun i => ?_, fun X h1 h2 => ?_, m, hm, ?_⟩
  · rw [herrs]
    exact ⟨Real.sqrt_nonneg _, f3 i⟩
  · rw [hcov]; exact pinv_of_inv h1 h2
  · rw [← chi2_weighted rfl hpsd herr hc]
    congr 2
    have : ((init psd fs tmpl).prepare pulse npole errscale taurise scale).npole = npole := rfl
    rw [this]
    unfold dofOf
    split_ifs <;> norm_num

/-- **C42 (partial).**  `fit_falltimes` returns for every positive guess of the right length, default
bounds and positive psd, provided the two-pole formula is defined at the guess and at the solution and
some degree of freedom is left. -/
theorem fit_defined_partial {psd : ZMod n → ℝ} {fs : ℝ} (hfs : 0 < fs) (tmpl : Option (List ℝ))
    (pulse : ZMod n → ℝ) {npole : ℤ} {errscale : ℝ} {g : List ℝ} {t0 : ℝ} {taurise : Option ℝ}
    {scale : Bool} (solve : List ℝ → List EReal × List EReal → Lsq n)
    (hpsd : ∀ k, k ≠ 0 → 0 < psd k) (herr : 0 < errscale)
    (hlen : (npole = 4 ∧ g.length = 7) ∨ (npole = 3 ∧ g.length = 5) ∨ (npole = 2 ∧ g.length = 3) ∨
      (npole = 1 ∧ g.length = 2 ∧ taurise ≠ none))
    (hpos : ∀ x ∈ g, 0 < x) (ht : 0 < t0) (hn : 8 < n)
    (hguess : ∃ m, ((init psd fs tmpl).prepare pulse npole errscale taurise scale).model
      (g ++ [t0]) = .ok m)
    (hsol : ∀ b, ∃ m, ((init psd fs tmpl).prepare pulse npole errscale taurise scale).model
      (solve (g ++ [t0]) b).x = .ok m) :
    ∃ r, ((init psd fs tmpl).fit pulse npole errscale (some (g ++ [t0])) none taurise scale solve).2 =
      .ok r := by
  have hs : ((init psd fs tmpl).prepare pulse npole errscale taurise scale).start pulse
      (some (g ++ [t0])) = .ok (g ++ [t0]) := by
    unfold Obj.start
    rcases hlen with ⟨rfl, h⟩ | ⟨rfl, h⟩ | ⟨rfl, h⟩ | ⟨rfl, h, -⟩ <;> simp [Obj.prepare, h]
  obtain ⟨b1, b2, b3, b4⟩ := bounds_contain _ (by simpa [Obj.prepare, init] using hfs) pulse hs hpos
  have hnp : ((init psd fs tmpl).prepare pulse npole errscale taurise scale).npole = npole := rfl
  unfold Obj.fit
  simp only
  unfold Obj.run
  rw [hnp, if_neg (by
    rintro ⟨h1, h2⟩
    rcases hlen with ⟨h, -⟩ | ⟨h, -⟩ | ⟨h, -⟩ | ⟨-, -, h⟩
    · omega
    · omega
    · omega
    · exact h h2), hs]
  simp only [Option.getD_none]
  rw [if_neg (not_not.2 (lsqValid_of b1 b2 b3 b4 (by
    intro x hx
    rw [List.mem_append, List.mem_singleton] at hx
    rcases hx with hx | rfl
    · exact hpos x hx
    · exact ht)))]
  obtain ⟨m, hm⟩ := hguess
  have hres : ∃ res, ((init psd fs tmpl).prepare pulse npole errscale taurise scale).residuals
      (g ++ [t0]) = .ok res := by
    unfold Obj.residuals
    rw [hm]
    simp only
    rw [if_neg]
    · exact ⟨_, rfl⟩
    · rintro ⟨k, hk⟩
      refine absurd hk (not_le.2 (Real.sqrt_pos.2 (div_pos ?_ herr)))
      by_cases h0 : k = 0
      · subst h0
        simp [init]
      · simp only [init, Function.update_of_ne h0]
        exact hpsd k h0
  obtain ⟨res, hres⟩ := hres
  rw [hres]
  simp only
  obtain ⟨m', hm'⟩ := hsol (((init psd fs tmpl).prepare pulse npole errscale taurise
    scale).defaultBounds (g ++ [t0]))
  rw [hm']
  simp only
  have hc : ∃ c, ((init psd fs tmpl).prepare pulse npole errscale taurise scale).calcchi2 m'
      (dofOf npole) = .ok c := by
    unfold Obj.calcchi2
    rw [if_neg]
    · exact ⟨_, rfl⟩
    · unfold dofOf
      split_ifs <;> omega
  obtain ⟨c, hc⟩ := hc
  rw [hc]
  exact ⟨_, rfl⟩

/-- A four-pole fit of nine samples with a solver that returns its start point. -/
example : ∃ r, ((init (n := 9) (fun _ => 1) 1 none).fit (fun _ => 1) 4 1
    (some ([1, 1, 1, 1, 2, 3, 4] ++ [1])) none none true (fun p _ => ⟨p, 0, true⟩)).2 = .ok r :=
  fit_defined_partial one_pos none _ _ (fun _ _ => one_pos) one_pos (Or.inl ⟨rfl, rfl⟩)
    (by simp) one_pos (by norm_num) ⟨_, rfl⟩ (fun _ => ⟨_, rfl⟩)

/-! ### C84: the automatic guess -/

/-- **C84 is violated**: without a guess and a template, a trace of at least 14 samples whose maximum
lies in the first seven raises `ValueError`, for every number of poles. -/
theorem early_peak_violated {o : Obj n} (ht : o.template = none) (hn : 14 ≤ n) (pulse : ZMod n → ℝ)
    {m : ℕ} (hm : m < 7) (hmax : ∀ j : ZMod n, j ≠ (m : ZMod n) → pulse j < pulse (m : ZMod n))
    (npole : ℤ) (errscale : ℝ) (bounds : Option (List EReal × List EReal)) (taurise : Option ℝ)
    (scale : Bool) (solve) :
    (o.fit pulse npole errscale none bounds taurise scale solve).2 = .error .valueError := by
  have hmn : m < n := by omega
  have ha := argmax_peak pulse hmn hmax
  have hs : (o.prepare pulse npole errscale taurise scale).start pulse none = .error .valueError := by
    unfold Obj.start Obj.defaultGuess
    have htm : (o.prepare pulse npole errscale taurise scale).template = none := ht
    simp only [htm, ha]
    have he : slice (toL pulse) ((m : ℤ) - 7) ((m : ℤ) + 7) = [] := by
      unfold slice
      rw [toL_length]
      refine List.drop_eq_nil_of_le ?_
      rw [List.length_take]
      unfold Np.clipIdx
      rw [if_pos (by omega), if_neg (by omega)]
      omega
    rw [he]
    rfl
  unfold Obj.fit
  simp only
  unfold Obj.run
  rw [hs]
  split_ifs <;> rfl

/-- A 16-sample trace with its maximum in sample 3. -/
example : ∀ j : ZMod 16, j ≠ ((3 : ℕ) : ZMod 16) →
    (fun k : ZMod 16 => if k = 3 then (1 : ℝ) else 0) j < (fun k : ZMod 16 => if k = 3 then (1 : ℝ)
      else 0) ((3 : ℕ) : ZMod 16) := by
  intro j hj
  have h3 : ((3 : ℕ) : ZMod 16) = 3 := rfl
  rw [h3] at hj ⊢
  simp [hj]

/-- **C84 (partial).**  Without a guess and a template, if the maximum of the trace is at sample
`m ≥ 7`, not the last one, the samples around it have a positive mean and the sample rate is at least
`1/300 µs`, the automatic start point is positive, with start time `m/fs`, and the default bounds
contain it. -/
theorem default_guess_partial {o : Obj n} (ht : o.template = none) (hfs : 10 ^ 6 / 300 ≤ o.fs)
    (pulse : ZMod n → ℝ) {m : ℕ} (hm : 7 ≤ m) (hmn : m + 1 < n)
    (hmax : ∀ j : ZMod n, j ≠ (m : ZMod n) → pulse j < pulse (m : ZMod n))
    (hpos : ∀ j : ℕ, m ≤ j + 7 → j < m + 7 → j < n → 0 < pulse (j : ZMod n)) :
    ∃ g, o.start pulse none = .ok (g ++ [(m : ℝ) / o.fs]) ∧
      (∀ x ∈ g ++ [(m : ℝ) / o.fs], 0 < x) ∧
      LsqValid (g ++ [(m : ℝ) / o.fs]) (o.defaultBounds (g ++ [(m : ℝ) / o.fs]))
        (g ++ [(m : ℝ) / o.fs]) := by
  have hfs0 : 0 < o.fs := lt_of_lt_of_le (by norm_num) hfs
  have ha := argmax_peak pulse (by omega) hmax
  obtain ⟨a, ha1, ha2⟩ := mean_pos (slice_ne pulse (a := (m : ℤ) - 7) (b := (m : ℤ) + 7) (by omega)
    (by omega) (by omega)) (by
      intro x hx
      obtain ⟨j, h1, h2, h3, rfl⟩ := slice_mem pulse (by omega) (by omega) hx
      exact hpos j (by omega) (by omega) h3)
  have htr : 1 ≤ OF.trunc (300 / 10 ^ 6 * o.fs) := by
    unfold OF.trunc
    rw [if_neg (not_lt.2 (by positivity)), Int.le_floor]
    push_cast
    linarith
  have ht0 : (0 : ℝ) < (m : ℝ) / o.fs := div_pos (by exact_mod_cast (by omega : 0 < m)) hfs0
  have hstart : ∃ g, o.defaultGuess pulse = .ok (g ++ [(m : ℝ) / o.fs]) ∧ (∀ x ∈ g, 0 < x) ∧
      o.start pulse (some (g ++ [(m : ℝ) / o.fs])) = .ok (g ++ [(m : ℝ) / o.fs]) := by
    unfold Obj.defaultGuess Obj.start
    simp only [ht, ha, ha1, mul_one, Int.cast_natCast]
    by_cases h4 : o.npole = 4
    · refine ⟨[a, a / 3, a / 3, 20 / 10 ^ 6, 100 / 10 ^ 6, 300 / 10 ^ 6, 500 / 10 ^ 6], ?_, ?_, ?_⟩
      · rw [if_pos h4]; rfl
      · simp [ha2]
      · rw [if_pos h4]; rfl
    rw [if_neg h4]
    by_cases h3 : o.npole = 3
    · refine ⟨[a, a / 3, 20 / 10 ^ 6, 100 / 10 ^ 6, 300 / 10 ^ 6], ?_, ?_, ?_⟩
      · rw [if_pos h3]; rfl
      · simp [ha2]
      · rw [if_neg h4, if_pos h3]; rfl
    rw [if_neg h3]
    obtain ⟨i, hi⟩ := argmax_defined (l := (slice (toL pulse) ((m : ℤ) + 1) ((m : ℤ) + 1 +
        OF.trunc (300 / 10 ^ 6 * o.fs))).map fun y => -|y - 37 / 100 * a|) (by
      intro h
      exact slice_ne pulse (by omega) (by omega) (by omega) (List.map_eq_nil_iff.1 h))
    rw [hi]
    simp only
    have hi0 := (argmax_ok hi).1
    have htau : (0 : ℝ) < ((i + m + 1 - m : ℤ) : ℝ) / o.fs :=
      div_pos (by exact_mod_cast (by omega : 0 < i + m + 1 - m)) hfs0
    by_cases h2 : o.npole = 2
    · refine ⟨[a, 20 / 10 ^ 6, ((i + m + 1 - m : ℤ) : ℝ) / o.fs], ?_, ?_, ?_⟩
      · rw [if_pos h2]; rfl
      · intro x hx
        simp only [List.mem_cons, List.not_mem_nil, or_false] at hx
        rcases hx with rfl | rfl | rfl
        · exact ha2
        · norm_num
        · exact htau
      · rw [if_neg h4, if_neg h3, if_pos h2]; rfl
    · refine ⟨[a, ((i + m + 1 - m : ℤ) : ℝ) / o.fs], ?_, ?_, ?_⟩
      · rw [if_neg h2]; rfl
      · intro x hx
        simp only [List.mem_cons, List.not_mem_nil, or_false] at hx
        rcases hx with rfl | rfl
        · exact ha2
        · exact htau
      · rw [if_neg h4, if_neg h3, if_neg h2]; rfl
  obtain ⟨g, hg, hgpos, hs⟩ := hstart
  obtain ⟨b1, b2, b3, b4⟩ := bounds_contain o hfs0 pulse hs hgpos
  have hall : ∀ x ∈ g ++ [(m : ℝ) / o.fs], 0 < x := by
    intro x hx
    rw [List.mem_append, List.mem_singleton] at hx
    rcases hx with hx | rfl
    · exact hgpos x hx
    · exact ht0
  exact ⟨g, hg, hall, lsqValid_of b1 b2 b3 b4 hall⟩

/-- A triangular pulse of 16 samples peaking in sample 8. -/
example : ∃ g, (init (n := 16) (fun _ => 1) (10 ^ 6) none).start
    (fun k => if k = 8 then 2 else 1) none = .ok (g ++ [((8 : ℕ) : ℝ) / 10 ^ 6]) := by
  obtain ⟨g, hg, -⟩ := default_guess_partial (o := init (n := 16) (fun _ => 1) (10 ^ 6) none) rfl
    (by norm_num [init]) (fun k => if k = 8 then 2 else 1) (m := 8) (by norm_num) (by norm_num)
    (by
      intro j hj
      have h8 : ((8 : ℕ) : ZMod 16) = 8 := rfl
      rw [h8] at hj ⊢
      simp [hj])
    (by intro j _ _ _; split_ifs <;> norm_num)
  exact ⟨g, hg⟩

/-! ### C83: the muon-tail fit -/

/-- **C83.**  Whenever `fitmuontail` returns: it returns the two variables of the optimiser, the
covariance is symmetric, positive semidefinite and the inverse of `JᵀJ` when that is invertible, the
errors are the roots of its diagonal and the chi2 is the noise-weighted distance between the data and
the transform of the exponential, which is also the sum of squared residuals. -/
theorem muon_reported {psd : ZMod n → ℝ} {fs : ℝ} {signal : ZMod n → ℝ} {errscale : ℝ}
    {solve : List ℝ → List EReal × List EReal → Lsq n} {r : FitResult n}
    (hpsd : ∀ k, 0 < psd k) (herr : 0 < errscale)
    (h : muonFit psd fs signal errscale solve = .ok r) :
    ∃ A τ, r.lsq.x = [A, τ] ∧ r.covᵀ = r.cov ∧ (∀ v, 0 ≤ v ⬝ᵥ (r.cov *ᵥ v)) ∧
    (∀ i, 0 ≤ r.errors i ∧ r.errors i ^ 2 = r.cov i i) ∧
    (∀ X, r.lsq.jacᵀ * r.lsq.jac * X = 1 → X * (r.lsq.jacᵀ * r.lsq.jac) = 1 → r.cov = X) ∧
    r.chi2 = errscale * ∑ k, ‖fftR signal k / (Real.sqrt (fs * n) : ℂ) -
      (Muon.prepare psd fs signal errscale).fcn A τ k‖ ^ 2 / psd k ∧
    r.chi2 = (((Muon.prepare psd fs signal errscale).residuals A τ).map (· ^ 2)).sum := by
  unfold muonFit at h
  simp only at h
  obtain ⟨tau, ht⟩ := muonTau_defined fs signal
  rw [ht] at h
  simp only at h
  split_ifs at h with hv he
  split at h
  · rename_i A τ hx
    cases h
    obtain ⟨f1, f2, f3⟩ := cov_facts (solve [ampscale signal, tau] ([0, 0],
      [((ampscale signal * 100 : ℝ) : EReal), ((tau * 100 : ℝ) : EReal)])).jac
    refine ⟨A, τ, hx, f1, f2, fun i => ⟨Real.sqrt_nonneg _, f3 i⟩,
      fun X h1 h2 => pinv_of_inv h1 h2, ?_, ?_⟩
    · simp only [Muon.calcchi2]
      rw [Finset.mul_sum]
      refine Finset.sum_congr rfl fun k _ => ?_
      simp only [Muon.prepare]
      rw [Real.sq_sqrt (div_nonneg (hpsd k).le herr.le)]
      have := (hpsd k).ne'
      field_simp
    · simp only [Muon.calcchi2, Muon.residuals]
      rw [flatten_sq]
  · cases h

/-- **C83 (partial).**  `fitmuontail` returns for every trace that is not constant and whose first
sample is not the nearest to `(max − min)/e`, with a positive psd. -/
theorem muon_defined_partial {psd : ZMod n → ℝ} {fs : ℝ} (hfs : 0 < fs) {signal : ZMod n → ℝ}
    {errscale : ℝ} {solve : List ℝ → List EReal × List EReal → Lsq n}
    (hpsd : ∀ k, 0 < psd k) (herr : 0 < errscale) (hamp : 0 < ampscale signal)
    {j : ZMod n} (hj : |signal j - ampscale signal / Real.exp 1| <
      |signal 0 - ampscale signal / Real.exp 1|)
    (hsol : ∀ p b, (solve p b).x.length = 2) : ∃ r, muonFit psd fs signal errscale solve = .ok r := by
  obtain ⟨i, hi⟩ := argmax_defined (l := (toL signal).map fun y =>
    -|y - ampscale signal / Real.exp 1|) (by
      intro h
      have := congrArg List.length h
      rw [List.length_map, toL_length] at this
      exact NeZero.ne n this)
  have hg : ∀ j < n, ((toL signal).map fun y => -|y - ampscale signal / Real.exp 1|).getD j 0 =
      -|signal (j : ZMod n) - ampscale signal / Real.exp 1| := by
    intro j hj
    simp [toL, hj]
  obtain ⟨i0, i1, i2, -⟩ := argmax_ok hi
  rw [List.length_map, toL_length] at i1 i2
  have hi' : 0 < i := by
    rcases i0.lt_or_eq with h | h
    · exact h
    · have := i2 j.val (ZMod.val_lt j)
      rw [hg _ (ZMod.val_lt j), hg _ (by omega), ← h, ZMod.natCast_zmod_val] at this
      simp at this
      exact absurd hj (not_lt.2 this)
  have hτ : 0 < (i : ℝ) / fs := div_pos (by exact_mod_cast hi') hfs
  have ht : muonTau fs signal = .ok (i / fs) := by unfold muonTau; rw [hi]
  unfold muonFit
  simp only
  rw [ht]
  simp only
  rw [if_neg, if_neg]
  · have := hsol [ampscale signal, i / fs] ([0, 0],
      [((ampscale signal * 100 : ℝ) : EReal), (((i : ℝ) / fs * 100 : ℝ) : EReal)])
    rw [List.length_eq_two] at this
    obtain ⟨A, τ, hx⟩ := this
    split
    · exact ⟨_, rfl⟩
    · rename_i hne
      exact absurd hx (hne A τ)
  · rintro ⟨k, hk⟩
    exact absurd hk (not_le.2 (Real.sqrt_pos.2 (div_pos (hpsd k) herr)))
  · rw [not_not]
    refine ⟨rfl, rfl, ?_, ?_, ?_, ?_⟩
    · simp only [List.zip_cons_cons, List.zip_nil_right, List.mem_cons, List.not_mem_nil, or_false]
      rintro p (rfl | rfl)
      · exact EReal.coe_lt_coe_iff.2 (by positivity : (0 : ℝ) < ampscale signal * 100)
      · exact EReal.coe_lt_coe_iff.2 (by positivity : (0 : ℝ) < (i : ℝ) / fs * 100)
    · simp only [List.zip_cons_cons, List.zip_nil_right, List.mem_cons, List.not_mem_nil, or_false]
      rintro p (rfl | rfl)
      · exact EReal.coe_le_coe_iff.2 hamp.le
      · exact EReal.coe_le_coe_iff.2 hτ.le
    · simp only [List.zip_cons_cons, List.zip_nil_right, List.mem_cons, List.not_mem_nil, or_false]
      rintro p (rfl | rfl)
      · exact EReal.coe_le_coe_iff.2 (by linarith)
      · exact EReal.coe_le_coe_iff.2 (by linarith)
    · simp only [List.mem_cons, List.not_mem_nil, or_false]
      rintro p (rfl | rfl)
      · exact abs_pos.2 hamp.ne'
      · exact abs_pos.2 hτ.ne'

/-- A two-sample trace that falls from 5 to 3. -/
example : ∃ r, muonFit (n := 2) (fun _ => 1) 1 (fun k => if k = 0 then 5 else 3) 1
    (fun _ _ => ⟨[1, 1], 0, true⟩) = .ok r := by
  have ha : ampscale (n := 2) (fun k => if k = 0 then 5 else 3) = 2 := by
    have h1 : Finset.univ.sup' Finset.univ_nonempty (fun k : ZMod 2 => if k = 0 then (5 : ℝ) else 3) =
        5 := by
      refine le_antisymm (Finset.sup'_le _ _ fun k _ => by split_ifs <;> norm_num) ?_
      exact Finset.le_sup' (fun k : ZMod 2 => if k = 0 then (5 : ℝ) else 3) (Finset.mem_univ 0)
    have h2 : Finset.univ.inf' Finset.univ_nonempty (fun k : ZMod 2 => if k = 0 then (5 : ℝ) else 3) =
        3 := by
      refine le_antisymm ?_ (Finset.le_inf' _ _ fun k _ => by split_ifs <;> norm_num)
      exact (Finset.inf'_le (fun k : ZMod 2 => if k = 0 then (5 : ℝ) else 3) (Finset.mem_univ 1)).trans
        (by norm_num)
    unfold ampscale
    rw [h1, h2]
    norm_num
  refine muon_defined_partial one_pos (fun _ => one_pos) one_pos (by rw [ha]; norm_num) (j := 1) ?_
    (fun _ _ => rfl)
  rw [ha]
  have he : 0 < Real.exp 1 := Real.exp_pos 1
  have h1 : 2 / Real.exp 1 < 2 := by
    rw [div_lt_iff₀ he]
    have := Real.add_one_lt_exp (one_ne_zero (α := ℝ))
    linarith
  have h0 : 0 < 2 / Real.exp 1 := by positivity
  simp only [one_ne_zero, if_false, if_true]
  rw [abs_of_pos (by linarith), abs_of_pos (by linarith)]
  linarith

/-- **C83 is violated**: a constant trace raises `ValueError`. -/
theorem muon_flat_violated (psd : ZMod n → ℝ) (fs c errscale : ℝ) (solve) :
    muonFit psd fs (fun _ => c) errscale solve = .error .valueError := by
  unfold muonFit
  simp only
  obtain ⟨tau, ht⟩ := muonTau_defined fs (fun _ : ZMod n => c)
  rw [ht]
  simp only
  rw [if_pos]
  rintro ⟨-, -, -, -, -, h⟩
  have := h |ampscale (fun _ : ZMod n => c)| (by simp)
  simp [ampscale] at this

/-- **C83 is violated**: with an AC-coupled psd (`psd[0] = 0`) every fit raises `ValueError`; unlike
`OFnonlin`, the zero-frequency bin is not ignored. -/
theorem muon_dc_violated {psd : ZMod n → ℝ} (h0 : psd 0 = 0) (fs : ℝ) (signal : ZMod n → ℝ)
    (errscale : ℝ) (solve) : muonFit psd fs signal errscale solve = .error .valueError := by
  unfold muonFit
  simp only
  obtain ⟨tau, ht⟩ := muonTau_defined fs signal
  rw [ht]
  simp only
  rw [if_pos (⟨0, by simp [Muon.prepare, h0]⟩ :
    ∃ k, (Muon.prepare psd fs signal errscale).error k ≤ 0), ite_self]

/-- **C83 is violated**: if the first sample is at `(max − min)/e` the fit raises `ValueError`,
because the guessed decay time is zero. -/
theorem muon_first_violated {signal : ZMod n → ℝ} (h0 : signal 0 = ampscale signal / Real.exp 1)
    (psd : ZMod n → ℝ) (fs errscale : ℝ) (solve) :
    muonFit psd fs signal errscale solve = .error .valueError := by
  have hn : 0 < n := Nat.pos_of_ne_zero (NeZero.ne n)
  have ht : muonTau fs signal = .ok 0 := by
    obtain ⟨i, hi⟩ := argmax_defined (l := (toL signal).map fun y =>
      -|y - ampscale signal / Real.exp 1|) (by
        intro h
        have := congrArg List.length h
        rw [List.length_map, toL_length] at this
        exact NeZero.ne n this)
    have hg : ∀ j < n, ((toL signal).map fun y => -|y - ampscale signal / Real.exp 1|).getD j 0 =
        -|signal (j : ZMod n) - ampscale signal / Real.exp 1| := by
      intro j hj
      simp [toL, hj]
    obtain ⟨i0, i1, -, i3⟩ := argmax_ok hi
    rw [List.length_map, toL_length] at i1
    have hi' : i = 0 := by
      by_contra hne
      have := i3 0 (by omega)
      rw [hg 0 hn, hg _ (by omega), Nat.cast_zero, h0, sub_self, abs_zero, neg_zero] at this
      have := abs_nonneg (signal (i.toNat : ZMod n) - ampscale signal / Real.exp 1)
      linarith
    unfold muonTau
    rw [hi, hi']
    simp
  unfold muonFit
  simp only
  rw [ht]
  simp only
  rw [if_pos]
  rintro ⟨-, -, -, -, -, h⟩
  have := h |0| (by simp)
  simp at this

end Verif.NonLin
