import Verif.NonLinLimitLemmas
import Verif.DeviceLimitEx

/-!
C147: a pulse fit of nearly exact data, or of the average of many noisy traces, returns nearly the pulse.
-/

namespace Verif.NonLin

open Verif Verif.Dft MeasureTheory ProbabilityTheory Filter

variable {n : ℕ} [NeZero n]

/-! ### Optimisers -/

/-- **C147.**  A fit whose optimiser found the best point within the default bounds is no worse than the truth. -/
theorem best_finding {psd : ZMod n → ℝ} {fs errscale : ℝ} {tmpl : Option (List ℝ)} {npole : ℤ} {guess truth : List ℝ}
    {tau : Option ℝ} {scale : Bool} {pulse : ZMod n → ℝ} {solve : List ℝ → List EReal × List EReal → Lsq n} {o : Obj n}
    {r : FitResult n} (hn : dofOf npole < n)
    (hfit : (init psd fs tmpl).fit pulse npole errscale (some guess) none tau scale solve = (o, .ok r))
    (hbest : IsBest o.residuals (o.defaultBounds guess) r.lsq.x) (htruth : Within (o.defaultBounds guess) truth) :
    Finding psd fs tmpl npole errscale guess tau scale truth pulse r.lsq.x := by
  refine ⟨solve, o, r, hfit, rfl, hbest.1, fun m c hm hc => ?_⟩
  obtain ⟨-, res, hres, hmin⟩ := hbest
  obtain ⟨m', hm', hr'⟩ := residuals_model hres
  have hnp : o.npole = npole := by
    unfold Obj.fit at hfit
    rw [Prod.mk.injEq] at hfit
    rw [← hfit.1]
    rfl
  have hcalc : ∀ m, o.calcchi2 m (dofOf npole) =
      .ok ((∑ k, ‖o.data k - m k‖ ^ 2 / o.error k ^ 2) / (((n : ℤ) - dofOf npole : ℤ) : ℝ)) := fun m => if_neg (by omega)
  have hdn : (0 : ℝ) < (((n : ℤ) - dofOf npole : ℤ) : ℝ) := by
    have : (0 : ℤ) < (n : ℤ) - dofOf npole := by omega
    exact_mod_cast this
  have hchi : r.chi2 = (∑ k, ‖o.data k - m' k‖ ^ 2 / o.error k ^ 2) / (((n : ℤ) - dofOf npole : ℤ) : ℝ) := by
    have hrun : o.run pulse (some guess) none tau solve = .ok r := by
      unfold Obj.fit at hfit
      rw [Prod.mk.injEq] at hfit
      rw [← hfit.1]
      exact hfit.2
    unfold Obj.run at hrun
    split_ifs at hrun
    cases hs : o.start pulse (some guess) with
    | error e => rw [hs] at hrun; cases hrun
    | ok p0 =>
      rw [hs] at hrun
      simp only at hrun
      split_ifs at hrun
      cases hres : o.residuals p0 with
      | error e => rw [hres] at hrun; cases e <;> cases hrun
      | ok res =>
        rw [hres] at hrun
        simp only at hrun
        cases hmod' : o.model (solve p0 (Option.getD none (o.defaultBounds p0))).x with
        | error e => rw [hmod'] at hrun; cases hrun
        | ok m =>
          rw [hmod'] at hrun
          simp only [hnp, hcalc m] at hrun
          cases hrun
          have := hm'.symm.trans hmod'
          cases this
          rfl
  have herr : ¬ ∃ k, o.error k ≤ 0 := by
    intro h
    unfold Obj.residuals at hres
    rw [hm'] at hres
    simp only [if_pos h] at hres
    cases hres
  have htr : o.residuals truth = .ok (flatten (fun k => o.data k - m k) o.error) := by
    unfold Obj.residuals
    rw [hm]
    exact if_neg herr
  have hle := hmin truth _ htruth htr
  rw [hr', flatten_sq, flatten_sq] at hle
  rw [hcalc m] at hc
  cases hc
  rw [hchi]
  exact (div_le_div_iff_of_pos_right hdn).2 hle

/-! ### Two poles -/

/-- **C147.**  Traces near an exact two-pole pulse: whatever the optimiser returned within the default bounds is near the
pulse, if its `chi2` is not larger than that of the pulse. -/
theorem twopole_fit_stable {psd : ZMod n → ℝ} {fs errscale : ℝ} {tmpl : Option (List ℝ)} {pulse : ZMod n → ℝ}
    {tau : Option ℝ} {scale : Bool} {o : Obj n} (ho : o = (init psd fs tmpl).prepare pulse 2 errscale tau scale)
    (hpsd : ∀ k, k ≠ 0 → 0 < psd k) (herr : 0 < errscale) (hfs : 0 < fs) (hn : 60 < n)
    {A₀ r₀ f₀ t₀ : ℝ} (hA₀ : 0 < A₀) (hr₀ : 0 < r₀) (hf₀ : 0 < f₀)
    {A τr τf t : ℝ} (hA : Near 100 A₀ A) (hr : Near 10 r₀ τr) (hf : Near 10 f₀ τf) (ht : NearTime fs t₀ t)
    (hne : τr ≠ τf) {m : ZMod n → ℂ} (hm : o.twopole A τr τf t = .ok m)
    (hdata : ∀ k, fftR pulse k / (Real.sqrt (fs * n) : ℂ) = m k) {ε : ℝ} (hε : 0 < ε) :
    ∃ η > 0, ∀ pulse', (∀ j, |pulse' j - pulse j| < η) → ∀ x,
      Finding psd fs tmpl 2 errscale [A₀, r₀, f₀, t₀] tau scale [A, τr, τf, t] pulse' x → Close ε x [A, τr, τf, t] := by
  have hmod : ∀ pulse' a b c d, ((init psd fs tmpl).prepare pulse' 2 errscale tau scale).model [a, b, c, d] =
      ((init psd fs tmpl).prepare pulse' 2 errscale tau scale).twopole a b c d := by
    intro pulse' a b c d
    unfold Obj.model
    simp [Obj.prepare]
  obtain ⟨δ, hδ, hnear⟩ := twopole_near (o₀ := o) (s := t₀) (by subst ho; exact hfs) hn (lr := r₀ / 10) (ur := r₀ * 10)
    (lf := f₀ / 10) (uf := f₀ * 10) (by positivity) (by positivity) (lt_of_lt_of_le (by positivity) hA.1) hr hf
    (by subst ho; exact ht) hne hm hε
  obtain ⟨η, hη, hst⟩ := finding_near (guess := [A₀, r₀, f₀, t₀]) (pulse := pulse) (npole := 2) hpsd herr hfs
    (by show 4 < n; omega) (fun pulse' => by rw [hmod]; subst ho; exact hm) hdata hδ
  refine ⟨η, hη, fun pulse' hp x hx => ?_⟩
  obtain ⟨o', ho', hw, m', hm', hk⟩ := hst pulse' hp x hx
  have hofs : o'.fs = fs := by subst ho'; rfl
  rw [bounds_two (by subst ho'; rfl), hofs] at hw
  obtain ⟨a, b, c, d, rfl, ha, hb', hc, hd⟩ := within_four hw
  rw [ho', hmod, ← ho'] at hm'
  have := hnear o' a b c d m' (by subst ho ho'; rfl) (by subst ho ho'; rfl) (lt_of_lt_of_le (by positivity) ha.1) hb' hc
    (by subst ho; exact hd) hm' hk
  simp only [Close, List.forall₂_cons, List.forall₂_nil_left_iff, and_true]
  exact this

/-- **C147.**  Averages of more and more traces of the pulse with independent noise: the fits almost surely approach the
pulse. -/
theorem twopole_fit_consistent {Ω : Type*} [MeasurableSpace Ω] {μ : Measure Ω} [IsProbabilityMeasure μ]
    {noise : ℕ → Ω → ZMod n → ℝ} {R : ZMod n → ℝ} (hrun : OF.Run μ noise R)
    {psd : ZMod n → ℝ} {fs errscale : ℝ} {tmpl : Option (List ℝ)} {pulse : ZMod n → ℝ}
    {tau : Option ℝ} {scale : Bool} {o : Obj n} (ho : o = (init psd fs tmpl).prepare pulse 2 errscale tau scale)
    (hpsd : ∀ k, k ≠ 0 → 0 < psd k) (herr : 0 < errscale) (hfs : 0 < fs) (hn : 60 < n)
    {A₀ r₀ f₀ t₀ : ℝ} (hA₀ : 0 < A₀) (hr₀ : 0 < r₀) (hf₀ : 0 < f₀)
    {A τr τf t : ℝ} (hA : Near 100 A₀ A) (hr : Near 10 r₀ τr) (hf : Near 10 f₀ τf) (ht : NearTime fs t₀ t)
    (hne : τr ≠ τf) {m : ZMod n → ℂ} (hm : o.twopole A τr τf t = .ok m)
    (hdata : ∀ k, fftR pulse k / (Real.sqrt (fs * n) : ℂ) = m k) :
    ∀ᵐ ω ∂μ, ∀ ε > 0, ∀ᶠ N in atTop, ∀ x,
      Finding psd fs tmpl 2 errscale [A₀, r₀, f₀, t₀] tau scale [A, τr, τf, t] (averaged pulse (fun i => noise i ω) N) x →
      Close ε x [A, τr, τf, t] :=
  settle hrun (Q := fun ε pulse' => ∀ x, Finding psd fs tmpl 2 errscale [A₀, r₀, f₀, t₀] tau scale [A, τr, τf, t] pulse' x →
      Close ε x [A, τr, τf, t])
    fun _ hε => twopole_fit_stable ho hpsd herr hfs hn hA₀ hr₀ hf₀ hA hr hf ht hne hm hdata hε

/-- A pulse of 61 samples, with noise which disturbs one sample of every trace; and every trace has such a fit. -/
example : ∃ (pulse : ZMod 61 → ℝ) (m : ZMod 61 → ℂ) (R : ZMod 61 → ℝ),
    OF.Run (Device.rounds 61) (fun i ω => Device.jolt 61 1 (ω i)) R ∧
    ((init (fun _ => 1) 1 none).prepare pulse 2 1 none true).twopole 2 1 3 7 = .ok m ∧
    (∀ k, fftR pulse k / (Real.sqrt (1 * (61 : ℕ)) : ℂ) = m k) ∧
    Near 100 1 2 ∧ Near 10 2 1 ∧ Near 10 4 3 ∧ NearTime 1 5 7 ∧
    ∀ pulse', ∃ x, Finding (n := 61) (fun _ => 1) 1 none 2 1 [1, 2, 4, 5] none true [2, 1, 3, 7] pulse' x := by
  obtain ⟨m, hm⟩ := twopole_defined (o := (init (fun _ : ZMod 61 => 1) 1 none).prepare 0 2 1 none true) (A := 2)
    (τr := 1) (τf := 3) (t := 7) (by norm_num) (by norm_num) (by norm_num)
  obtain ⟨pulse, hp⟩ := exact_trace (by decide) (show (0 : ℝ) < 1 from one_pos) one_pos (by norm_num) hm
  refine ⟨pulse, m, _, Device.rounds_run 61 1, hm, hp, by norm_num [Near], by norm_num [Near], by norm_num [Near],
    by norm_num [NearTime], fun pulse' => ?_⟩
  have hmod : ∀ a b c d, ((init (fun _ => 1) 1 none).prepare pulse' 2 1 none true).model [a, b, c, d] =
      ((init (fun _ => 1) 1 none).prepare pulse' 2 1 none true).twopole a b c d := by
    intro a b c d
    unfold Obj.model
    simp [Obj.prepare]
  obtain ⟨m1, hm1⟩ := twopole_defined (o := (init (fun _ : ZMod 61 => 1) 1 none).prepare pulse' 2 1 none true) (A := 1)
    (τr := 2) (τf := 4) (t := 5) (by norm_num) (by norm_num) (by norm_num)
  obtain ⟨m2, hm2⟩ := twopole_defined (o := (init (fun _ : ZMod 61 => 1) 1 none).prepare pulse' 2 1 none true) (A := 2)
    (τr := 1) (τf := 3) (t := 7) (by norm_num) (by norm_num) (by norm_num)
  exact ⟨_, truth_finding (p0 := [1, 2, 4, 5]) (truth := [2, 1, 3, 7]) (fun k =>
      error_pos _ _ _ _ _ (fun _ _ => one_pos) one_pos k) (by simp) (by show 4 < 61; omega) (by unfold Obj.start; simp [Obj.prepare])
    (by
      rw [bounds_two rfl]
      refine lsqValid_of rfl rfl ?_ ?_ (by simp) <;>
      · simp only [List.zip_cons_cons, List.zip_nil_right, List.forall_mem_cons, EReal.coe_lt_coe_iff]
        norm_num [Obj.prepare, init])
    ((hmod _ _ _ _).trans hm1) ((hmod _ _ _ _).trans hm2) (by
      rw [bounds_two rfl]
      simp only [Within, List.forall₂_cons, List.forall₂_nil_left_iff, EReal.coe_le_coe_iff]
      norm_num [Obj.prepare, init])⟩

/-! ### One pole -/

/-- **C147.**  The one-pole fit, given the true rise time. -/
theorem onepole_fit_stable {psd : ZMod n → ℝ} {fs errscale : ℝ} {tmpl : Option (List ℝ)} {pulse : ZMod n → ℝ}
    {τr : ℝ} {scale : Bool} {o : Obj n} (ho : o = (init psd fs tmpl).prepare pulse 1 errscale (some τr) scale)
    (hpsd : ∀ k, k ≠ 0 → 0 < psd k) (herr : 0 < errscale) (hfs : 0 < fs) (hn : 60 < n) (hr : 0 < τr)
    {A₀ f₀ t₀ : ℝ} (hA₀ : 0 < A₀) (hf₀ : 0 < f₀) {A τf t : ℝ} (hA : Near 100 A₀ A) (hf : Near 10 f₀ τf)
    (ht : NearTime fs t₀ t) (hne : τr ≠ τf) {m : ZMod n → ℂ} (hm : o.twopole A τr τf t = .ok m)
    (hdata : ∀ k, fftR pulse k / (Real.sqrt (fs * n) : ℂ) = m k) {ε : ℝ} (hε : 0 < ε) :
    ∃ η > 0, ∀ pulse', (∀ j, |pulse' j - pulse j| < η) → ∀ x,
      Finding psd fs tmpl 1 errscale [A₀, f₀, t₀] (some τr) scale [A, τf, t] pulse' x → Close ε x [A, τf, t] := by
  have hmod : ∀ pulse' a b c, ((init psd fs tmpl).prepare pulse' 1 errscale (some τr) scale).model [a, b, c] =
      ((init psd fs tmpl).prepare pulse' 1 errscale (some τr) scale).twopole a τr b c := by
    intro pulse' a b c
    have htau : ((init psd fs tmpl).prepare pulse' 1 errscale (some τr) scale).taurise = some τr := by simp [Obj.prepare]
    rw [← onepole_eq htau]
    unfold Obj.model
    simp [Obj.prepare]
  obtain ⟨δ, hδ, hnear⟩ := twopole_near (o₀ := o) (s := t₀) (by subst ho; exact hfs) hn (lr := τr) (ur := τr)
    (lf := f₀ / 10) (uf := f₀ * 10) hr (by positivity) (lt_of_lt_of_le (by positivity) hA.1) ⟨le_rfl, le_rfl⟩ hf
    (by subst ho; exact ht) hne hm hε
  obtain ⟨η, hη, hst⟩ := finding_near (guess := [A₀, f₀, t₀]) (pulse := pulse) (npole := 1) hpsd herr hfs
    (by show 3 < n; omega) (fun pulse' => by rw [hmod]; subst ho; exact hm) hdata hδ
  refine ⟨η, hη, fun pulse' hp x hx => ?_⟩
  obtain ⟨o', ho', hw, m', hm', hk⟩ := hst pulse' hp x hx
  have hofs : o'.fs = fs := by subst ho'; rfl
  rw [bounds_one (by subst ho'; rfl), hofs] at hw
  obtain ⟨a, c, d, rfl, ha, hc, hd⟩ := within_three hw
  rw [ho', hmod, ← ho'] at hm'
  have := hnear o' a τr c d m' (by subst ho ho'; rfl) (by subst ho ho'; rfl) (lt_of_lt_of_le (by positivity) ha.1)
    ⟨le_rfl, le_rfl⟩ hc (by subst ho; exact hd) hm' hk
  simp only [Close, List.forall₂_cons, List.forall₂_nil_left_iff, and_true]
  exact ⟨this.1, this.2.2⟩

/-- **C147.**  The one-pole fit of averages. -/
theorem onepole_fit_consistent {Ω : Type*} [MeasurableSpace Ω] {μ : Measure Ω} [IsProbabilityMeasure μ]
    {noise : ℕ → Ω → ZMod n → ℝ} {R : ZMod n → ℝ} (hrun : OF.Run μ noise R)
    {psd : ZMod n → ℝ} {fs errscale : ℝ} {tmpl : Option (List ℝ)} {pulse : ZMod n → ℝ}
    {τr : ℝ} {scale : Bool} {o : Obj n} (ho : o = (init psd fs tmpl).prepare pulse 1 errscale (some τr) scale)
    (hpsd : ∀ k, k ≠ 0 → 0 < psd k) (herr : 0 < errscale) (hfs : 0 < fs) (hn : 60 < n) (hr : 0 < τr)
    {A₀ f₀ t₀ : ℝ} (hA₀ : 0 < A₀) (hf₀ : 0 < f₀) {A τf t : ℝ} (hA : Near 100 A₀ A) (hf : Near 10 f₀ τf)
    (ht : NearTime fs t₀ t) (hne : τr ≠ τf) {m : ZMod n → ℂ} (hm : o.twopole A τr τf t = .ok m)
    (hdata : ∀ k, fftR pulse k / (Real.sqrt (fs * n) : ℂ) = m k) :
    ∀ᵐ ω ∂μ, ∀ ε > 0, ∀ᶠ N in atTop, ∀ x,
      Finding psd fs tmpl 1 errscale [A₀, f₀, t₀] (some τr) scale [A, τf, t] (averaged pulse (fun i => noise i ω) N) x →
      Close ε x [A, τf, t] :=
  settle hrun (Q := fun ε pulse' => ∀ x, Finding psd fs tmpl 1 errscale [A₀, f₀, t₀] (some τr) scale [A, τf, t] pulse' x →
      Close ε x [A, τf, t])
    fun _ hε => onepole_fit_stable ho hpsd herr hfs hn hr hA₀ hf₀ hA hf ht hne hm hdata hε

/-- A pulse of 61 samples, with noise, and every trace has such a fit. -/
example : ∃ (pulse : ZMod 61 → ℝ) (m : ZMod 61 → ℂ) (R : ZMod 61 → ℝ),
    OF.Run (Device.rounds 61) (fun i ω => Device.jolt 61 1 (ω i)) R ∧
    ((init (fun _ => 1) 1 none).prepare pulse 1 1 (some 1) true).twopole 2 1 3 7 = .ok m ∧
    (∀ k, fftR pulse k / (Real.sqrt (1 * (61 : ℕ)) : ℂ) = m k) ∧ Near 100 1 2 ∧ Near 10 4 3 ∧ NearTime 1 5 7 ∧
    ∀ pulse', ∃ x, Finding (n := 61) (fun _ => 1) 1 none 1 1 [1, 4, 5] (some 1) true [2, 3, 7] pulse' x := by
  obtain ⟨m, hm⟩ := twopole_defined (o := (init (fun _ : ZMod 61 => 1) 1 none).prepare 0 1 1 (some 1) true) (A := 2)
    (τr := 1) (τf := 3) (t := 7) (by norm_num) (by norm_num) (by norm_num)
  obtain ⟨pulse, hp⟩ := exact_trace (by decide) (show (0 : ℝ) < 1 from one_pos) one_pos (by norm_num) hm
  refine ⟨pulse, m, _, Device.rounds_run 61 1, hm, hp, by norm_num [Near], by norm_num [Near],
    by norm_num [NearTime], fun pulse' => ?_⟩
  have hmod : ∀ a b c, ((init (fun _ => 1) 1 none).prepare pulse' 1 1 (some 1) true).model [a, b, c] =
      ((init (fun _ => 1) 1 none).prepare pulse' 1 1 (some 1) true).twopole a 1 b c := by
    intro a b c
    have htau : ((init (fun _ => 1) 1 none).prepare pulse' 1 1 (some 1) true).taurise = some 1 := by simp [Obj.prepare]
    rw [← onepole_eq htau]
    unfold Obj.model
    simp [Obj.prepare]
  obtain ⟨m1, hm1⟩ := twopole_defined (o := (init (fun _ : ZMod 61 => 1) 1 none).prepare pulse' 1 1 (some 1) true) (A := 1)
    (τr := 1) (τf := 4) (t := 5) (by norm_num) (by norm_num) (by norm_num)
  obtain ⟨m2, hm2⟩ := twopole_defined (o := (init (fun _ : ZMod 61 => 1) 1 none).prepare pulse' 1 1 (some 1) true) (A := 2)
    (τr := 1) (τf := 3) (t := 7) (by norm_num) (by norm_num) (by norm_num)
  exact ⟨_, truth_finding (p0 := [1, 4, 5]) (truth := [2, 3, 7]) (fun k =>
      error_pos _ _ _ _ _ (fun _ _ => one_pos) one_pos k) (by simp) (by show 3 < 61; omega)
    (by unfold Obj.start; simp [Obj.prepare])
    (by
      rw [bounds_one rfl]
      refine lsqValid_of rfl rfl ?_ ?_ (by simp) <;>
      · simp only [List.zip_cons_cons, List.zip_nil_right, List.forall_mem_cons, EReal.coe_lt_coe_iff]
        norm_num [Obj.prepare, init])
    ((hmod _ _ _).trans hm1) ((hmod _ _ _).trans hm2) (by
      rw [bounds_one rfl]
      simp only [Within, List.forall₂_cons, List.forall₂_nil_left_iff, EReal.coe_le_coe_iff]
      norm_num [Obj.prepare, init])⟩

/-! ### Three poles -/

/-- **C147.**  The three-pole fit: near the pulse, with the terms in some order. -/
theorem threepole_fit_stable
    {psd : ZMod n → ℝ} {fs errscale : ℝ} {tmpl : Option (List ℝ)} {pulse : ZMod n → ℝ}
    {tau : Option ℝ} {scale : Bool} {o : Obj n} (ho : o = (init psd fs tmpl).prepare pulse 3 errscale tau scale)
    (hpsd : ∀ k, k ≠ 0 → 0 < psd k) (herr : 0 < errscale) (hfs : 0 < fs) (hn : 60 < n) {A₀ B₀ r₀ f₁ f₂ t₀ : ℝ}
    (hA₀ : 0 < A₀) (hB₀ : 0 < B₀) (hr₀ : 0 < r₀) (hf₁ : 0 < f₁) (hf₂ : 0 < f₂)
    {A B τr τ1 τ2 t : ℝ} (hA : Near 100 A₀ A) (hB : Near 100 B₀ B) (hr : Near 10 r₀ τr) (h1 : Near 10 f₁ τ1) (h2 : Near 10 f₂ τ2)
    (ht : NearTime fs t₀ t) (hd : [τ1, τ2, τr].Nodup)
    (hdata : ∀ k, fftR pulse k / (Real.sqrt (fs * n) : ℂ) = o.threepole A B τr τ1 τ2 t k) {ε : ℝ} (hε : 0 < ε) :
    ∃ η > 0, ∀ pulse', (∀ j, |pulse' j - pulse j| < η) → ∀ x,
      Finding psd fs tmpl 3 errscale [A₀, B₀, r₀, f₁, f₂, t₀] tau scale [A, B, τr, τ1, τ2, t] pulse' x →
      ∃ a b c d, [(a, c), (b, d)].Perm [(A, τ1), (B, τ2)] ∧ Close ε x [a, b, τr, c, d, t] := by
  have hmod : ∀ pulse' x0 x1 x2 x3 x4 x5, ((init psd fs tmpl).prepare pulse' 3 errscale tau scale).model
      [x0, x1, x2, x3, x4, x5] = .ok (((init psd fs tmpl).prepare pulse' 3 errscale tau scale).threepole x0 x1 x2 x3 x4 x5) := by
    intros
    unfold Obj.model
    simp [Obj.prepare]
  obtain ⟨δ, hδ, hnear⟩ := threepole_near (o₀ := o) (s := t₀) (by subst ho; exact hfs) hn
    (lo := ![A₀ / 100, B₀ / 100, r₀ / 10, f₁ / 10, f₂ / 10, t₀ - 30 / fs])
    (hi := ![A₀ * 100, B₀ * 100, r₀ * 10, f₁ * 10, f₂ * 10, t₀ + 30 / fs])
    (by intro i; fin_cases i <;> simp <;> assumption) (by subst ho; simp [init, Obj.prepare])
    (by subst ho; simp [init, Obj.prepare])
    (lt_of_lt_of_le (by positivity) hA.1) (lt_of_lt_of_le (by positivity) hB.1)
    (lt_of_lt_of_le (by positivity) hr.1) (lt_of_lt_of_le (by positivity) h1.1) (lt_of_lt_of_le (by positivity) h2.1)
    (by subst ho; exact ht) hd hε
  obtain ⟨η, hη, hst⟩ := finding_near (guess := [A₀, B₀, r₀, f₁, f₂, t₀]) (truth := [A, B, τr, τ1, τ2, t]) (pulse := pulse) (npole := 3) (tau := tau)
    (scale := scale) (tmpl := tmpl) hpsd herr hfs (by show 6 < n; omega) (fun pulse' => by subst ho; exact hmod pulse' _ _ _ _ _ _)
    (m₀ := o.threepole A B τr τ1 τ2 t) hdata hδ
  refine ⟨η, hη, fun pulse' hp x hx => ?_⟩
  obtain ⟨o', ho', hw, m', hm', hk⟩ := hst pulse' hp x hx
  have hofs : o'.fs = fs := by subst ho'; rfl
  rw [bounds_three (by subst ho'; rfl), hofs] at hw
  obtain ⟨x0, x1, x2, x3, x4, x5, rfl, g0, g1, g2, g3, g4, g5⟩ := within_six hw
  rw [ho', hmod, ← ho'] at hm'
  cases hm'
  obtain ⟨a, b, c, d, hperm, hdist⟩ := hnear o' ![x0, x1, x2, x3, x4, x5] (by subst ho ho'; rfl)
    (by constructor <;> intro i <;> fin_cases i <;> simp <;> first | tauto | linarith [g5.1]) hk
  refine ⟨a, b, c, d, hperm, ?_⟩
  rw [dist_pi_lt_iff hε] at hdist
  simp only [Close, List.forall₂_cons, List.forall₂_nil_left_iff, and_true]
  simp only [Real.dist_eq] at hdist
  exact ⟨hdist 0, hdist 1, hdist 2, hdist 3, hdist 4, hdist 5⟩

/-- **C147.**  The three-pole fit of averages. -/
theorem threepole_fit_consistent {Ω : Type*} [MeasurableSpace Ω] {μ : Measure Ω} [IsProbabilityMeasure μ]
    {noise : ℕ → Ω → ZMod n → ℝ} {R : ZMod n → ℝ} (hrun : OF.Run μ noise R)
    {psd : ZMod n → ℝ} {fs errscale : ℝ} {tmpl : Option (List ℝ)} {pulse : ZMod n → ℝ}
    {tau : Option ℝ} {scale : Bool} {o : Obj n} (ho : o = (init psd fs tmpl).prepare pulse 3 errscale tau scale)
    (hpsd : ∀ k, k ≠ 0 → 0 < psd k) (herr : 0 < errscale) (hfs : 0 < fs) (hn : 60 < n) {A₀ B₀ r₀ f₁ f₂ t₀ : ℝ}
    (hA₀ : 0 < A₀) (hB₀ : 0 < B₀) (hr₀ : 0 < r₀) (hf₁ : 0 < f₁) (hf₂ : 0 < f₂)
    {A B τr τ1 τ2 t : ℝ} (hA : Near 100 A₀ A) (hB : Near 100 B₀ B) (hr : Near 10 r₀ τr) (h1 : Near 10 f₁ τ1) (h2 : Near 10 f₂ τ2)
    (ht : NearTime fs t₀ t) (hd : [τ1, τ2, τr].Nodup)
    (hdata : ∀ k, fftR pulse k / (Real.sqrt (fs * n) : ℂ) = o.threepole A B τr τ1 τ2 t k) :
    ∀ᵐ ω ∂μ, ∀ ε > 0, ∀ᶠ N in atTop, ∀ x,
      Finding psd fs tmpl 3 errscale [A₀, B₀, r₀, f₁, f₂, t₀] tau scale [A, B, τr, τ1, τ2, t]
        (averaged pulse (fun i => noise i ω) N) x →
      ∃ a b c d, [(a, c), (b, d)].Perm [(A, τ1), (B, τ2)] ∧ Close ε x [a, b, τr, c, d, t] :=
  settle hrun (Q := fun ε pulse' => ∀ x,
      Finding psd fs tmpl 3 errscale [A₀, B₀, r₀, f₁, f₂, t₀] tau scale [A, B, τr, τ1, τ2, t] pulse' x →
      ∃ a b c d, [(a, c), (b, d)].Perm [(A, τ1), (B, τ2)] ∧ Close ε x [a, b, τr, c, d, t])
    fun _ hε => threepole_fit_stable ho hpsd herr hfs hn hA₀ hB₀ hr₀ hf₁ hf₂
      hA hB hr h1 h2 ht hd hdata hε

/-- A pulse of 61 samples, with noise, and every trace has such a fit. -/
example : ∃ (pulse : ZMod 61 → ℝ) (R : ZMod 61 → ℝ), OF.Run (Device.rounds 61) (fun i ω => Device.jolt 61 1 (ω i)) R ∧
    (∀ k, fftR pulse k / (Real.sqrt (1 * (61 : ℕ)) : ℂ) =
      ((init (fun _ => 1) 1 none).prepare pulse 3 1 none true).threepole 2 1 1 3 4 7 k) ∧
    [(3 : ℝ), 4, 1].Nodup ∧
    (Near 100 1 2 ∧ Near 100 1 1 ∧ Near 10 2 1 ∧ Near 10 4 3 ∧ Near 10 5 4 ∧ NearTime 1 5 7) ∧
    ∀ pulse', ∃ x, Finding (n := 61) (fun _ => 1) 1 none 3 1 [1, 1, 2, 4, 5, 5] none true [2, 1, 1, 3, 4, 7] pulse' x := by
  obtain ⟨pulse, hp⟩ := trace_of_herm (show (0 : ℝ) < 1 from one_pos) (threepole_herm
    (o := (init (fun _ : ZMod 61 => 1) 1 none).prepare 0 3 1 none true) (by decide) 2 1 1 3 4 7)
  refine ⟨pulse, _, Device.rounds_run 61 1, hp, by norm_num, by norm_num [Near, NearTime], fun pulse' => ?_⟩
  have hmod : ∀ x0 x1 x2 x3 x4 x5, ((init (fun _ => 1) 1 none).prepare pulse' 3 1 none true).model
      [x0, x1, x2, x3, x4, x5] = .ok (((init (fun _ => 1) 1 none).prepare pulse' 3 1 none true).threepole x0 x1 x2 x3 x4 x5) := by
    intros
    unfold Obj.model
    simp [Obj.prepare]
  exact ⟨_, truth_finding (p0 := [1, 1, 2, 4, 5, 5]) (truth := [2, 1, 1, 3, 4, 7]) (fun k =>
      error_pos _ _ _ _ _ (fun _ _ => one_pos) one_pos k) (by simp) (by show 6 < 61; omega)
    (by unfold Obj.start; simp [Obj.prepare])
    (by
      rw [bounds_three rfl]
      refine lsqValid_of rfl rfl ?_ ?_ (by simp) <;>
      · simp only [List.zip_cons_cons, List.zip_nil_right, List.forall_mem_cons, EReal.coe_lt_coe_iff]
        norm_num [Obj.prepare, init])
    (hmod _ _ _ _ _ _) (hmod _ _ _ _ _ _) (by
      rw [bounds_three rfl]
      simp only [Within, List.forall₂_cons, List.forall₂_nil_left_iff, EReal.coe_le_coe_iff]
      norm_num [Obj.prepare, init])⟩

/-! ### Four poles -/

/-- **C147.**  The four-pole fit: near the pulse, with the terms in some order. -/
theorem fourpole_fit_stable
    {psd : ZMod n → ℝ} {fs errscale : ℝ} {tmpl : Option (List ℝ)} {pulse : ZMod n → ℝ}
    {tau : Option ℝ} {scale : Bool} {o : Obj n} (ho : o = (init psd fs tmpl).prepare pulse 4 errscale tau scale)
    (hpsd : ∀ k, k ≠ 0 → 0 < psd k) (herr : 0 < errscale) (hfs : 0 < fs) (hn : 60 < n) {A₀ B₀ C₀ r₀ f₁ f₂ f₃ t₀ : ℝ}
    (hA₀ : 0 < A₀) (hB₀ : 0 < B₀) (hC₀ : 0 < C₀) (hr₀ : 0 < r₀) (hf₁ : 0 < f₁) (hf₂ : 0 < f₂) (hf₃ : 0 < f₃)
    {A B C τr τ1 τ2 τ3 t : ℝ} (hA : Near 100 A₀ A) (hB : Near 100 B₀ B) (hC : Near 100 C₀ C) (hr : Near 10 r₀ τr) (h1 : Near 10 f₁ τ1) (h2 : Near 10 f₂ τ2) (h3 : Near 10 f₃ τ3)
    (ht : NearTime fs t₀ t) (hd : [τ1, τ2, τ3, τr].Nodup)
    (hdata : ∀ k, fftR pulse k / (Real.sqrt (fs * n) : ℂ) = o.fourpole A B C τr τ1 τ2 τ3 t k) {ε : ℝ} (hε : 0 < ε) :
    ∃ η > 0, ∀ pulse', (∀ j, |pulse' j - pulse j| < η) → ∀ x,
      Finding psd fs tmpl 4 errscale [A₀, B₀, C₀, r₀, f₁, f₂, f₃, t₀] tau scale [A, B, C, τr, τ1, τ2, τ3, t] pulse' x →
      ∃ a b c d e f, [(a, d), (b, e), (c, f)].Perm [(A, τ1), (B, τ2), (C, τ3)] ∧ Close ε x [a, b, c, τr, d, e, f, t] := by
  have hmod : ∀ pulse' x0 x1 x2 x3 x4 x5 x6 x7, ((init psd fs tmpl).prepare pulse' 4 errscale tau scale).model
      [x0, x1, x2, x3, x4, x5, x6, x7] = .ok (((init psd fs tmpl).prepare pulse' 4 errscale tau scale).fourpole x0 x1 x2 x3 x4 x5 x6 x7) := by
    intros
    unfold Obj.model
    simp [Obj.prepare]
  obtain ⟨δ, hδ, hnear⟩ := fourpole_near (o₀ := o) (s := t₀) (by subst ho; exact hfs) hn
    (lo := ![A₀ / 100, B₀ / 100, C₀ / 100, r₀ / 10, f₁ / 10, f₂ / 10, f₃ / 10, t₀ - 30 / fs])
    (hi := ![A₀ * 100, B₀ * 100, C₀ * 100, r₀ * 10, f₁ * 10, f₂ * 10, f₃ * 10, t₀ + 30 / fs])
    (by intro i; fin_cases i <;> simp <;> assumption) (by subst ho; simp [init, Obj.prepare])
    (by subst ho; simp [init, Obj.prepare])
    (lt_of_lt_of_le (by positivity) hA.1) (lt_of_lt_of_le (by positivity) hB.1) (lt_of_lt_of_le (by positivity) hC.1)
    (lt_of_lt_of_le (by positivity) hr.1) (lt_of_lt_of_le (by positivity) h1.1) (lt_of_lt_of_le (by positivity) h2.1) (lt_of_lt_of_le (by positivity) h3.1)
    (by subst ho; exact ht) hd hε
  obtain ⟨η, hη, hst⟩ := finding_near (guess := [A₀, B₀, C₀, r₀, f₁, f₂, f₃, t₀]) (truth := [A, B, C, τr, τ1, τ2, τ3, t]) (pulse := pulse) (npole := 4) (tau := tau)
    (scale := scale) (tmpl := tmpl) hpsd herr hfs (by show 8 < n; omega) (fun pulse' => by subst ho; exact hmod pulse' _ _ _ _ _ _ _ _)
    (m₀ := o.fourpole A B C τr τ1 τ2 τ3 t) hdata hδ
  refine ⟨η, hη, fun pulse' hp x hx => ?_⟩
  obtain ⟨o', ho', hw, m', hm', hk⟩ := hst pulse' hp x hx
  have hofs : o'.fs = fs := by subst ho'; rfl
  rw [bounds_four (by subst ho'; rfl), hofs] at hw
  obtain ⟨x0, x1, x2, x3, x4, x5, x6, x7, rfl, g0, g1, g2, g3, g4, g5, g6, g7⟩ := within_eight hw
  rw [ho', hmod, ← ho'] at hm'
  cases hm'
  obtain ⟨a, b, c, d, e, f, hperm, hdist⟩ := hnear o' ![x0, x1, x2, x3, x4, x5, x6, x7] (by subst ho ho'; rfl)
    (by constructor <;> intro i <;> fin_cases i <;> simp <;> first | tauto | linarith [g7.1]) hk
  refine ⟨a, b, c, d, e, f, hperm, ?_⟩
  rw [dist_pi_lt_iff hε] at hdist
  simp only [Close, List.forall₂_cons, List.forall₂_nil_left_iff, and_true]
  simp only [Real.dist_eq] at hdist
  exact ⟨hdist 0, hdist 1, hdist 2, hdist 3, hdist 4, hdist 5, hdist 6, hdist 7⟩

/-- **C147.**  The four-pole fit of averages. -/
theorem fourpole_fit_consistent {Ω : Type*} [MeasurableSpace Ω] {μ : Measure Ω} [IsProbabilityMeasure μ]
    {noise : ℕ → Ω → ZMod n → ℝ} {R : ZMod n → ℝ} (hrun : OF.Run μ noise R)
    {psd : ZMod n → ℝ} {fs errscale : ℝ} {tmpl : Option (List ℝ)} {pulse : ZMod n → ℝ}
    {tau : Option ℝ} {scale : Bool} {o : Obj n} (ho : o = (init psd fs tmpl).prepare pulse 4 errscale tau scale)
    (hpsd : ∀ k, k ≠ 0 → 0 < psd k) (herr : 0 < errscale) (hfs : 0 < fs) (hn : 60 < n) {A₀ B₀ C₀ r₀ f₁ f₂ f₃ t₀ : ℝ}
    (hA₀ : 0 < A₀) (hB₀ : 0 < B₀) (hC₀ : 0 < C₀) (hr₀ : 0 < r₀) (hf₁ : 0 < f₁) (hf₂ : 0 < f₂) (hf₃ : 0 < f₃)
    {A B C τr τ1 τ2 τ3 t : ℝ} (hA : Near 100 A₀ A) (hB : Near 100 B₀ B) (hC : Near 100 C₀ C) (hr : Near 10 r₀ τr) (h1 : Near 10 f₁ τ1) (h2 : Near 10 f₂ τ2) (h3 : Near 10 f₃ τ3)
    (ht : NearTime fs t₀ t) (hd : [τ1, τ2, τ3, τr].Nodup)
    (hdata : ∀ k, fftR pulse k / (Real.sqrt (fs * n) : ℂ) = o.fourpole A B C τr τ1 τ2 τ3 t k) :
    ∀ᵐ ω ∂μ, ∀ ε > 0, ∀ᶠ N in atTop, ∀ x,
      Finding psd fs tmpl 4 errscale [A₀, B₀, C₀, r₀, f₁, f₂, f₃, t₀] tau scale [A, B, C, τr, τ1, τ2, τ3, t]
        (averaged pulse (fun i => noise i ω) N) x →
      ∃ a b c d e f, [(a, d), (b, e), (c, f)].Perm [(A, τ1), (B, τ2), (C, τ3)] ∧ Close ε x [a, b, c, τr, d, e, f, t] :=
  settle hrun (Q := fun ε pulse' => ∀ x,
      Finding psd fs tmpl 4 errscale [A₀, B₀, C₀, r₀, f₁, f₂, f₃, t₀] tau scale [A, B, C, τr, τ1, τ2, τ3, t] pulse' x →
      ∃ a b c d e f, [(a, d), (b, e), (c, f)].Perm [(A, τ1), (B, τ2), (C, τ3)] ∧ Close ε x [a, b, c, τr, d, e, f, t])
    fun _ hε => fourpole_fit_stable ho hpsd herr hfs hn hA₀ hB₀ hC₀ hr₀ hf₁ hf₂ hf₃
      hA hB hC hr h1 h2 h3 ht hd hdata hε

/-- A pulse of 61 samples, with noise, and every trace has such a fit. -/
example : ∃ (pulse : ZMod 61 → ℝ) (R : ZMod 61 → ℝ), OF.Run (Device.rounds 61) (fun i ω => Device.jolt 61 1 (ω i)) R ∧
    (∀ k, fftR pulse k / (Real.sqrt (1 * (61 : ℕ)) : ℂ) =
      ((init (fun _ => 1) 1 none).prepare pulse 4 1 none true).fourpole 2 1 3 1 3 4 5 7 k) ∧
    [(3 : ℝ), 4, 5, 1].Nodup ∧
    (Near 100 1 2 ∧ Near 100 1 1 ∧ Near 100 1 3 ∧ Near 10 2 1 ∧ Near 10 4 3 ∧ Near 10 5 4 ∧ Near 10 5 5 ∧ NearTime 1 5 7) ∧
    ∀ pulse', ∃ x, Finding (n := 61) (fun _ => 1) 1 none 4 1 [1, 1, 1, 2, 4, 5, 5, 5] none true [2, 1, 3, 1, 3, 4, 5, 7] pulse' x := by
  obtain ⟨pulse, hp⟩ := trace_of_herm (show (0 : ℝ) < 1 from one_pos) (fourpole_herm
    (o := (init (fun _ : ZMod 61 => 1) 1 none).prepare 0 4 1 none true) (by decide) 2 1 3 1 3 4 5 7)
  refine ⟨pulse, _, Device.rounds_run 61 1, hp, by norm_num, by norm_num [Near, NearTime], fun pulse' => ?_⟩
  have hmod : ∀ x0 x1 x2 x3 x4 x5 x6 x7, ((init (fun _ => 1) 1 none).prepare pulse' 4 1 none true).model
      [x0, x1, x2, x3, x4, x5, x6, x7] = .ok (((init (fun _ => 1) 1 none).prepare pulse' 4 1 none true).fourpole x0 x1 x2 x3 x4 x5 x6 x7) := by
    intros
    unfold Obj.model
    simp [Obj.prepare]
  exact ⟨_, truth_finding (p0 := [1, 1, 1, 2, 4, 5, 5, 5]) (truth := [2, 1, 3, 1, 3, 4, 5, 7]) (fun k =>
      error_pos _ _ _ _ _ (fun _ _ => one_pos) one_pos k) (by simp) (by show 8 < 61; omega)
    (by unfold Obj.start; simp [Obj.prepare])
    (by
      rw [bounds_four rfl]
      refine lsqValid_of rfl rfl ?_ ?_ (by simp) <;>
      · simp only [List.zip_cons_cons, List.zip_nil_right, List.forall_mem_cons, EReal.coe_lt_coe_iff]
        norm_num [Obj.prepare, init])
    (hmod _ _ _ _ _ _ _ _) (hmod _ _ _ _ _ _ _ _) (by
      rw [bounds_four rfl]
      simp only [Within, List.forall₂_cons, List.forall₂_nil_left_iff, EReal.coe_le_coe_iff]
      norm_num [Obj.prepare, init])⟩

/-! ### The muon tail -/

/-- **C147.**  Traces near an exact muon tail: whatever the optimiser returned is near the tail, if its `chi2` is not
larger than that of the tail. -/
theorem muon_fit_stable {psd : ZMod n → ℝ} {fs errscale : ℝ} {signal : ZMod n → ℝ} (hpsd : ∀ k, 0 < psd k)
    (herr : 0 < errscale) (hfs : 0 < fs) (hn : 2 ≤ n) {A τ : ℝ} (hA : 0 < A) (hτ : 0 < τ)
    (hdata : ∀ k, fftR signal k / (Real.sqrt (fs * n) : ℂ) = (Muon.prepare psd fs signal errscale).fcn A τ k)
    {ε : ℝ} (hε : 0 < ε) :
    ∃ η > 0, ∀ signal', (∀ j, |signal' j - signal j| < η) → ∀ x, MuonFinding psd fs errscale A τ signal' x →
      Close ε x [A, τ] := by
  obtain ⟨δ, hδ, hnear⟩ := muon_near (o₀ := Muon.prepare psd fs signal errscale) hfs hn hA hτ hε
  obtain ⟨η, hη, hmod⟩ := model_near (e := fun k => Real.sqrt (psd k / errscale))
    (fun k => Real.sqrt_pos.2 (div_pos (hpsd k) herr)) hδ
  obtain ⟨ζ, hζ, hfft⟩ := data_near (n := n) hfs hη
  refine ⟨ζ, hζ, ?_⟩
  rintro signal' hp x ⟨solve, r, hfit, rfl, hchi⟩
  unfold muonFit at hfit
  simp only at hfit
  cases htau : muonTau fs signal' with
  | error e => rw [htau] at hfit; cases hfit
  | ok tau =>
    rw [htau] at hfit
    simp only at hfit
    split_ifs at hfit
    split at hfit
    · rename_i A' τ' hx
      cases hfit
      simp only at hchi ⊢
      rw [hx]
      have := hnear (Muon.prepare psd fs signal' errscale) A' τ' rfl
        (hmod (Muon.prepare psd fs signal' errscale).data _ _ (fun k => by
          rw [← hdata k]; exact hfft signal' signal hp k) hchi)
      simp only [Close, List.forall₂_cons, List.forall₂_nil_left_iff, and_true]
      exact this
    · cases hfit

/-- **C147.**  The muon-tail fit of averages. -/
theorem muon_fit_consistent {Ω : Type*} [MeasurableSpace Ω] {μ : Measure Ω} [IsProbabilityMeasure μ]
    {noise : ℕ → Ω → ZMod n → ℝ} {R : ZMod n → ℝ} (hrun : OF.Run μ noise R)
    {psd : ZMod n → ℝ} {fs errscale : ℝ} {signal : ZMod n → ℝ} (hpsd : ∀ k, 0 < psd k)
    (herr : 0 < errscale) (hfs : 0 < fs) (hn : 2 ≤ n) {A τ : ℝ} (hA : 0 < A) (hτ : 0 < τ)
    (hdata : ∀ k, fftR signal k / (Real.sqrt (fs * n) : ℂ) = (Muon.prepare psd fs signal errscale).fcn A τ k) :
    ∀ᵐ ω ∂μ, ∀ ε > 0, ∀ᶠ N in atTop, ∀ x,
      MuonFinding psd fs errscale A τ (averaged signal (fun i => noise i ω) N) x → Close ε x [A, τ] :=
  settle hrun (Q := fun ε signal' => ∀ x, MuonFinding psd fs errscale A τ signal' x → Close ε x [A, τ])
    fun _ hε => muon_fit_stable hpsd herr hfs hn hA hτ hdata hε

/-- A trace of three samples with noise, and a fit which is no worse than the truth. -/
example : ∃ (R : ZMod 3 → ℝ) (x : List ℝ), OF.Run (Device.rounds 3) (fun i ω => Device.jolt 3 1 (ω i)) R ∧
    (∀ k, fftR exMuon k / (Real.sqrt (3 / (2 * Real.pi) * (3 : ℕ)) : ℂ) =
      (Muon.prepare (fun _ => 1) (3 / (2 * Real.pi)) exMuon 1).fcn (4 * Real.pi / (3 * Real.sqrt 3)) (Real.sqrt 3) k) ∧
    MuonFinding (fun _ => 1) (3 / (2 * Real.pi)) 1 (4 * Real.pi / (3 * Real.sqrt 3)) (Real.sqrt 3) exMuon x := by
  obtain ⟨tau, solve, h1, h2, h3, h4, h5⟩ := exMuon_fit
  have hpi := Real.pi_pos
  obtain ⟨r, hr, -, hc⟩ := muon_fit_recovers (psd := fun _ => 1) (fun _ => one_pos) one_pos (by positivity) (by norm_num)
    (A := 4 * Real.pi / (3 * Real.sqrt 3)) (τ := Real.sqrt 3) (by positivity) (by positivity) h1 h2 h3 h4 h5
  refine ⟨_, r.lsq.x, Device.rounds_run 3 1, h4, solve, r, hr, rfl, ?_⟩
  rw [hc]
  exact Finset.sum_nonneg fun k _ => by positivity

end Verif.NonLin
