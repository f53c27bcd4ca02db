import Verif.NonLinRecProps
import Verif.OFLimitLemmas
import Verif.NonLinLimitSpec

/-! Lemmas for property C147: near data give near parameters. -/

namespace Verif.NonLin
open Verif Verif.Dft Filter Topology MeasureTheory ProbabilityTheory

/-- On a compact set, points whose image is near a value lie in any neighbourhood of the points with that image. -/
theorem compact_stable {X Y : Type*} [TopologicalSpace X] [MetricSpace Y] {K S : Set X} (hK : IsCompact K) (hS : IsOpen S)
    {F : X → Y} (hF : ContinuousOn F K) {y : Y} (h : ∀ x ∈ K, F x = y → x ∈ S) :
    ∃ δ > 0, ∀ x ∈ K, dist (F x) y < δ → x ∈ S := by
  have hc : IsCompact (K \ S) := hK.diff hS
  rcases (K \ S).eq_empty_or_nonempty with h0 | h0
  · refine ⟨1, one_pos, fun x hx _ => ?_⟩
    by_contra hn
    exact (h0 ▸ (⟨hx, hn⟩ : x ∈ K \ S) : x ∈ (∅ : Set X))
  · have hcd : ContinuousOn (fun x => dist (F x) y) (K \ S) := fun x hx =>
      ((hF x hx.1).mono Set.sdiff_subset).dist continuousWithinAt_const
    obtain ⟨x0, hx0, hmin⟩ := hc.exists_isMinOn h0 hcd
    refine ⟨dist (F x0) y, dist_pos.2 fun e => hx0.2 (h x0 hx0.1 e), fun x hx hd => ?_⟩
    by_contra hn
    exact absurd hd (not_lt.2 (hmin (⟨hx, hn⟩ : x ∈ K \ S)))

theorem one_add_ne (ω τ : ℝ) : (1 + ω * τ * Complex.I : ℂ) ≠ 0 := fun h => by
  have := congrArg Complex.re h
  simp at this

/-- The weight of the amplitude is continuous where the times differ. -/
theorem weight_continuousAt (scale : Bool) {τr τf : ℝ} (hr : 0 < τr) (hf : 0 < τf) (hne : τr ≠ τf) :
    ContinuousAt (fun p : ℝ × ℝ => weight scale p.1 p.2) (τr, τf) := by
  have key : ∀ {a b : ℝ}, 0 < a → a < b → ContinuousAt (fun p : ℝ × ℝ =>
      (p.2 - p.1) / ((p.1 / p.2) ^ (p.1 / (p.2 - p.1)) - (p.1 / p.2) ^ (p.2 / (p.2 - p.1)))) (a, b) := by
    intro a b ha hab
    have hb : b ≠ 0 := (ha.trans hab).ne'
    have hd : b - a ≠ 0 := (sub_pos.2 hab).ne'
    have hq : ContinuousAt (fun p : ℝ × ℝ => p.1 / p.2) (a, b) := continuousAt_fst.div continuousAt_snd hb
    have hs : ContinuousAt (fun p : ℝ × ℝ => p.2 - p.1) (a, b) := continuousAt_snd.sub continuousAt_fst
    have hpos : a / b ≠ 0 := div_ne_zero ha.ne' hb
    exact hs.div ((hq.rpow (continuousAt_fst.div hs hd) (.inl hpos)).sub
      (hq.rpow (continuousAt_snd.div hs hd) (.inl hpos))) (diff_exp_pos ha hab).ne'
  cases scale
  · have e : (fun p : ℝ × ℝ => weight false p.1 p.2) = fun p => p.2 - p.1 := by
      funext p
      simp [weight]
    rw [e]
    exact continuousAt_snd.sub continuousAt_fst
  rcases lt_or_gt_of_ne hne with h | h
  · have ho : ∀ᶠ p : ℝ × ℝ in 𝓝 (τr, τf), p.1 < p.2 := (isOpen_lt continuous_fst continuous_snd).mem_nhds h
    refine (key hr h).congr (ho.mono fun p hp => ?_)
    simp [weight, hp]
  · have ho : ∀ᶠ p : ℝ × ℝ in 𝓝 (τr, τf), p.2 < p.1 := (isOpen_lt continuous_snd continuous_fst).mem_nhds h
    have hsw : ContinuousAt (fun p : ℝ × ℝ => (p.2, p.1)) (τr, τf) := continuousAt_snd.prodMk continuousAt_fst
    have h2 := (ContinuousAt.comp (f := fun p : ℝ × ℝ => (p.2, p.1)) (x := (τr, τf)) (key hf h) hsw).neg
    refine h2.congr (ho.mono fun p hp => ?_)
    simp [weight, not_lt.2 hp.le]

variable {n : ℕ} [NeZero n]

/-- A two-pole spectrum in every bin. -/
noncomputable def spec2 (n : ℕ) [NeZero n] (fs : ℝ) (p : ℝ × ℝ × ℝ × ℝ) (k : ZMod n) : ℂ :=
  twoSpec p.1 p.2.1 p.2.2.1 p.2.2.2 (2 * Real.pi * fftfreq fs k) * Real.sqrt (fs / n)

theorem spec2_continuous (fs : ℝ) : Continuous (spec2 n fs) := by
  refine continuous_pi fun k => ?_
  unfold spec2 twoSpec
  refine Continuous.mul (Continuous.mul (Continuous.div (Continuous.div (by fun_prop) (by fun_prop) fun p => ?_) (by fun_prop)
    fun p => ?_) (by fun_prop)) continuous_const
  · exact_mod_cast one_add_ne _ _
  · exact_mod_cast one_add_ne _ _

/-- Two-pole pulses with positive amplitude whose spectra are near have near parameters, uniformly in bounds. -/
theorem twopole_near {o₀ : Obj n} (hfs : 0 < o₀.fs) (hn : 60 < n) {A τr τf t lr ur lf uf s : ℝ} (hlr : 0 < lr) (hlf : 0 < lf)
    (hA : 0 < A) (hr : lr ≤ τr ∧ τr ≤ ur) (hf : lf ≤ τf ∧ τf ≤ uf) (ht : s - 30 / o₀.fs ≤ t ∧ t ≤ s + 30 / o₀.fs)
    (hne : τr ≠ τf) {m : ZMod n → ℂ} (hm : o₀.twopole A τr τf t = .ok m) {ε : ℝ} (hε : 0 < ε) :
    ∃ δ > 0, ∀ (o : Obj n) (A' τr' τf' t' : ℝ) (m' : ZMod n → ℂ), o.fs = o₀.fs → o.scale = o₀.scale →
      0 < A' → (lr ≤ τr' ∧ τr' ≤ ur) → (lf ≤ τf' ∧ τf' ≤ uf) → (s - 30 / o₀.fs ≤ t' ∧ t' ≤ s + 30 / o₀.fs) →
      o.twopole A' τr' τf' t' = .ok m' → (∀ k, ‖m' k - m k‖ < δ) →
      |A' - A| < ε ∧ |τr' - τr| < ε ∧ |τf' - τf| < ε ∧ |t' - t| < ε := by
  have hrp : 0 < τr := hlr.trans_le hr.1
  have hfp : 0 < τf := hlf.trans_le hf.1
  have hn0 : 0 < (n : ℝ) := by exact_mod_cast NeZero.pos n
  have hpi := Real.pi_pos
  set w := weight o₀.scale with hw
  have hsign : ∀ {a b : ℝ}, 0 < a → 0 < b → a ≠ b → 0 < w a b * (b - a) := by
    intro a b ha hb hab
    rcases lt_or_gt_of_ne hab with h | h
    · exact mul_pos (weight_pos _ ha h) (sub_pos.2 h)
    · exact mul_pos_of_neg_of_neg (weight_neg _ hb h) (sub_neg.2 h)
  have hw0 : ∀ {a b : ℝ}, 0 < a → 0 < b → a ≠ b → w a b ≠ 0 := fun ha hb hab h0 => by
    have := hsign ha hb hab
    rw [h0, zero_mul] at this
    exact lt_irrefl _ this
  have hmF : ∀ (o : Obj n) (A' τr' τf' t' : ℝ) (m' : ZMod n → ℂ), o.fs = o₀.fs → o.scale = o₀.scale → 0 < τr' → 0 < τf' →
      o.twopole A' τr' τf' t' = .ok m' → m' = spec2 n o₀.fs (A' * w τr' τf', τr', τf', t') := by
    intro o A' τr' τf' t' m' e1 e2 h1 h2 h
    funext k
    rw [twopole_spec h1 h2 h, e2]
    unfold spec2 Obj.omega Obj.df
    rw [e1]
  set y := spec2 n o₀.fs (A * w τr τf, τr, τf, t) with hy
  have hmy : m = y := hmF o₀ A τr τf t m rfl rfl hrp hfp hm
  -- a bound on the numerator
  set ω1 := 2 * Real.pi * fftfreq o₀.fs (1 : ZMod n) with hω1
  set c := Real.sqrt (o₀.fs / n) with hc
  have hcp : 0 < c := Real.sqrt_pos.2 (by positivity)
  set N := (‖y 1‖ + 1) / c with hN
  set M := N ^ 2 * ((1 + ω1 ^ 2 * uf ^ 2) * (1 + ω1 ^ 2 * ur ^ 2)) + 1 with hM
  let K : Set (ℝ × ℝ × ℝ × ℝ) :=
    Set.Icc (-M) M ×ˢ Set.Icc lr ur ×ˢ Set.Icc lf uf ×ˢ Set.Icc (s - 30 / o₀.fs) (s + 30 / o₀.fs)
  have hK : IsCompact K := isCompact_Icc.prod (isCompact_Icc.prod (isCompact_Icc.prod isCompact_Icc))
  have hcont : ContinuousAt (fun p : ℝ × ℝ × ℝ × ℝ => p.1 / w p.2.1 p.2.2.1) (A * w τr τf, τr, τf, t) := by
    refine continuousAt_fst.div ?_ (hw0 hrp hfp hne)
    have hpr : ContinuousAt (fun p : ℝ × ℝ × ℝ × ℝ => (p.2.1, p.2.2.1)) (A * w τr τf, τr, τf, t) := by fun_prop
    exact ContinuousAt.comp (f := fun p : ℝ × ℝ × ℝ × ℝ => (p.2.1, p.2.2.1)) (x := (A * w τr τf, τr, τf, t))
      (weight_continuousAt o₀.scale hrp hfp hne) hpr
  have hev : ∀ᶠ p : ℝ × ℝ × ℝ × ℝ in 𝓝 (A * w τr τf, τr, τf, t),
      |p.1 / w p.2.1 p.2.2.1 - A| < ε ∧ |p.2.1 - τr| < ε ∧ |p.2.2.1 - τf| < ε ∧ |p.2.2.2 - t| < ε ∧ p.2.1 ≠ p.2.2.1 := by
    have h1 : ∀ᶠ p : ℝ × ℝ × ℝ × ℝ in 𝓝 (A * w τr τf, τr, τf, t), |p.1 / w p.2.1 p.2.2.1 - A| < ε := by
      have := Metric.tendsto_nhds.1 hcont.tendsto ε hε
      simp only [mul_div_cancel_right₀ A (hw0 hrp hfp hne), Real.dist_eq] at this
      exact this
    have c2 : Continuous fun p : ℝ × ℝ × ℝ × ℝ => |p.2.1 - τr| := by fun_prop
    have c3 : Continuous fun p : ℝ × ℝ × ℝ × ℝ => |p.2.2.1 - τf| := by fun_prop
    have c4 : Continuous fun p : ℝ × ℝ × ℝ × ℝ => |p.2.2.2 - t| := by fun_prop
    have c5 : Continuous fun p : ℝ × ℝ × ℝ × ℝ => p.2.1 - p.2.2.1 := by fun_prop
    refine h1.and (((c2.tendsto _).eventually_lt_const (by simpa using hε)).and
      (((c3.tendsto _).eventually_lt_const (by simpa using hε)).and
        (((c4.tendsto _).eventually_lt_const (by simpa using hε)).and ?_)))
    exact ((c5.tendsto _).eventually_ne (sub_ne_zero.2 hne)).mono fun p hp => sub_ne_zero.1 hp
  obtain ⟨U, hU, hUo, hUm⟩ := eventually_nhds_iff.1 hev
  have hS : IsOpen (U ∪ {p : ℝ × ℝ × ℝ × ℝ | p.1 * (p.2.2.1 - p.2.1) < 0}) :=
    hUo.union (isOpen_lt (by fun_prop) continuous_const)
  obtain ⟨δ, hδ, hst⟩ := compact_stable hK hS (spec2_continuous (n := n) o₀.fs).continuousOn (y := y) (by
    rintro ⟨κ, a, b, d⟩ ⟨-, ha, hb, hd⟩ he
    have hap : 0 < a := hlr.trans_le ha.1
    have hbp : 0 < b := hlf.trans_le hb.1
    obtain ⟨hD, hp, j, hj⟩ := two_ident (w := 2 * Real.pi * o₀.fs / n) (t := t) (t' := d) (by positivity)
      (mul_ne_zero hA.ne' (hw0 hrp hfp hne)) hrp hfp hap hbp (fun j h1 h3 => by
        have e := congrFun he (j : ZMod n)
        rw [hy] at e
        unfold spec2 at e
        have e2 : 2 * Real.pi * fftfreq o₀.fs ((j : ℕ) : ZMod n) = j * (2 * Real.pi * o₀.fs / n) :=
          omega_bin (o := o₀) (by omega)
        rw [e2] at e
        have hcc : ((Real.sqrt (o₀.fs / n) : ℝ) : ℂ) ≠ 0 := Complex.ofReal_ne_zero.2 hcp.ne'
        exact (mul_right_cancel₀ hcc e).symm)
    replace hD : A * w τr τf = κ := hD
    replace hp : (τf = b ∧ τr = a) ∨ (τf = a ∧ τr = b) := hp
    have hjt : t = d + j * (n / o₀.fs) := by
      have h2 : 2 * Real.pi * (o₀.fs * (t - d)) = 2 * Real.pi * (j * n) := by
        field_simp at hj
        linear_combination 2 * Real.pi * hj
      have h3 := mul_left_cancel₀ (by positivity) h2
      field_simp
      linear_combination h3
    have htd : t = d := time_eq hfs hn hjt hd.1 hd.2 ht.1 ht.2
    rcases hp with ⟨e1, e2⟩ | ⟨e1, e2⟩
    · left
      rw [← hD, ← e1, ← e2, ← htd]
      exact hUm
    · right
      have := mul_pos hA (hsign hrp hfp hne)
      show κ * (b - a) < 0
      rw [← hD, ← e1, ← e2]
      nlinarith)
  refine ⟨min δ 1, lt_min hδ one_pos, fun o A' τr' τf' t' m' e1 e2 hA' hr' hf' ht' hm' hclose => ?_⟩
  have hrp' : 0 < τr' := hlr.trans_le hr'.1
  have hfp' : 0 < τf' := hlf.trans_le hf'.1
  have hF := hmF o A' τr' τf' t' m' e1 e2 hrp' hfp' hm'
  set p : ℝ × ℝ × ℝ × ℝ := (A' * w τr' τf', τr', τf', t') with hp
  have hpK : p ∈ K := by
    refine ⟨?_, hr', hf', ht'⟩
    have h1 : ‖m' 1‖ ≤ ‖y 1‖ + 1 := by
      have := (hclose 1).le.trans (min_le_right _ _)
      rw [hmy] at this
      calc ‖m' 1‖ = ‖(m' 1 - y 1) + y 1‖ := by rw [sub_add_cancel]
        _ ≤ ‖m' 1 - y 1‖ + ‖y 1‖ := norm_add_le _ _
        _ ≤ _ := by linarith
    have h2 : ‖twoSpec (A' * w τr' τf') τr' τf' t' ω1‖ ≤ N := by
      rw [hN, le_div_iff₀ hcp]
      have : m' 1 = twoSpec (A' * w τr' τf') τr' τf' t' ω1 * (c : ℂ) := by rw [hF]; rfl
      rw [this, norm_mul, Complex.norm_real, Real.norm_eq_abs, abs_of_pos hcp] at h1
      exact h1
    have h3 := norm_twoSpec (A' * w τr' τf') τr' τf' t' ω1
    have h4 : (A' * w τr' τf') ^ 2 ≤ M - 1 := by
      rw [← h3, hM, add_sub_cancel_right]
      have q1 : τf' ^ 2 ≤ uf ^ 2 := pow_le_pow_left₀ hfp'.le hf'.2 2
      have q2 : τr' ^ 2 ≤ ur ^ 2 := pow_le_pow_left₀ hrp'.le hr'.2 2
      gcongr
    have h5 : |A' * w τr' τf'| ≤ M := by
      have := sq_abs (A' * w τr' τf')
      nlinarith [sq_nonneg (|A' * w τr' τf'| - 1)]
    exact abs_le.1 h5
  have hd : dist (spec2 n o₀.fs p) y < δ := by
    rw [dist_pi_lt_iff hδ]
    intro k
    rw [← hF, ← hmy, dist_eq_norm]
    exact (hclose k).trans_le (min_le_left _ _)
  rcases hst p hpK hd with h | h
  · obtain ⟨q1, q2, q3, q4, q5⟩ := hU p h
    have e : p.1 / w p.2.1 p.2.2.1 = A' := mul_div_cancel_right₀ A' (hw0 hrp' hfp' q5)
    rw [e] at q1
    exact ⟨q1, q2, q3, q4⟩
  · exfalso
    have h' : A' * w τr' τf' * (τf' - τr') < 0 := h
    by_cases heq : τr' = τf'
    · rw [heq, sub_self, mul_zero] at h'
      exact lt_irrefl _ h'
    · have := mul_pos hA' (hsign hrp' hfp' heq)
      nlinarith

/-! ### From traces to spectra -/

theorem fft_near {η : ℝ} {x y : ZMod n → ℝ} (h : ∀ j, |x j - y j| < η) (k : ZMod n) : ‖fftR x k - fftR y k‖ ≤ n * η := by
  rw [fftR_apply, fftR_apply, ← Finset.sum_sub_distrib]
  calc ‖∑ j, (e (-(j * k)) * (x j : ℂ) - e (-(j * k)) * (y j : ℂ))‖ ≤ ∑ _j : ZMod n, η := by
        refine norm_sum_le_of_le _ fun j _ => ?_
        rw [← mul_sub, norm_mul, norm_e, one_mul, ← Complex.ofReal_sub, Complex.norm_real]
        exact (h j).le
    _ = n * η := by simp [ZMod.card]

/-- Models which are no worse than the truth are near the truth if the data are. -/
theorem model_near {e : ZMod n → ℝ} (he : ∀ k, 0 < e k) {δ : ℝ} (hδ : 0 < δ) :
    ∃ η > 0, ∀ d m m₀ : ZMod n → ℂ, (∀ k, ‖d k - m₀ k‖ ≤ η) →
      ∑ k, ‖d k - m k‖ ^ 2 / e k ^ 2 ≤ ∑ k, ‖d k - m₀ k‖ ^ 2 / e k ^ 2 → ∀ k, ‖m k - m₀ k‖ < δ := by
  set E := ∑ k, e k with hE
  set L := ∑ k, 1 / e k ^ 2 with hL
  have hE0 : 0 ≤ E := Finset.sum_nonneg fun k _ => (he k).le
  have hL0 : 0 ≤ L := Finset.sum_nonneg fun k _ => by positivity
  have hs := Real.sqrt_nonneg L
  have hq : 0 < E * Real.sqrt L + 2 := by positivity
  refine ⟨δ / (E * Real.sqrt L + 2), by positivity, fun d m m₀ hd hle k => ?_⟩
  set η := δ / (E * Real.sqrt L + 2) with hη
  have hη0 : 0 < η := by positivity
  have h1 : ∑ k, ‖d k - m₀ k‖ ^ 2 / e k ^ 2 ≤ η ^ 2 * L := by
    rw [hL, Finset.mul_sum]
    refine Finset.sum_le_sum fun j _ => ?_
    rw [mul_one_div]
    have := pow_le_pow_left₀ (norm_nonneg _) (hd j) 2
    have := he j
    gcongr
  have h2 : ‖d k - m k‖ ^ 2 / e k ^ 2 ≤ η ^ 2 * L :=
    (Finset.single_le_sum (f := fun k => ‖d k - m k‖ ^ 2 / e k ^ 2) (fun j _ => by positivity)
      (Finset.mem_univ k)).trans (hle.trans h1)
  have h3 : ‖d k - m k‖ ≤ e k * (η * Real.sqrt L) := by
    rw [div_le_iff₀ (pow_pos (he k) 2)] at h2
    refine abs_le_of_sq_le_sq' ?_ (by have := he k; positivity) |>.2
    calc ‖d k - m k‖ ^ 2 ≤ η ^ 2 * L * e k ^ 2 := h2
      _ = (e k * (η * Real.sqrt L)) ^ 2 := by rw [mul_pow, mul_pow, Real.sq_sqrt hL0]; ring
  have h4 : e k ≤ E := Finset.single_le_sum (f := e) (fun j _ => (he j).le) (Finset.mem_univ k)
  calc ‖m k - m₀ k‖ = ‖(d k - m₀ k) - (d k - m k)‖ := by congr 1; ring
    _ ≤ ‖d k - m₀ k‖ + ‖d k - m k‖ := norm_sub_le _ _
    _ ≤ η + E * (η * Real.sqrt L) := add_le_add (hd k) (h3.trans (by gcongr))
    _ < η * (E * Real.sqrt L + 2) := by nlinarith
    _ = δ := div_mul_cancel₀ δ hq.ne'

theorem data_near {fs : ℝ} (hfs : 0 < fs) {η : ℝ} (hη : 0 < η) : ∃ ζ > 0, ∀ x y : ZMod n → ℝ, (∀ j, |x j - y j| < ζ) →
    ∀ k, ‖fftR x k / (Real.sqrt (fs * n) : ℂ) - fftR y k / (Real.sqrt (fs * n) : ℂ)‖ ≤ η := by
  have hn0 : 0 < (n : ℝ) := by exact_mod_cast NeZero.pos n
  have hs : 0 < Real.sqrt (fs * n) := Real.sqrt_pos.2 (by positivity)
  refine ⟨η * Real.sqrt (fs * n) / n, by positivity, fun x y h k => ?_⟩
  rw [← sub_div, norm_div, Complex.norm_real, Real.norm_eq_abs, abs_of_pos hs, div_le_iff₀ hs]
  refine (fft_near h k).trans_eq ?_
  field_simp

/-- A fit of a trace near an exact pulse, if it is no worse than the truth, has a spectrum near that of the pulse. -/
theorem finding_near {psd : ZMod n → ℝ} {fs errscale : ℝ} {tmpl : Option (List ℝ)} {npole : ℤ} {guess : List ℝ}
    {tau : Option ℝ} {scale : Bool} {truth : List ℝ} {pulse : ZMod n → ℝ} (hpsd : ∀ k, k ≠ 0 → 0 < psd k)
    (herr : 0 < errscale) (hfs : 0 < fs) (hn : dofOf npole < n) {m₀ : ZMod n → ℂ}
    (hm₀ : ∀ pulse', ((init psd fs tmpl).prepare pulse' npole errscale tau scale).model truth = .ok m₀)
    (hdata : ∀ k, fftR pulse k / (Real.sqrt (fs * n) : ℂ) = m₀ k) {δ : ℝ} (hδ : 0 < δ) :
    ∃ η > 0, ∀ pulse', (∀ j, |pulse' j - pulse j| < η) → ∀ x, Finding psd fs tmpl npole errscale guess tau scale truth pulse' x →
      ∃ o : Obj n, o = (init psd fs tmpl).prepare pulse' npole errscale tau scale ∧ Within (o.defaultBounds guess) x ∧
        ∃ m, o.model x = .ok m ∧ ∀ k, ‖m k - m₀ k‖ < δ := by
  obtain ⟨η, hη, hmod⟩ := model_near (e := ((init psd fs tmpl).prepare pulse npole errscale tau scale).error)
    (fun k => error_pos tmpl pulse npole tau scale hpsd herr k) hδ
  obtain ⟨ζ, hζ, hfft⟩ := data_near (n := n) hfs hη
  refine ⟨ζ, hζ, ?_⟩
  rintro pulse' hp x ⟨solve, o, r, hfit, rfl, hw, hchi⟩
  unfold Obj.fit at hfit
  rw [Prod.mk.injEq] at hfit
  obtain ⟨ho, hrun⟩ := hfit
  refine ⟨o, ho.symm, hw, ?_⟩
  rw [ho] at hrun
  have hnp : o.npole = npole := by rw [← ho]; rfl
  have hdn : (0 : ℝ) < (((n : ℤ) - dofOf npole : ℤ) : ℝ) := by
    have : (0 : ℤ) < (n : ℤ) - dofOf npole := by omega
    exact_mod_cast this
  have hm0 : o.model truth = .ok m₀ := by rw [← ho]; exact hm₀ pulse'
  have hc : ∀ m, o.calcchi2 m (dofOf npole) = .ok ((∑ k, ‖o.data k - m k‖ ^ 2 / o.error k ^ 2) / (((n : ℤ) - dofOf npole : ℤ) : ℝ)) :=
    fun m => if_neg (by omega)
  have hchi' := hchi m₀ _ hm0 (hc m₀)
  unfold Obj.run at hrun
  split_ifs at hrun
  cases hs : o.start pulse' (some guess) with
  | error e => rw [hs] at hrun; cases hrun
  | ok p0 =>
    rw [hs] at hrun
    simp only at hrun
    split_ifs at hrun
    cases hres : o.residuals p0 with
    | error e => rw [hres] at hrun; cases e <;> cases hrun
    | ok res =>
      rw [hres] at hrun
      simp only at hrun
      cases hmod' : o.model (solve p0 (Option.getD none (o.defaultBounds p0))).x with
      | error e => rw [hmod'] at hrun; cases hrun
      | ok m =>
        rw [hmod'] at hrun
        simp only [hnp, hc m] at hrun
        cases hrun
        refine ⟨m, hmod', ?_⟩
        have hle := (div_le_div_iff_of_pos_right hdn).1 hchi'
        have hd : ∀ k, ‖o.data k - m₀ k‖ ≤ η := fun k => by
          have := hfft pulse' pulse hp k
          rw [hdata k] at this
          rw [← ho]
          exact this
        have he : o.error = ((init psd fs tmpl).prepare pulse npole errscale tau scale).error := by rw [← ho]; rfl
        rw [he] at hle
        exact hmod o.data m m₀ hd hle

omit [NeZero n] in
theorem threepole_congr {o o₀ : Obj n} (h : o.fs = o₀.fs) : o.threepole = o₀.threepole := by
  funext A B τr τ1 τ2 t k
  unfold Obj.threepole Obj.omega Obj.df
  rw [h]

omit [NeZero n] in
theorem fourpole_congr {o o₀ : Obj n} (h : o.fs = o₀.fs) : o.fourpole = o₀.fourpole := by
  funext A B C τr τ1 τ2 τ3 t k
  unfold Obj.fourpole Obj.omega Obj.df
  rw [h]

theorem pole_continuous (ω : ℝ) {X : Type*} [TopologicalSpace X] {f : X → ℝ} (hf : Continuous f) :
    Continuous fun x => pole (f x) ω := by
  unfold pole
  exact (Complex.continuous_ofReal.comp hf).div (by fun_prop) fun x => one_add_ne _ _

/-- Three-pole pulses within bounds whose spectra are near have near parameters, up to the order of the fall times. -/
theorem threepole_near {o₀ : Obj n} (hfs : 0 < o₀.fs) (hn : 60 < n) {A B τr τ1 τ2 t s : ℝ} {lo hi : Fin 6 → ℝ}
    (hlo : ∀ i : Fin 5, 0 < lo i.castSucc) (h5 : lo 5 = s - 30 / o₀.fs) (h5' : hi 5 = s + 30 / o₀.fs)
    (hA : 0 < A) (hB : 0 < B) (hr : 0 < τr) (h1 : 0 < τ1) (h2 : 0 < τ2) (ht : s - 30 / o₀.fs ≤ t ∧ t ≤ s + 30 / o₀.fs)
    (hd : [τ1, τ2, τr].Nodup) {ε : ℝ} (hε : 0 < ε) :
    ∃ δ > 0, ∀ (o : Obj n) (x : Fin 6 → ℝ), o.fs = o₀.fs → x ∈ Set.Icc lo hi →
      (∀ k, ‖o.threepole (x 0) (x 1) (x 2) (x 3) (x 4) (x 5) k - o₀.threepole A B τr τ1 τ2 t k‖ < δ) →
      ∃ a b c d, [(a, c), (b, d)].Perm [(A, τ1), (B, τ2)] ∧ dist x ![a, b, τr, c, d, t] < ε := by
  let S : Set (Fin 6 → ℝ) := ⋃ q ∈ {q : (ℝ × ℝ) × (ℝ × ℝ) | [q.1, q.2].Perm [(A, τ1), (B, τ2)]},
    Metric.ball ![q.1.1, q.2.1, τr, q.1.2, q.2.2, t] ε
  have hS : IsOpen S := isOpen_biUnion fun q _ => Metric.isOpen_ball
  have hF : Continuous fun x : Fin 6 → ℝ => o₀.threepole (x 0) (x 1) (x 2) (x 3) (x 4) (x 5) := by
    refine continuous_pi fun k => ?_
    unfold Obj.threepole
    have p2 := pole_continuous (o₀.omega k) (continuous_apply (A := fun _ : Fin 6 => ℝ) 2)
    have p3 := pole_continuous (o₀.omega k) (continuous_apply (A := fun _ : Fin 6 => ℝ) 3)
    have p4 := pole_continuous (o₀.omega k) (continuous_apply (A := fun _ : Fin 6 => ℝ) 4)
    fun_prop
  obtain ⟨δ, hδ, hst⟩ := compact_stable (K := Set.Icc lo hi) isCompact_Icc hS hF.continuousOn
    (y := o₀.threepole A B τr τ1 τ2 t) (by
      intro x hx he
      have hp : ∀ i : Fin 5, 0 < x i.castSucc := fun i => (hlo i).trans_le (hx.1 i.castSucc)
      obtain ⟨e1, e2, j, e3⟩ := threepole_shift hfs (by omega) hr h1 h2 (hp 2) (hp 3) (hp 4) hA hB (hp 0) (hp 1) hd
        (t := t) (t' := x 5) fun k _ => (congrFun he k).symm
      have e4 : x 5 = t := time_eq hfs hn e3 ht.1 ht.2 (h5 ▸ hx.1 5) (h5' ▸ hx.2 5)
      refine Set.mem_biUnion (x := ((x 0, x 3), (x 1, x 4))) e2.symm ?_
      have : x = ![x 0, x 1, τr, x 3, x 4, t] := by
        funext i
        fin_cases i <;> simp [e1, e4]
      show dist x ![x 0, x 1, τr, x 3, x 4, t] < ε
      rw [← this, dist_self]
      exact hε)
  refine ⟨δ, hδ, fun o x ho hx hk => ?_⟩
  rw [threepole_congr ho] at hk
  have := hst x hx ((dist_pi_lt_iff hδ).2 fun k => by rw [dist_eq_norm]; exact hk k)
  obtain ⟨q, hq, hb⟩ := Set.mem_iUnion₂.1 this
  exact ⟨_, _, _, _, hq, hb⟩

/-- The same with four poles. -/
theorem fourpole_near {o₀ : Obj n} (hfs : 0 < o₀.fs) (hn : 60 < n) {A B C τr τ1 τ2 τ3 t s : ℝ} {lo hi : Fin 8 → ℝ}
    (hlo : ∀ i : Fin 7, 0 < lo i.castSucc) (h5 : lo 7 = s - 30 / o₀.fs) (h5' : hi 7 = s + 30 / o₀.fs)
    (hA : 0 < A) (hB : 0 < B) (hC : 0 < C) (hr : 0 < τr) (h1 : 0 < τ1) (h2 : 0 < τ2) (h3 : 0 < τ3)
    (ht : s - 30 / o₀.fs ≤ t ∧ t ≤ s + 30 / o₀.fs) (hd : [τ1, τ2, τ3, τr].Nodup) {ε : ℝ} (hε : 0 < ε) :
    ∃ δ > 0, ∀ (o : Obj n) (x : Fin 8 → ℝ), o.fs = o₀.fs → x ∈ Set.Icc lo hi →
      (∀ k, ‖o.fourpole (x 0) (x 1) (x 2) (x 3) (x 4) (x 5) (x 6) (x 7) k - o₀.fourpole A B C τr τ1 τ2 τ3 t k‖ < δ) →
      ∃ a b c d e f, [(a, d), (b, e), (c, f)].Perm [(A, τ1), (B, τ2), (C, τ3)] ∧ dist x ![a, b, c, τr, d, e, f, t] < ε := by
  let S : Set (Fin 8 → ℝ) := ⋃ q ∈ {q : (ℝ × ℝ) × (ℝ × ℝ) × (ℝ × ℝ) | [q.1, q.2.1, q.2.2].Perm [(A, τ1), (B, τ2), (C, τ3)]},
    Metric.ball ![q.1.1, q.2.1.1, q.2.2.1, τr, q.1.2, q.2.1.2, q.2.2.2, t] ε
  have hS : IsOpen S := isOpen_biUnion fun q _ => Metric.isOpen_ball
  have hF : Continuous fun x : Fin 8 → ℝ => o₀.fourpole (x 0) (x 1) (x 2) (x 3) (x 4) (x 5) (x 6) (x 7) := by
    refine continuous_pi fun k => ?_
    unfold Obj.fourpole
    have p3 := pole_continuous (o₀.omega k) (continuous_apply (A := fun _ : Fin 8 => ℝ) 3)
    have p4 := pole_continuous (o₀.omega k) (continuous_apply (A := fun _ : Fin 8 => ℝ) 4)
    have p5 := pole_continuous (o₀.omega k) (continuous_apply (A := fun _ : Fin 8 => ℝ) 5)
    have p6 := pole_continuous (o₀.omega k) (continuous_apply (A := fun _ : Fin 8 => ℝ) 6)
    fun_prop
  obtain ⟨δ, hδ, hst⟩ := compact_stable (K := Set.Icc lo hi) isCompact_Icc hS hF.continuousOn
    (y := o₀.fourpole A B C τr τ1 τ2 τ3 t) (by
      intro x hx he
      have hp : ∀ i : Fin 7, 0 < x i.castSucc := fun i => (hlo i).trans_le (hx.1 i.castSucc)
      obtain ⟨e1, e2, j, e3⟩ := fourpole_shift hfs (by omega) hr h1 h2 h3 (hp 3) (hp 4) (hp 5) (hp 6) hA hB hC (hp 0) (hp 1)
        (hp 2) hd (t := t) (t' := x 7) fun k _ => (congrFun he k).symm
      have e4 : x 7 = t := time_eq hfs hn e3 ht.1 ht.2 (h5 ▸ hx.1 7) (h5' ▸ hx.2 7)
      refine Set.mem_biUnion (x := ((x 0, x 4), (x 1, x 5), (x 2, x 6))) e2.symm ?_
      have : x = ![x 0, x 1, x 2, τr, x 4, x 5, x 6, t] := by
        funext i
        fin_cases i <;> simp [e1, e4]
      show dist x ![x 0, x 1, x 2, τr, x 4, x 5, x 6, t] < ε
      rw [← this, dist_self]
      exact hε)
  refine ⟨δ, hδ, fun o x ho hx hk => ?_⟩
  rw [fourpole_congr ho] at hk
  have := hst x hx ((dist_pi_lt_iff hδ).2 fun k => by rw [dist_eq_norm]; exact hk k)
  obtain ⟨q, hq, hb⟩ := Set.mem_iUnion₂.1 this
  exact ⟨_, _, _, _, _, _, hq, hb⟩

/-- Muon tails whose spectra are near have near parameters. -/
theorem muon_near {o₀ : Muon n} (hfs : 0 < o₀.fs) (hn : 2 ≤ n) {A τ : ℝ} (hA : 0 < A) (hτ : 0 < τ) {ε : ℝ} (hε : 0 < ε) :
    ∃ δ > 0, ∀ (o : Muon n) (A' τ' : ℝ), o.fs = o₀.fs → (∀ k, ‖o.fcn A' τ' k - o₀.fcn A τ k‖ < δ) →
      |A' - A| < ε ∧ |τ' - τ| < ε := by
  have hn0 : 0 < (n : ℝ) := by exact_mod_cast NeZero.pos n
  have hpi := Real.pi_pos
  set k : ZMod n := ((1 : ℕ) : ZMod n) with hk
  set w : ℝ := 2 * Real.pi * fftfreq o₀.fs k with hw
  have hw0 : w ≠ 0 := by
    have hk0 : k ≠ 0 := bin_ne le_rfl (by omega)
    have := Real.pi_ne_zero
    have h1 : freqIdx k ≠ 0 := fun e => hk0 (Didv.freqIdx_inj (by rw [e]; simp [freqIdx]))
    have h2 : ((freqIdx k : ℤ) : ℝ) ≠ 0 := by exact_mod_cast h1
    have := hfs.ne'
    rw [hw]
    unfold fftfreq
    positivity
  set s : ℝ := Real.sqrt (o₀.fs / n) with hs
  have hs0 : 0 < s := Real.sqrt_pos.2 (by positivity)
  let z : ℝ → ℝ → ℂ := fun a b => (a * b / (1 + (w : ℝ) * b * Complex.I) * s : ℂ)
  have hre : ∀ a b, (z a b).re = a * b * s / (1 + w ^ 2 * b ^ 2) := fun a b => by
    have : (0 : ℝ) < 1 + w ^ 2 * b ^ 2 := by positivity
    simp only [z, Complex.re_mul_ofReal, Complex.div_re, Complex.normSq_apply]
    simp
    field_simp
  have him : ∀ a b, (z a b).im = -(w * b * (z a b).re) := fun a b => by
    rw [hre]
    have : (0 : ℝ) < 1 + w ^ 2 * b ^ 2 := by positivity
    simp only [z, Complex.im_mul_ofReal, Complex.div_im, Complex.normSq_apply]
    simp
    field_simp
  let T : ℂ → ℝ := fun y => -y.im / (w * y.re)
  let G : ℂ → ℝ := fun y => y.re * (1 + w ^ 2 * T y ^ 2) / (T y * s)
  have hT : ∀ a b, (z a b).re ≠ 0 → T (z a b) = b := fun a b h => by
    show -(z a b).im / (w * (z a b).re) = b
    rw [him, neg_neg]
    field_simp
  have hG : ∀ a b, (z a b).re ≠ 0 → b ≠ 0 → G (z a b) = a := fun a b h hb => by
    have : (0 : ℝ) < 1 + w ^ 2 * b ^ 2 := by positivity
    show (z a b).re * (1 + w ^ 2 * T (z a b) ^ 2) / (T (z a b) * s) = a
    rw [hT a b h, hre]
    field_simp
  have hz0 : 0 < (z A τ).re := by rw [hre]; positivity
  have cT : ContinuousAt T (z A τ) :=
    Complex.continuous_im.continuousAt.neg.div (continuousAt_const.mul Complex.continuous_re.continuousAt)
      (mul_ne_zero hw0 hz0.ne')
  have cG : ContinuousAt G (z A τ) := by
    refine (Complex.continuous_re.continuousAt.mul (continuousAt_const.add (continuousAt_const.mul (cT.pow 2)))).div
      (cT.mul continuousAt_const) ?_
    rw [hT _ _ hz0.ne']
    positivity
  have e1 := Metric.tendsto_nhds.1 cT (min ε τ) (lt_min hε hτ)
  have e2 := Metric.tendsto_nhds.1 cG ε hε
  have e3 : ∀ᶠ y in 𝓝 (z A τ), 0 < y.re := Complex.continuous_re.continuousAt.eventually (lt_mem_nhds hz0)
  obtain ⟨δ, hδ, h⟩ := Metric.eventually_nhds_iff.1 (e1.and (e2.and e3))
  refine ⟨δ, hδ, fun o A' τ' ho hc => ?_⟩
  have h1 := hc k
  have e4 : o.fcn A' τ' k = z A' τ' := by unfold Muon.fcn; rw [ho]
  have e5 : o₀.fcn A τ k = z A τ := rfl
  rw [e4, e5, ← dist_eq_norm] at h1
  obtain ⟨h2, h3, h4⟩ := h h1
  rw [hT _ _ h4.ne', hT _ _ hz0.ne', Real.dist_eq] at h2
  have hτ' : τ' ≠ 0 := by
    rintro rfl
    have := h2.trans_le (min_le_right _ _)
    rw [zero_sub, abs_neg, abs_of_pos hτ] at this
    exact lt_irrefl _ this
  rw [hG _ _ h4.ne' hτ', hG _ _ hz0.ne' hτ.ne', Real.dist_eq] at h3
  exact ⟨h3, h2.trans_le (min_le_left _ _)⟩

/-! ### Averages -/

theorem settle {Ω : Type*} [MeasurableSpace Ω] {μ : Measure Ω} [IsProbabilityMeasure μ] {noise : ℕ → Ω → ZMod n → ℝ} {R : ZMod n → ℝ}
    (h : OF.Run μ noise R) {pulse : ZMod n → ℝ} {Q : ℝ → (ZMod n → ℝ) → Prop}
    (hQ : ∀ ε > 0, ∃ η > 0, ∀ pulse', (∀ j, |pulse' j - pulse j| < η) → Q ε pulse') :
    ∀ᵐ ω ∂μ, ∀ ε > 0, ∀ᶠ m in atTop, Q ε (averaged pulse (fun i => noise i ω) m) := by
  have h3 : ∀ᵐ ω ∂μ, ∀ j : ZMod n, Tendsto (fun m : ℕ => (∑ i ∈ Finset.range m, noise i ω j) / m) atTop (𝓝 0) := by
    refine ae_all_iff.2 fun j => ?_
    have := strong_law_ae_real (fun i ω => noise i ω j) ((h.stationary.sq_int j).integrable one_le_two)
      (fun i i' hij => (h.independent hij).comp (measurable_pi_apply j) (measurable_pi_apply j))
      fun i => (h.alike i).comp (measurable_pi_apply j)
    rwa [h.stationary.mean] at this
  filter_upwards [h3] with ω hω ε hε
  obtain ⟨η, hη, hq⟩ := hQ ε hε
  have : ∀ᶠ m in atTop, ∀ j : ZMod n, dist ((∑ i ∈ Finset.range m, noise i ω j) / (m : ℝ)) 0 < η :=
    eventually_all.2 fun j => Metric.tendsto_nhds.1 (hω j) η hη
  filter_upwards [this, eventually_gt_atTop 0] with m hm hm0
  refine hq _ fun j => ?_
  have hm' : (m : ℝ) ≠ 0 := by exact_mod_cast hm0.ne'
  have e : averaged pulse (fun i => noise i ω) m j - pulse j = (∑ i ∈ Finset.range m, noise i ω j) / (m : ℝ) := by
    unfold averaged
    rw [Finset.sum_add_distrib, Finset.sum_const, Finset.card_range, nsmul_eq_mul]
    field_simp
    ring
  rw [e]
  have := hm j
  rwa [dist_zero_right, Real.norm_eq_abs] at this

/-- For the examples: an optimiser which happens to return the truth. -/
theorem truth_finding {psd : ZMod n → ℝ} {fs errscale : ℝ} {tmpl : Option (List ℝ)} {npole : ℤ} {p0 truth : List ℝ}
    {tau : Option ℝ} {scale : Bool} {pulse : ZMod n → ℝ}
    (herr : ∀ k, 0 < ((init psd fs tmpl).prepare pulse npole errscale tau scale).error k)
    (htau : ¬ (npole = 1 ∧ tau = none)) (hn : dofOf npole < n)
    (hs : ((init psd fs tmpl).prepare pulse npole errscale tau scale).start pulse (some p0) = .ok p0)
    (hv : LsqValid p0 (((init psd fs tmpl).prepare pulse npole errscale tau scale).defaultBounds p0) p0) {m0 m : ZMod n → ℂ}
    (hp0 : ((init psd fs tmpl).prepare pulse npole errscale tau scale).model p0 = .ok m0)
    (hm : ((init psd fs tmpl).prepare pulse npole errscale tau scale).model truth = .ok m)
    (hw : Within (((init psd fs tmpl).prepare pulse npole errscale tau scale).defaultBounds p0) truth) :
    Finding psd fs tmpl npole errscale p0 tau scale truth pulse truth := by
  set o := (init psd fs tmpl).prepare pulse npole errscale tau scale with ho
  have hnp : o.npole = npole := rfl
  have hc : o.calcchi2 m (dofOf npole) = .ok ((∑ k, ‖o.data k - m k‖ ^ 2 / o.error k ^ 2) / (((n : ℤ) - dofOf npole : ℤ) : ℝ)) :=
    if_neg (by omega)
  have hrun : ∃ r, o.run pulse (some p0) none tau (fun _ _ => ⟨truth, 0, true⟩) = .ok r ∧ r.lsq.x = truth ∧
      r.chi2 = (∑ k, ‖o.data k - m k‖ ^ 2 / o.error k ^ 2) / (((n : ℤ) - dofOf npole : ℤ) : ℝ) := by
    unfold Obj.run
    rw [hnp, if_neg htau, hs]
    simp only [Option.getD_none]
    rw [if_neg (not_not.2 hv), residuals_ok herr hp0]
    simp only
    rw [hm]
    simp only
    rw [hc]
    exact ⟨_, rfl, rfl, rfl⟩
  obtain ⟨r, h1, h2, h3⟩ := hrun
  refine ⟨fun _ _ => ⟨truth, 0, true⟩, o, r, ?_, h2, hw, fun m' c hm' hc' => ?_⟩
  · unfold Obj.fit
    exact Prod.ext rfl h1
  · rw [hm] at hm'
    cases hm'
    rw [hc] at hc'
    cases hc'
    exact h3.le

omit [NeZero n] in
theorem bounds_one {o : Obj n} (h : o.npole = 1) (a c t : ℝ) :
    o.defaultBounds [a, c, t] = ([((a / 100 : ℝ) : EReal), (c / 10 : ℝ), (t - 30 / o.fs : ℝ)],
      [((a * 100 : ℝ) : EReal), (c * 10 : ℝ), (t + 30 / o.fs : ℝ)]) := by
  unfold Obj.defaultBounds
  simp [h]

omit [NeZero n] in
theorem bounds_two {o : Obj n} (h : o.npole = 2) (a b c t : ℝ) :
    o.defaultBounds [a, b, c, t] = ([((a / 100 : ℝ) : EReal), (b / 10 : ℝ), (c / 10 : ℝ), (t - 30 / o.fs : ℝ)],
      [((a * 100 : ℝ) : EReal), (b * 10 : ℝ), (c * 10 : ℝ), (t + 30 / o.fs : ℝ)]) := by
  unfold Obj.defaultBounds
  simp [h]

omit [NeZero n] in
theorem bounds_three {o : Obj n} (h : o.npole = 3) (a b c d e t : ℝ) :
    o.defaultBounds [a, b, c, d, e, t] = ([((a / 100 : ℝ) : EReal), ((b / 100 : ℝ) : EReal), (c / 10 : ℝ), (d / 10 : ℝ), (e / 10 : ℝ), (t - 30 / o.fs : ℝ)],
      [((a * 100 : ℝ) : EReal), ((b * 100 : ℝ) : EReal), (c * 10 : ℝ), (d * 10 : ℝ), (e * 10 : ℝ), (t + 30 / o.fs : ℝ)]) := by
  unfold Obj.defaultBounds
  simp [h]

omit [NeZero n] in
theorem bounds_four {o : Obj n} (h : o.npole = 4) (a b c d e f g t : ℝ) :
    o.defaultBounds [a, b, c, d, e, f, g, t] = ([((a / 100 : ℝ) : EReal), ((b / 100 : ℝ) : EReal), ((c / 100 : ℝ) : EReal), (d / 10 : ℝ), (e / 10 : ℝ), (f / 10 : ℝ), (g / 10 : ℝ), (t - 30 / o.fs : ℝ)],
      [((a * 100 : ℝ) : EReal), ((b * 100 : ℝ) : EReal), ((c * 100 : ℝ) : EReal), (d * 10 : ℝ), (e * 10 : ℝ), (f * 10 : ℝ), (g * 10 : ℝ), (t + 30 / o.fs : ℝ)]) := by
  unfold Obj.defaultBounds
  simp [h]

end Verif.NonLin
