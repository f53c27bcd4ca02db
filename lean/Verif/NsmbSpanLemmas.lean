import Verif.NsmbSpanSpec
import Verif.NsmbProps

/-! Lemmas for `NsmbSpanProps`. -/

namespace Verif.Nsmb
open Verif.Dft Verif.Nsmb.Spec Matrix

variable {n : ℕ} [NeZero n] {nb nb' : ℕ}

omit [NeZero n] in
theorem Spec.Comb.add {ι : Type*} [Fintype ι] {S : ι → ZMod n → ℝ} {x y : ZMod n → ℝ} (hx : Comb S x)
    (hy : Comb S y) : Comb S fun τ => x τ + y τ := by
  obtain ⟨b, hb⟩ := hx
  obtain ⟨c, hc⟩ := hy
  refine ⟨fun i => b i + c i, fun τ => ?_⟩
  dsimp only
  rw [hb, hc, ← Finset.sum_add_distrib]
  exact Finset.sum_congr rfl fun i _ => by ring

omit [NeZero n] in
theorem Spec.Comb.smul {ι : Type*} [Fintype ι] {S : ι → ZMod n → ℝ} {x : ZMod n → ℝ} (k : ℝ) (hx : Comb S x) :
    Comb S fun τ => k * x τ := by
  obtain ⟨b, hb⟩ := hx
  refine ⟨fun i => k * b i, fun τ => ?_⟩
  dsimp only
  rw [hb, Finset.mul_sum]
  exact Finset.sum_congr rfl fun i _ => by ring

omit [NeZero n] in
/-- Combinations of all templates: a multiple of the signal and a combination of backgrounds. -/
theorem comb_delayed (T : Fin (nb + 1) → ZMod n → ℝ) (t : ZMod n) (x : ZMod n → ℝ) :
    Comb (delayed T t) x ↔ ∃ k : ℝ, Comb (backgrounds T) fun τ => x τ - k * roll (T 0) t τ := by
  constructor
  · rintro ⟨a, ha⟩
    refine ⟨a 0, fun i => a i.succ, fun τ => ?_⟩
    dsimp only
    rw [ha, Fin.sum_univ_succ]
    have : ∀ i : Fin nb, delayed T t i.succ = T i.succ := fun i => if_neg (Fin.succ_ne_zero i)
    simp only [this, backgrounds]
    simp only [delayed, if_true]
    ring
  · rintro ⟨k, b, hb⟩
    refine ⟨Fin.cons k b, fun τ => ?_⟩
    have := hb τ
    have e : ∀ i : Fin nb, delayed T t i.succ = T i.succ := fun i => if_neg (Fin.succ_ne_zero i)
    rw [Fin.sum_univ_succ]
    simp only [Fin.cons_zero, Fin.cons_succ, e]
    simp only [delayed, if_true]
    simp only [backgrounds] at this
    linarith

theorem power_mid (J : ZMod n → ℝ) (r s : ZMod n → ℝ) :
    power J (fun τ => (r τ + s τ) / 2) + power J (fun τ => (r τ - s τ) / 2) = (power J r + power J s) / 2 := by
  unfold power
  rw [← Finset.sum_add_distrib, ← Finset.sum_add_distrib, Finset.sum_div]
  refine Finset.sum_congr rfl fun f _ => ?_
  have e1 : (fun τ => (r τ + s τ) / 2) = fun τ => (1 / 2 : ℝ) * (fun τ => r τ + s τ) τ := by
    funext τ
    ring
  have e2 : (fun τ => (r τ - s τ) / 2) = fun τ => (1 / 2 : ℝ) * (fun τ => r τ - s τ) τ := by
    funext τ
    ring
  rw [e1, e2, fftR_smul, fftR_smul, fftR_add, fftR_sub]
  have h := parallelogram_law_with_norm ℝ (fftR r f / n) (fftR s f / n)
  have e3 : ((1 / 2 : ℝ) : ℂ) * (fftR r f + fftR s f) / n = (1 / 2 : ℝ) • (fftR r f / n + fftR s f / n) := by
    rw [Complex.real_smul]
    ring
  have e4 : ((1 / 2 : ℝ) : ℂ) * (fftR r f - fftR s f) / n = (1 / 2 : ℝ) • (fftR r f / n - fftR s f / n) := by
    rw [Complex.real_smul]
    ring
  rw [e3, e4, norm_smul, norm_smul]
  generalize ‖fftR r f / (n : ℂ) + fftR s f / (n : ℂ)‖ = A at *
  generalize ‖fftR r f / (n : ℂ) - fftR s f / (n : ℂ)‖ = B at *
  generalize ‖fftR r f / (n : ℂ)‖ = C at *
  generalize ‖fftR s f / (n : ℂ)‖ = D at *
  have hn : ‖(1 / 2 : ℝ)‖ = 1 / 2 := by norm_num
  rw [hn, ← add_div, ← add_div, div_right_comm]
  congr 1
  linarith

/-- Least-squares residuals are unique: two families of templates with the same combinations, traces that
differ by one of them. -/
theorem lsq_unique {ι κ : Type*} [Fintype ι] [Fintype κ] {J : ZMod n → ℝ} (hJ : ∀ f, 0 < J f)
    {p p' : ZMod n → ℝ} {S : ι → ZMod n → ℝ} {S' : κ → ZMod n → ℝ} (hS : ∀ x, Comb S' x ↔ Comb S x)
    (hp : Comb S fun τ => p' τ - p τ) {a : ι → ℝ} {a' : κ → ℝ}
    (h : ∀ b, power J (resTrace p S a) ≤ power J (resTrace p S b))
    (h' : ∀ b, power J (resTrace p' S' a') ≤ power J (resTrace p' S' b)) :
    resTrace p' S' a' = resTrace p S a := by
  have hf : Comb S fun τ => ∑ i, a i * S i τ := ⟨a, fun _ => rfl⟩
  have hf' : Comb S fun τ => ∑ i, a' i * S' i τ := (hS _).1 ⟨a', fun _ => rfl⟩
  have toS : ∀ x, Comb S (fun τ => p τ - x τ) → power J (resTrace p S a) ≤ power J x := by
    rintro x ⟨b, hb⟩
    have : x = resTrace p S b := by
      funext τ
      have := hb τ
      simp only [resTrace]
      linarith
    rw [this]
    exact h b
  have toS' : ∀ x, Comb S (fun τ => p' τ - x τ) → power J (resTrace p' S' a') ≤ power J x := by
    intro x hx
    obtain ⟨b, hb⟩ := (hS _).2 hx
    have : x = resTrace p' S' b := by
      funext τ
      have := hb τ
      simp only [resTrace]
      linarith
    rw [this]
    exact h' b
  set r := resTrace p S a with hr
  set r' := resTrace p' S' a' with hr'
  have e1 : Comb S fun τ => p τ - (r' τ + r τ) / 2 := by
    have := ((hf.smul (1 / 2)).add (hf'.smul (1 / 2))).add (hp.smul (-1 / 2))
    refine (congrArg (Comb S) (funext fun τ => ?_)).mp this
    rw [hr, hr']
    simp only [resTrace]
    ring
  have e2 : Comb S fun τ => p' τ - r τ := by
    have := hf.add hp
    refine (congrArg (Comb S) (funext fun τ => ?_)).mp this
    rw [hr]
    simp only [resTrace]
    ring
  have k1 := toS _ e1
  have k2 := toS' _ e2
  have k3 := power_mid J r' r
  have k4 := power_nonneg hJ fun τ => (r' τ - r τ) / 2
  have k5 : power J (fun τ => (r' τ - r τ) / 2) = 0 := by linarith
  have k6 := power_eq_zero hJ k5
  funext τ
  have := k6 τ
  linarith

omit [NeZero n] in
theorem Spec.Equivalent.comb {T : Fin (nb + 1) → ZMod n → ℝ} {T' : Fin (nb' + 1) → ZMod n → ℝ} {p p' : ZMod n → ℝ}
    (h : Equivalent T T' p p') (t : ZMod n) (x : ZMod n → ℝ) :
    Comb (delayed T' t) x ↔ Comb (delayed T t) x := by
  rw [comb_delayed, comb_delayed, h.signal]
  exact exists_congr fun k => h.same _

omit [NeZero n] in
theorem Spec.Equivalent.trace' {T : Fin (nb + 1) → ZMod n → ℝ} {T' : Fin (nb' + 1) → ZMod n → ℝ} {p p' : ZMod n → ℝ}
    (h : Equivalent T T' p p') (t : ZMod n) : Comb (delayed T t) fun τ => p' τ - p τ := by
  rw [comb_delayed]
  refine ⟨0, (congrArg (Comb _) (funext fun τ => ?_)).mp h.trace⟩
  ring

section
variable {T : Fin (nb + 1) → ZMod n → ℝ} {T' : Fin (nb' + 1) → ZMod n → ℝ} {p p' : ZMod n → ℝ}
  {psd : ZMod n → ℝ} {fs : ℝ} {F : Filt n nb} {F' : Filt n nb'}
  (h : Equivalent T T' p p') (hpsd : ∀ f, f ≠ 0 → 0 < psd f) (hfs : 0 < fs)
  (hF : setup T psd fs = .ok F) (hF' : setup T' psd fs = .ok F')
include h hpsd hfs hF hF'

theorem Spec.Equivalent.residual (t : ZMod n) :
    resTrace p' (delayed T' t) (aT F'.phi (getiP F'.P) p' t) =
      resTrace p (delayed T t) (aT F.phi (getiP F.P) p t) :=
  lsq_unique (noise_pos (setup_ok hF).1 hpsd hfs) (h.comb t) (h.trace' t)
    (delay_fit hF hpsd hfs p t).2 (delay_fit hF' hpsd hfs p' t).2

theorem Spec.Equivalent.chi2T (t : ZMod n) : chi2T F'.psddnu F'.phi (getiP F'.P) p' t =
    chi2T F.psddnu F.phi (getiP F.P) p t := by
  rw [(delay_fit hF hpsd hfs p t).1, (delay_fit hF' hpsd hfs p' t).1]
  unfold chi2
  rw [h.residual hpsd hfs hF hF' t]

/-- Both fits choose the same delay. -/
theorem Spec.Equivalent.fits (hnb : nb ≠ 0) (hnb' : nb' ≠ 0) (window : List ℤ) (lf : ℕ) :
    (∃ e, ofNsmb p F (getiP F.P) fs window lf = .error e ∧ ofNsmb p' F' (getiP F'.P) fs window lf = .error e) ∨
    ∃ r r' d, d ∈ window ∧ ofNsmb p F (getiP F.P) fs window lf = .ok r ∧
      ofNsmb p' F' (getiP F'.P) fs window lf = .ok r' ∧ r'.rest = r.rest ∧
      r.amps = aT F.phi (getiP F.P) p (d : ZMod n) ∧ r'.amps = aT F'.phi (getiP F'.P) p' (d : ZMod n) := by
  have hc : Nsmb.chi2T F'.psddnu F'.phi (getiP F'.P) p' = Nsmb.chi2T F.psddnu F.phi (getiP F.P) p :=
    funext fun t => h.chi2T hpsd hfs hF hF' t
  obtain ⟨-, -, hJ, -, -, -, hs, -⟩ := setup_ok hF
  obtain ⟨-, -, hJ', -, -, -, hs', -⟩ := setup_ok hF'
  unfold ofNsmb
  dsimp only
  rw [if_neg hnb, if_neg hnb', hc]
  cases hp : pickIdx (Nsmb.chi2T F.psddnu F.phi (getiP F.P) p) (window.map (wrapIdx n)) with
  | error e => exact .inl ⟨e, rfl, rfl⟩
  | ok ind =>
    obtain ⟨d, hd, hdi⟩ := List.mem_map.1 (pickIdx_ok hp).1
    have hcast : (d : ZMod n) = (ind : ZMod n) := by rw [← hdi, wrapIdx_cast]
    have hr : resid F'.sbf fs p' (aT F'.phi (getiP F'.P) p' (ind : ZMod n)) (tdel n fs ind) =
        resid F.sbf fs p (aT F.phi (getiP F.P) p (ind : ZMod n)) (tdel n fs ind) := by
      rw [hs, hs', resid_eq T fs hfs.ne', resid_eq T' fs hfs.ne']
      exact h.residual hpsd hfs hF hF' _
    refine .inr ⟨_, _, d, hd, rfl, rfl, ?_, ?_, ?_⟩
    · simp only [Fit.rest]
      rw [hr, hJ, hJ']
    · rw [hcast]
    · rw [hcast]

end

theorem run_ok {α : Type*} {T : Fin (nb + 1) → ZMod n → ℝ} {psd : ZMod n → ℝ} {fs : ℝ}
    {f : Filt n nb → Except Err α} {r : α} (h : (setup T psd fs).bind f = .ok r) :
    ∃ F, setup T psd fs = .ok F ∧ f F = .ok r := by
  cases hs : setup T psd fs with
  | error e =>
    rw [hs] at h
    exact nomatch h
  | ok F =>
    rw [hs] at h
    exact ⟨F, rfl, h⟩

theorem nb_of_ok {p : ZMod n → ℝ} {F : Filt n nb} {iP} {fs : ℝ} {window : List ℤ} {lf : ℕ} {r : Fit n nb}
    (h : ofNsmb p F iP fs window lf = .ok r) : nb ≠ 0 := by
  intro h0
  unfold ofNsmb at h
  dsimp only at h
  rw [if_pos h0] at h
  split_ifs at h

/-- Without polarities `of_mb` returns the least-squares fit. -/
theorem mb_free {T : Fin (nb + 1) → ZMod n → ℝ} {psd : ZMod n → ℝ} {fs : ℝ} {F : Filt n nb}
    (hF : setup T psd fs = .ok F) (hpsd : ∀ f, f ≠ 0 → 0 < psd f) (hfs : 0 < fs) {p : ZMod n → ℝ} {lf : ℕ}
    {a : Fin nb → ℝ} {x y : ℝ} (h : ofMb p F (fun _ => 0) lf = .ok (a, x, y)) :
    (x = power (noise psd fs) (resTrace p (backgrounds T) a) ∧
      y = residChi2Lf (noise psd fs) (resTrace p (backgrounds T) a) lf) ∧
    ∀ b, power (noise psd fs) (resTrace p (backgrounds T) a) ≤ power (noise psd fs) (resTrace p (backgrounds T) b) := by
  obtain ⟨h1, a0, h2, -, h3⟩ := mb_optimal_partial hF hpsd hfs h
  refine ⟨⟨h1, ?_⟩, fun b => ?_⟩
  · obtain ⟨-, -, hJ, -, -, -, -, hT, -⟩ := setup_ok hF
    unfold ofMb at h
    dsimp only at h
    split_ifs at h
    simp only [Except.ok.injEq, Prod.mk.injEq] at h
    obtain ⟨ha, -, hy⟩ := h
    rw [ha, hJ, hT] at hy
    rw [← hy]
    congr 1
    funext τ
    unfold resTrace backgrounds
    congr 1
    exact Finset.sum_congr rfl fun i _ => mul_comm _ _
  · have h4 := h3 a0 fun i hi => by
      rcases hi with hi | hi
      · exact absurd ⟨fun q => absurd q (by norm_num), fun q => absurd q (by norm_num)⟩ hi
      · exact hi
    exact (h1.symm.le.trans h4).trans (h2 b)

end Verif.Nsmb
