import Verif.NonLinLemmas
import Verif.DidvPlotLemmas
import Verif.DidvIdentLemmas
import Verif.DidvWaveLemmas
import Mathlib.Algebra.Polynomial.Roots

/-! Helper lemmas: the spectrum of a pulse determines its decay times and amplitudes. -/

namespace Verif.NonLin
open Verif Verif.Dft Polynomial

/-- A sum of as many poles as there are points at which it vanishes has no terms. -/
theorem cauchy_zero (F : Finset ℝ) (c : ℝ → ℝ) (hF : ∀ τ ∈ F, τ ≠ 0) (W : Finset ℝ) (hc : F.card ≤ W.card)
    (h : ∀ ω ∈ W, ∑ τ ∈ F, (c τ : ℂ) * pole τ ω = 0) : ∀ τ ∈ F, c τ = 0 := by
  intro τ hτ
  set P : ℂ[X] := ∑ τ ∈ F, C ((c τ * τ : ℝ) : ℂ) * ∏ σ ∈ F.erase τ, (1 + C ((σ : ℝ) : ℂ) * X) with hP
  have hdeg : P.natDegree < (W.image fun ω : ℝ => (ω : ℂ) * Complex.I).card := by
    rw [Finset.card_image_of_injective]
    · refine lt_of_lt_of_le ?_ hc
      have h1 : P.natDegree ≤ F.card - 1 := by
        refine natDegree_sum_le_of_forall_le F _ fun τ hτ => ?_
        refine natDegree_C_mul_le _ _ |>.trans ?_
        refine (natDegree_prod_le _ _).trans ?_
        have : ∀ σ ∈ F.erase τ, (1 + C ((σ : ℝ) : ℂ) * X).natDegree ≤ 1 := by
          intro σ _
          have : (1 + C ((σ : ℝ) : ℂ) * X : ℂ[X]) = C ((σ : ℝ) : ℂ) * X + C 1 := by
            rw [C_1, add_comm]
          rw [this]
          exact natDegree_linear_le
        refine (Finset.sum_le_card_nsmul _ _ 1 this).trans ?_
        rw [Finset.card_erase_of_mem hτ]
        simp
      have : 0 < F.card := Finset.card_pos.2 ⟨τ, hτ⟩
      omega
    · intro a b hab
      have := mul_right_cancel₀ Complex.I_ne_zero hab
      exact_mod_cast this
  have hz : P = 0 := by
    refine eq_zero_of_natDegree_lt_card_of_eval_eq_zero' P _ (fun s hs => ?_) hdeg
    obtain ⟨ω, hω, rfl⟩ := Finset.mem_image.1 hs
    have hne : ∀ σ : ℝ, (1 + (σ : ℂ) * (ω * Complex.I)) ≠ 0 := by
      intro σ
      have := one_add_I_ne (ω * σ)
      push_cast at this
      rwa [show (1 + (σ : ℂ) * (ω * Complex.I)) = 1 + ω * σ * Complex.I by ring]
    have e : P.eval ((ω : ℂ) * Complex.I) =
        (∏ σ ∈ F, (1 + (σ : ℂ) * (ω * Complex.I))) * ∑ τ ∈ F, (c τ : ℂ) * pole τ ω := by
      rw [hP, eval_finsetSum, Finset.mul_sum]
      refine Finset.sum_congr rfl fun τ hτ => ?_
      rw [eval_mul, eval_C, eval_prod, ← Finset.mul_prod_erase F _ hτ]
      simp only [eval_add, eval_one, eval_mul, eval_C, eval_X]
      unfold pole
      have := hne τ
      rw [show (1 + (ω : ℂ) * τ * Complex.I) = 1 + (τ : ℂ) * (ω * Complex.I) by ring]
      generalize ∏ x ∈ F.erase τ, (1 + (x : ℂ) * (ω * Complex.I)) = Q
      generalize (1 + (τ : ℂ) * (ω * Complex.I)) = D at this ⊢
      field_simp
      push_cast
      ring
    rw [e, h ω hω, mul_zero]
  have h0 : P.eval (-1 / (τ : ℂ)) = 0 := by rw [hz, eval_zero]
  have hτ0 : (τ : ℂ) ≠ 0 := by exact_mod_cast hF τ hτ
  rw [hP, eval_finsetSum, Finset.sum_eq_single τ] at h0
  · rw [eval_mul, eval_C, eval_prod] at h0
    rcases mul_eq_zero.1 h0 with h1 | h1
    · have h2 : c τ * τ = 0 := by exact_mod_cast h1
      exact (mul_eq_zero.1 h2).resolve_right (hF τ hτ)
    · exfalso
      obtain ⟨σ, hσ, h2⟩ := Finset.prod_eq_zero_iff.1 h1
      simp only [eval_add, eval_one, eval_mul, eval_C, eval_X] at h2
      have h3 : (τ : ℂ) = σ := by
        field_simp at h2
        linear_combination h2
      exact (Finset.mem_erase.1 hσ).1 (by exact_mod_cast h3.symm)
  · intro σ hσ hne
    rw [eval_mul, eval_prod]
    have : ∏ j ∈ F.erase σ, eval (-1 / (τ : ℂ)) (1 + C ((j : ℝ) : ℂ) * X) = 0 := by
      refine Finset.prod_eq_zero (Finset.mem_erase.2 ⟨hne.symm, hτ⟩) ?_
      simp only [eval_add, eval_one, eval_mul, eval_C, eval_X]
      field_simp
      ring
    rw [this, mul_zero]
  · exact fun h => absurd hτ h

open Classical in
/-- The amplitude with which the decay time `τ` occurs. -/
noncomputable def coef (l : List (ℝ × ℝ)) (τ : ℝ) : ℝ := (l.map fun p => if p.2 = τ then p.1 else 0).sum

/-- Sums over the terms of a pulse, collected by decay time. -/
theorem coef_sum {R : Type*} [CommRing R] (f : ℝ →+* R) (g : ℝ → R) (l : List (ℝ × ℝ)) (F : Finset ℝ)
    (hF : ∀ p ∈ l, p.2 ∈ F) : (l.map fun p => f p.1 * g p.2).sum = ∑ τ ∈ F, f (coef l τ) * g τ := by
  induction l with
  | nil => simp [coef]
  | cons p l ih =>
    rw [List.map_cons, List.sum_cons, ih fun q hq => hF q (List.mem_cons_of_mem _ hq)]
    have e : ∀ τ, coef (p :: l) τ = (if p.2 = τ then p.1 else 0) + coef l τ := fun τ => by
      simp [coef]
    simp only [e, map_add, add_mul, Finset.sum_add_distrib]
    congr 1
    rw [Finset.sum_eq_single p.2]
    · rw [if_pos rfl]
    · intro σ _ hne
      rw [if_neg hne.symm, map_zero, zero_mul]
    · intro h
      exact absurd (hF p List.mem_cons_self) h

/-- The spectrum of a sum of exponential decays. -/
noncomputable def spec (l : List (ℝ × ℝ)) (ω : ℝ) : ℂ := (l.map fun p => (p.1 : ℂ) * pole p.2 ω).sum

/-- The sum of exponential decays itself. -/
noncomputable def decay (l : List (ℝ × ℝ)) (t : ℝ) : ℝ := (l.map fun p => p.1 * Real.exp (-t / p.2)).sum

theorem coef_append (l m : List (ℝ × ℝ)) (τ : ℝ) : coef (l ++ m) τ = coef l τ + coef m τ := by
  simp [coef]

theorem coef_neg (l : List (ℝ × ℝ)) (τ : ℝ) : coef (l.map fun p => (-p.1, p.2)) τ = -coef l τ := by
  induction l with
  | nil => simp [coef]
  | cons p l ih =>
    simp only [coef, List.map_cons, List.sum_cons] at ih ⊢
    rw [ih]
    split_ifs <;> ring

theorem spec_neg (l : List (ℝ × ℝ)) (ω : ℝ) : spec (l.map fun p => (-p.1, p.2)) ω = -spec l ω := by
  induction l with
  | nil => simp [spec]
  | cons p l ih =>
    simp only [spec, List.map_cons, List.sum_cons] at ih ⊢
    rw [ih]
    push_cast
    ring

/-- Spectra which agree at enough frequencies have the same terms. -/
theorem spec_inj {l m : List (ℝ × ℝ)} (hl : ∀ p ∈ l, p.2 ≠ 0) (hm : ∀ p ∈ m, p.2 ≠ 0) (W : Finset ℝ)
    (hc : l.length + m.length ≤ W.card) (h : ∀ ω ∈ W, spec l ω = spec m ω) : coef l = coef m := by
  classical
  set d := l ++ m.map fun p => (-p.1, p.2) with hd
  have hdne : ∀ p ∈ d, p.2 ≠ 0 := by
    intro p hp
    rcases List.mem_append.1 hp with hp | hp
    · exact hl p hp
    · obtain ⟨q, hq, rfl⟩ := List.mem_map.1 hp
      exact hm q hq
  set F : Finset ℝ := (d.map Prod.snd).toFinset with hF
  have hmem : ∀ p ∈ d, p.2 ∈ F := fun p hp => List.mem_toFinset.2 (List.mem_map.2 ⟨p, hp, rfl⟩)
  have hz := cauchy_zero F (coef d) (fun τ hτ => by
      obtain ⟨p, hp, rfl⟩ := List.mem_map.1 (List.mem_toFinset.1 hτ)
      exact hdne p hp) W
    (by
      refine le_trans (List.toFinset_card_le _) ?_
      rw [List.length_map, hd, List.length_append, List.length_map]
      exact hc)
    (fun ω hω => by
      have e := coef_sum Complex.ofRealHom (fun τ => pole τ ω) d F hmem
      simp only [Complex.ofRealHom_eq_coe] at e
      rw [← e]
      have e2 : (d.map fun p => (p.1 : ℂ) * pole p.2 ω).sum = spec l ω + spec (m.map fun p => (-p.1, p.2)) ω := by
        rw [hd, List.map_append, List.sum_append]
        rfl
      rw [e2, spec_neg, h ω hω, add_neg_cancel])
  funext τ
  by_cases hτ : τ ∈ F
  · have := hz τ hτ
    rw [hd, coef_append, coef_neg] at this
    linarith
  · have : coef d τ = 0 := by
      have : ∀ p ∈ d, (if p.2 = τ then p.1 else 0) = 0 := by
        intro p hp
        rw [if_neg]
        intro e
        exact hτ (e ▸ hmem p hp)
      unfold coef
      rw [List.map_congr_left this]
      simp
    rw [hd, coef_append, coef_neg] at this
    linarith

/-- The same terms give the same pulse. -/
theorem decay_eq {l m : List (ℝ × ℝ)} (h : coef l = coef m) (t : ℝ) : decay l t = decay m t := by
  classical
  set F : Finset ℝ := ((l ++ m).map Prod.snd).toFinset with hF
  have hmem : ∀ p ∈ l ++ m, p.2 ∈ F := fun p hp => List.mem_toFinset.2 (List.mem_map.2 ⟨p, hp, rfl⟩)
  have e1 := coef_sum (RingHom.id ℝ) (fun τ => Real.exp (-t / τ)) l F fun p hp =>
    hmem p (List.mem_append_left _ hp)
  have e2 := coef_sum (RingHom.id ℝ) (fun τ => Real.exp (-t / τ)) m F fun p hp =>
    hmem p (List.mem_append_right _ hp)
  simp only [RingHom.id_apply] at e1 e2
  unfold decay
  rw [e1, e2, h]

theorem coef_of_not_mem {l : List (ℝ × ℝ)} {τ : ℝ} (h : ∀ p ∈ l, p.2 ≠ τ) : coef l τ = 0 := by
  unfold coef
  rw [List.map_congr_left fun p hp => if_neg (h p hp)]
  simp

/-- With distinct decay times and no vanishing amplitude the terms can be read off. -/
theorem mem_iff_coef {l : List (ℝ × ℝ)} (hd : (l.map Prod.snd).Nodup) (h0 : ∀ p ∈ l, p.1 ≠ 0) (a τ : ℝ) :
    (a, τ) ∈ l ↔ a ≠ 0 ∧ coef l τ = a := by
  induction l with
  | nil => simp [coef]; tauto
  | cons p l ih =>
    rw [List.map_cons, List.nodup_cons] at hd
    have ih := ih hd.2 fun q hq => h0 q (List.mem_cons_of_mem _ hq)
    have e : coef (p :: l) τ = (if p.2 = τ then p.1 else 0) + coef l τ := by simp [coef]
    by_cases hp : p.2 = τ
    · have hz : coef l τ = 0 := coef_of_not_mem fun q hq hqe =>
        hd.1 (List.mem_map.2 ⟨q, hq, by rw [hqe, hp]⟩)
      rw [e, if_pos hp, hz, add_zero, List.mem_cons]
      constructor
      · rintro (h | h)
        · rw [← h]
          exact ⟨by rw [show a = p.1 from congrArg Prod.fst h]; exact h0 p List.mem_cons_self, rfl⟩
        · exact absurd (ih.1 h).2 (by rw [hz]; exact (ih.1 h).1.symm)
      · rintro ⟨_, h⟩
        exact .inl (Prod.ext h.symm hp.symm)
    · rw [e, if_neg hp, zero_add, List.mem_cons, ← ih]
      constructor
      · rintro (h | h)
        · exact absurd (congrArg Prod.snd h).symm hp
        · exact h
      · exact .inr

/-- Hence the lists of terms agree up to their order. -/
theorem perm_of_coef {l m : List (ℝ × ℝ)} (hl : (l.map Prod.snd).Nodup) (hm : (m.map Prod.snd).Nodup)
    (hl0 : ∀ p ∈ l, p.1 ≠ 0) (hm0 : ∀ p ∈ m, p.1 ≠ 0) (h : coef l = coef m) : l.Perm m := by
  refine (List.perm_ext_iff_of_nodup (List.Nodup.of_map _ hl) (List.Nodup.of_map _ hm)).2 fun p => ?_
  rw [show p = (p.1, p.2) from rfl, mem_iff_coef hl hl0, mem_iff_coef hm hm0, h]

variable {n : ℕ} [NeZero n]

/-- The angular frequencies other than zero. -/
theorem omega_card {o : Obj n} (hfs : 0 < o.fs) :
    ((Finset.univ.erase (0 : ZMod n)).image o.omega).card = n - 1 := by
  rw [Finset.card_image_of_injective, Finset.card_erase_of_mem (Finset.mem_univ _), Finset.card_univ, ZMod.card]
  intro k j h
  have hn : (n : ℝ) ≠ 0 := by exact_mod_cast NeZero.ne n
  have hpi := Real.pi_ne_zero
  unfold Obj.omega fftfreq at h
  have h1 : ((freqIdx k : ℤ) : ℝ) = (freqIdx j : ℤ) := by
    have h2 := mul_left_cancel₀ (mul_ne_zero two_ne_zero hpi) h
    exact mul_right_cancel₀ hfs.ne' ((div_left_inj' hn).1 h2)
  exact Didv.freqIdx_inj (by exact_mod_cast h1)

/-- The spectra of two sums of decays at the frequencies of the traces. -/
theorem spec_inj_bins {o : Obj n} (hfs : 0 < o.fs) {l m : List (ℝ × ℝ)} (hl : ∀ p ∈ l, p.2 ≠ 0)
    (hm : ∀ p ∈ m, p.2 ≠ 0) (hn : l.length + m.length < n) (c : ZMod n → ℂ) (hc : ∀ k, c k ≠ 0)
    (h : ∀ k, k ≠ 0 → spec l (o.omega k) * c k = spec m (o.omega k) * c k) : coef l = coef m := by
  refine spec_inj hl hm ((Finset.univ.erase (0 : ZMod n)).image o.omega) (by rw [omega_card hfs]; omega) ?_
  intro ω hω
  obtain ⟨k, hk, rfl⟩ := Finset.mem_image.1 hω
  exact mul_right_cancel₀ (hc k) (h k (Finset.mem_erase.1 hk).1)

omit [NeZero n] in
/-- Angular frequency of one of the first bins. -/
theorem omega_bin {o : Obj n} {j : ℕ} (hj : 2 * j < n) :
    o.omega ((j : ℕ) : ZMod n) = j * (2 * Real.pi * o.fs / n) := by
  unfold Obj.omega fftfreq freqIdx
  rw [ZMod.val_cast_of_lt (by omega), if_pos (by omega)]
  push_cast
  ring

/-- The two-pole spectrum with its start time. -/
noncomputable def twoSpec (D τr τf t ω : ℝ) : ℂ :=
  (D : ℂ) / (1 + ω * τf * Complex.I) / (1 + ω * τr * Complex.I) * Complex.exp (-ω * t * Complex.I)

theorem norm_twoSpec (D τr τf t ω : ℝ) :
    ‖twoSpec D τr τf t ω‖ ^ 2 * ((1 + ω ^ 2 * τf ^ 2) * (1 + ω ^ 2 * τr ^ 2)) = D ^ 2 := by
  have h1 : ∀ τ : ℝ, ‖(1 + ω * τ * Complex.I : ℂ)‖ ^ 2 = 1 + ω ^ 2 * τ ^ 2 := by
    intro τ
    have : (1 + ω * τ * Complex.I : ℂ) = ((1 : ℝ) : ℂ) + ((ω * τ : ℝ) : ℂ) * Complex.I := by push_cast; ring
    rw [this, ← Complex.normSq_eq_norm_sq, Complex.normSq_add_mul_I]
    ring
  have h2 : ‖Complex.exp (-ω * t * Complex.I)‖ = 1 := by
    rw [show -(ω : ℂ) * t * Complex.I = ((-ω * t : ℝ) : ℂ) * Complex.I by push_cast; ring]
    exact Complex.norm_exp_ofReal_mul_I _
  unfold twoSpec
  rw [norm_mul, norm_div, norm_div, h2, mul_one, div_pow, div_pow, h1, h1, Complex.norm_real, Real.norm_eq_abs,
    sq_abs]
  have : 1 + ω ^ 2 * τf ^ 2 ≠ 0 := by positivity
  have : 1 + ω ^ 2 * τr ^ 2 ≠ 0 := by positivity
  field_simp

theorem strip {x y a b u v : ℂ} (ha : a ≠ 0) (hb : b ≠ 0) (h : x / a / b * u = y / a / b * v) :
    x * u = y * v := by
  field_simp at h
  exact h

theorem pair_eq {a b c d : ℝ} (ha : 0 < a) (hb : 0 < b) (hc : 0 < c) (hd : 0 < d)
    (hs : a ^ 2 + b ^ 2 = c ^ 2 + d ^ 2) (hp : a ^ 2 * b ^ 2 = c ^ 2 * d ^ 2) :
    (a = c ∧ b = d) ∨ (a = d ∧ b = c) := by
  have h : (a ^ 2 - c ^ 2) * (a ^ 2 - d ^ 2) = 0 := by linear_combination a ^ 2 * hs - hp
  have inj : ∀ {x y : ℝ}, 0 < x → 0 < y → x ^ 2 = y ^ 2 → x = y := fun hx hy e =>
    (pow_left_inj₀ hx.le hy.le two_ne_zero).1 e
  rcases mul_eq_zero.1 h with h | h
  · exact .inl ⟨inj ha hc (by linarith), inj hb hd (by linarith)⟩
  · exact .inr ⟨inj ha hd (by linarith), inj hb hc (by linarith)⟩

/-- Two-pole spectra which agree in the first three bins. -/
theorem two_ident {D τr τf t D' τr' τf' t' w : ℝ} (hw : 0 < w) (hD : D ≠ 0) (hr : 0 < τr) (hf : 0 < τf)
    (hr' : 0 < τr') (hf' : 0 < τf')
    (h : ∀ j : ℕ, 1 ≤ j → j ≤ 3 → twoSpec D τr τf t (j * w) = twoSpec D' τr' τf' t' (j * w)) :
    D = D' ∧ ((τf = τf' ∧ τr = τr') ∨ (τf = τr' ∧ τr = τf')) ∧ ∃ j : ℤ, w * (t - t') = j * (2 * Real.pi) := by
  have key : ∀ j : ℕ, 1 ≤ j → j ≤ 3 →
      (D ^ 2 - D' ^ 2) - (D' ^ 2 * (τf ^ 2 + τr ^ 2) - D ^ 2 * (τf' ^ 2 + τr' ^ 2)) * ((j : ℝ) * w) ^ 2 +
        (D ^ 2 * (τf' ^ 2 * τr' ^ 2) - D' ^ 2 * (τf ^ 2 * τr ^ 2)) * (((j : ℝ) * w) ^ 2) ^ 2 = 0 := by
    intro j h1 h3
    have e1 := norm_twoSpec D τr τf t (j * w)
    have e2 := norm_twoSpec D' τr' τf' t' (j * w)
    rw [h j h1 h3] at e1
    linear_combination (-(1 + ((j : ℝ) * w) ^ 2 * τf' ^ 2) * (1 + ((j : ℝ) * w) ^ 2 * τr' ^ 2)) * e1 +
      ((1 + ((j : ℝ) * w) ^ 2 * τf ^ 2) * (1 + ((j : ℝ) * w) ^ 2 * τr ^ 2)) * e2
  have k1 := key 1 le_rfl (by norm_num)
  have k2 := key 2 (by norm_num) (by norm_num)
  have k3 := key 3 (by norm_num) le_rfl
  have hw2 : 0 < w ^ 2 := by positivity
  obtain ⟨e0, e1, e2⟩ := Didv.even_zero (by push_cast; nlinarith) (by push_cast; nlinarith)
    (by push_cast; nlinarith) k1 k2 k3
  have hDD : D' ^ 2 = D ^ 2 := by linarith
  have hD2 : D ^ 2 ≠ 0 := pow_ne_zero 2 hD
  rw [hDD] at e1 e2
  have hsum : τf ^ 2 + τr ^ 2 = τf' ^ 2 + τr' ^ 2 :=
    mul_left_cancel₀ hD2 (by linarith)
  have hprod : τf ^ 2 * τr ^ 2 = τf' ^ 2 * τr' ^ 2 := mul_left_cancel₀ hD2 (by linarith)
  have hpair := pair_eq hf hr hf' hr' hsum hprod
  have hphase : ∀ j : ℕ, 1 ≤ j → j ≤ 3 → (D : ℂ) * Complex.exp (-((j : ℝ) * w : ℝ) * t * Complex.I) =
      D' * Complex.exp (-((j : ℝ) * w : ℝ) * t' * Complex.I) := by
    intro j h1 h3
    have e := h j h1 h3
    have n1 := one_add_I_ne' ((j : ℝ) * w) τf
    have n2 := one_add_I_ne' ((j : ℝ) * w) τr
    unfold twoSpec at e
    rcases hpair with ⟨rfl, rfl⟩ | ⟨rfl, rfl⟩
    · exact strip n1 n2 e
    · rw [div_right_comm (D' : ℂ)] at e
      exact strip n1 n2 e
  set z : ℂ := Complex.exp (-(w * (t - t') : ℝ) * Complex.I) with hz
  have hj : ∀ j : ℕ, 1 ≤ j → j ≤ 3 → (D : ℂ) * z ^ j = D' := by
    intro j h1 h3
    have e := hphase j h1 h3
    have e2 : Complex.exp (-((j : ℝ) * w : ℝ) * t * Complex.I) =
        z ^ j * Complex.exp (-((j : ℝ) * w : ℝ) * t' * Complex.I) := by
      rw [hz, ← Complex.exp_nat_mul, ← Complex.exp_add]
      congr 1
      push_cast
      ring
    rw [e2, ← mul_assoc] at e
    exact mul_right_cancel₀ (Complex.exp_ne_zero _) e
  have hDc : (D : ℂ) ≠ 0 := by exact_mod_cast hD
  have z0 : z ≠ 0 := Complex.exp_ne_zero _
  have hz1 : z = 1 := by
    have a := hj 1 le_rfl (by norm_num)
    have b := hj 2 (by norm_num) (by norm_num)
    have c : (D : ℂ) * (z * z) = D * z := by rw [← pow_two, b, ← a, pow_one]
    exact mul_left_cancel₀ z0 (by rw [mul_left_cancel₀ hDc c, mul_one])
  have hDe : D = D' := by
    have a := hj 1 le_rfl (by norm_num)
    rw [hz1, one_pow, mul_one] at a
    exact_mod_cast a
  refine ⟨hDe, hpair, ?_⟩
  rw [hz, Complex.exp_eq_one_iff] at hz1
  obtain ⟨j, hj⟩ := hz1
  refine ⟨-j, ?_⟩
  have : ((w * (t - t') : ℝ) : ℂ) = ((-j : ℤ) : ℂ) * (2 * Real.pi) := by
    apply mul_right_cancel₀ Complex.I_ne_zero
    push_cast at hj ⊢
    linear_combination -hj
  exact_mod_cast this

/-- The numerator of the two-pole spectrum per unit amplitude. -/
noncomputable def weight (scale : Bool) (τr τf : ℝ) : ℝ :=
  if scale then
    (if τr < τf then (τf - τr) / ((τr / τf) ^ (τr / (τf - τr)) - (τr / τf) ^ (τf / (τf - τr)))
     else -((τr - τf) / ((τf / τr) ^ (τf / (τr - τf)) - (τf / τr) ^ (τr / (τr - τf)))))
  else τf - τr

theorem weight_pos (scale : Bool) {τr τf : ℝ} (hr : 0 < τr) (h : τr < τf) : 0 < weight scale τr τf := by
  unfold weight
  split_ifs
  · exact div_pos (by linarith) (diff_exp_pos hr h)
  · linarith

theorem weight_neg (scale : Bool) {τr τf : ℝ} (hf : 0 < τf) (h : τf < τr) : weight scale τr τf < 0 := by
  unfold weight
  rw [if_neg (not_lt.2 h.le)]
  split_ifs
  · have := div_pos (sub_pos.2 h) (diff_exp_pos hf h)
    linarith
  · linarith

omit [NeZero n] in
theorem twopole_spec {o : Obj n} {A τr τf t0 : ℝ} {m : ZMod n → ℂ} (hr : 0 < τr) (hf : 0 < τf)
    (h : o.twopole A τr τf t0 = .ok m) (k : ZMod n) :
    m k = twoSpec (A * weight o.scale τr τf) τr τf t0 (o.omega k) * Real.sqrt o.df := by
  unfold Obj.twopole at h
  by_cases hs : o.scale = true
  · rw [if_pos hs] at h
    cases ha : scaledAmp A τr τf with
    | error e => rw [ha] at h; cases h
    | ok amp =>
      rw [ha] at h
      cases h
      have hw : amp * |τr - τf| = A * weight o.scale τr τf := by
        unfold weight
        rw [if_pos hs]
        obtain ⟨-, ⟨hlt, e⟩ | ⟨hlt, e⟩⟩ := scaledAmp_ok hr hf ha
        · rw [if_pos hlt, abs_of_neg (by linarith), e]
          ring
        · rw [if_neg (not_lt.2 hlt.le), abs_of_pos (by linarith), e]
          ring
      unfold twoSpec
      rw [← hw]
      push_cast
      ring
  · rw [if_neg hs] at h
    cases h
    simp only
    rw [← mul_sub, pole_sub]
    unfold twoSpec weight
    rw [if_neg hs]
    push_cast
    ring

omit [NeZero n] in
theorem df_sqrt_ne [NeZero n] {o : Obj n} (hfs : 0 < o.fs) : ((Real.sqrt o.df : ℝ) : ℂ) ≠ 0 := by
  have : 0 < (n : ℝ) := by exact_mod_cast NeZero.pos n
  have : 0 < o.df := by unfold Obj.df; positivity
  exact_mod_cast (Real.sqrt_pos.2 this).ne'

omit [NeZero n] in
theorem bin_ne {j : ℕ} (h1 : 1 ≤ j) (h : j < n) : ((j : ℕ) : ZMod n) ≠ 0 := by
  intro e
  have := congrArg ZMod.val e
  rw [ZMod.val_cast_of_lt h, ZMod.val_zero] at this
  omega

/-- The two-pole model as used by all the properties below. -/
theorem twopole_inj {o : Obj n} (hfs : 0 < o.fs) (hn : 7 ≤ n) {A τr τf t A' τr' τf' t' : ℝ} {m m' : ZMod n → ℂ}
    (hA : 0 < A) (hA' : 0 < A') (hr : 0 < τr) (hf : 0 < τf) (hr' : 0 < τr') (hf' : 0 < τf') (hne : τr ≠ τf)
    (hm : o.twopole A τr τf t = .ok m) (hm' : o.twopole A' τr' τf' t' = .ok m')
    (h : ∀ k, k ≠ 0 → m k = m' k) :
    A = A' ∧ τr = τr' ∧ τf = τf' ∧ ∃ j : ℤ, t = t' + j * (n / o.fs) := by
  have hn0 : 0 < (n : ℝ) := by exact_mod_cast NeZero.pos n
  have hpi := Real.pi_pos
  have hw0 : weight o.scale τr τf ≠ 0 := by
    rcases lt_or_gt_of_ne hne with h | h
    · exact (weight_pos _ hr h).ne'
    · exact (weight_neg _ hf h).ne
  obtain ⟨hD, hp, j, hj⟩ := two_ident (w := 2 * Real.pi * o.fs / n) (t := t) (t' := t') (by positivity)
    (mul_ne_zero hA.ne' hw0) hr hf hr' hf' (fun j h1 h3 => by
      have e := h (j : ZMod n) (bin_ne h1 (by omega))
      rw [twopole_spec hr hf hm, twopole_spec hr' hf' hm', omega_bin (by omega)] at e
      exact mul_right_cancel₀ (df_sqrt_ne hfs) e)
  have ht : ∃ j : ℤ, t = t' + j * (n / o.fs) := by
    refine ⟨j, ?_⟩
    have h2 : 2 * Real.pi * (o.fs * (t - t')) = 2 * Real.pi * (j * n) := by
      field_simp at hj
      linear_combination 2 * Real.pi * hj
    have h3 := mul_left_cancel₀ (by positivity) h2
    field_simp
    linear_combination h3
  rcases hp with ⟨rfl, rfl⟩ | ⟨rfl, rfl⟩
  · exact ⟨mul_right_cancel₀ hw0 hD, rfl, rfl, ht⟩
  · exfalso
    rcases lt_or_gt_of_ne hne with h | h
    · have := mul_pos hA (weight_pos o.scale hr h)
      have := mul_neg_of_pos_of_neg hA' (weight_neg o.scale hr h)
      linarith
    · have := mul_neg_of_pos_of_neg hA (weight_neg o.scale hf h)
      have := mul_pos hA' (weight_pos o.scale hf h)
      linarith

omit [NeZero n] in
/-- Shifting by the length of the trace changes nothing. -/
theorem twopole_period [NeZero n] {o : Obj n} (hfs : 0 < o.fs) (A τr τf t : ℝ) (j : ℤ) :
    o.twopole A τr τf (t + j * (n / o.fs)) = o.twopole A τr τf t := by
  have hn0 : (n : ℝ) ≠ 0 := by exact_mod_cast NeZero.ne n
  have e : ∀ k : ZMod n, Complex.exp (-(o.omega k : ℂ) * ((t + j * (n / o.fs) : ℝ) : ℂ) * Complex.I) =
      Complex.exp (-(o.omega k : ℂ) * (t : ℂ) * Complex.I) := by
    intro k
    rw [Complex.exp_eq_exp_iff_exists_int]
    refine ⟨-(freqIdx k * j), ?_⟩
    have e1 : o.omega k * (j * (n / o.fs)) = 2 * Real.pi * (freqIdx k * j) := by
      unfold Obj.omega fftfreq
      have := hfs.ne'
      field_simp
    have e2 : (o.omega k : ℂ) * ((j * (n / o.fs) : ℝ) : ℂ) = 2 * Real.pi * (freqIdx k * j) := by
      rw [← Complex.ofReal_mul, e1]
      push_cast
      ring
    push_cast at e2 ⊢
    linear_combination (-Complex.I) * e2
  unfold Obj.twopole
  simp only [e]

/-- The chi2 vanishes exactly where the model reproduces the data. -/
theorem chi2_zero {o : Obj n} (herr : ∀ k, 0 < o.error k) {dof : ℕ} (hd : dof < n) (m : ZMod n → ℂ) :
    ∃ c, o.calcchi2 m dof = .ok c ∧ 0 ≤ c ∧ (c = 0 ↔ ∀ k, o.data k = m k) := by
  have h0 : (0 : ℝ) < (((n : ℤ) - dof : ℤ) : ℝ) := by
    have : (0 : ℤ) < (n : ℤ) - dof := by omega
    exact_mod_cast this
  unfold Obj.calcchi2
  rw [if_neg (by omega)]
  refine ⟨_, rfl, div_nonneg (Finset.sum_nonneg fun k _ => by positivity) h0.le, ?_⟩
  rw [div_eq_zero_iff, or_iff_left h0.ne', Finset.sum_eq_zero_iff_of_nonneg fun k _ => by positivity]
  constructor
  · intro h k
    have := h k (Finset.mem_univ k)
    rw [div_eq_zero_iff, or_iff_left (pow_ne_zero 2 (herr k).ne')] at this
    exact sub_eq_zero.1 (norm_eq_zero.1 (pow_eq_zero_iff two_ne_zero |>.1 this))
  · intro h k _
    rw [h k, sub_self, norm_zero]
    simp

/-- Every hermitian spectrum is that of a real trace. -/
theorem exists_real (s : ZMod n → ℂ) (hs : ∀ k, s (-k) = starRingEnd ℂ (s k)) :
    ∃ x : ZMod n → ℝ, ∀ k, fftR x k = s k := by
  have hc : ∀ j, starRingEnd ℂ (ifft s j) = ifft s j := by
    intro j
    rw [ifft_apply, map_mul, map_sum, map_inv₀, Complex.conj_natCast]
    congr 1
    refine Fintype.sum_equiv (Equiv.neg _) _ _ fun k => ?_
    rw [map_mul, conj_e, Equiv.neg_apply, hs, neg_mul]
  refine ⟨fun j => (ifft s j).re, fun k => ?_⟩
  have e : (fun j => (((ifft s j).re : ℝ) : ℂ)) = ifft s :=
    funext fun j => Complex.conj_eq_iff_re.1 (hc j)
  have := congrFun (fft_ifft s) k
  unfold fftR
  rw [e]
  exact this

/-- With an odd number of samples the model spectra are hermitian. -/
theorem twopole_herm {o : Obj n} (hodd : Odd n) {A τr τf t0 : ℝ} {m : ZMod n → ℂ} (hr : 0 < τr) (hf : 0 < τf)
    (h : o.twopole A τr τf t0 = .ok m) (k : ZMod n) : m (-k) = starRingEnd ℂ (m k) := by
  have ho : o.omega (-k) = -o.omega k := by
    unfold Obj.omega fftfreq
    rw [Didv.freqIdx_neg k (by rcases hodd with ⟨a, ha⟩; omega)]
    push_cast
    ring
  rw [twopole_spec hr hf h, twopole_spec hr hf h, ho]
  unfold twoSpec
  simp only [map_mul, map_div₀, Complex.conj_ofReal, map_add, map_one, Complex.conj_I, ← Complex.exp_conj,
    map_neg, Complex.ofReal_neg]
  ring_nf

/-- The only negative term is the rise. -/
theorem falls_perm {F F' : List (ℝ × ℝ)} {S S' τr τr' : ℝ} (hF' : ∀ p ∈ F', 0 < p.1) (hS : 0 < S)
    (h : (F ++ [(-S, τr)]).Perm (F' ++ [(-S', τr')])) : τr = τr' ∧ F.Perm F' := by
  have hm : (-S, τr) ∈ F' ++ [(-S', τr')] := h.mem_iff.1 (by simp)
  rcases List.mem_append.1 hm with hm | hm
  · have := hF' _ hm
    simp only at this
    linarith
  · have e := List.mem_singleton.1 hm
    refine ⟨congrArg Prod.snd e, ?_⟩
    rw [e] at h
    exact (List.perm_append_right_iff _).1 h

theorem fourpole_coef {o : Obj n} (hfs : 0 < o.fs) (hn : 9 ≤ n) {A B C τr τ1 τ2 τ3 A' B' C' τr' τ1' τ2' τ3' : ℝ}
    (t0 : ℝ) (hr : 0 < τr) (h1 : 0 < τ1) (h2 : 0 < τ2) (h3 : 0 < τ3)
    (hr' : 0 < τr') (h1' : 0 < τ1') (h2' : 0 < τ2') (h3' : 0 < τ3')
    (h : ∀ k, k ≠ 0 → o.fourpole A B C τr τ1 τ2 τ3 t0 k = o.fourpole A' B' C' τr' τ1' τ2' τ3' t0 k) :
    coef [(A, τ1), (B, τ2), (C, τ3), (-(A + B + C), τr)] =
      coef [(A', τ1'), (B', τ2'), (C', τ3'), (-(A' + B' + C'), τr')] := by
  refine spec_inj_bins hfs (by simp; exact ⟨h1.ne', h2.ne', h3.ne', hr.ne'⟩)
    (by simp; exact ⟨h1'.ne', h2'.ne', h3'.ne', hr'.ne'⟩) (by simp; omega)
    (fun k => Complex.exp (-Complex.I * o.omega k * t0) * Real.sqrt o.df)
    (fun k => mul_ne_zero (Complex.exp_ne_zero _) (df_sqrt_ne hfs)) fun k hk => ?_
  have e := h k hk
  unfold Obj.fourpole at e
  simp only [spec, List.map_cons, List.map_nil, List.sum_cons, List.sum_nil]
  push_cast
  linear_combination e

theorem threepole_coef {o : Obj n} (hfs : 0 < o.fs) (hn : 7 ≤ n) {A B τr τ1 τ2 A' B' τr' τ1' τ2' : ℝ}
    (t0 : ℝ) (hr : 0 < τr) (h1 : 0 < τ1) (h2 : 0 < τ2) (hr' : 0 < τr') (h1' : 0 < τ1') (h2' : 0 < τ2')
    (h : ∀ k, k ≠ 0 → o.threepole A B τr τ1 τ2 t0 k = o.threepole A' B' τr' τ1' τ2' t0 k) :
    coef [(A, τ1), (B, τ2), (-(A + B), τr)] = coef [(A', τ1'), (B', τ2'), (-(A' + B'), τr')] := by
  refine spec_inj_bins hfs (by simp; exact ⟨h1.ne', h2.ne', hr.ne'⟩)
    (by simp; exact ⟨h1'.ne', h2'.ne', hr'.ne'⟩) (by simp; omega)
    (fun k => Complex.exp (-Complex.I * o.omega k * t0) * Real.sqrt o.df)
    (fun k => mul_ne_zero (Complex.exp_ne_zero _) (df_sqrt_ne hfs)) fun k hk => ?_
  have e := h k hk
  unfold Obj.threepole at e
  simp only [spec, List.map_cons, List.map_nil, List.sum_cons, List.sum_nil]
  push_cast
  linear_combination e

end Verif.NonLin
