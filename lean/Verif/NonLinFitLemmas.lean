import Verif.NonLinLemmas
import Verif.ArgminLemmas

/-! Lemmas about `fit_falltimes` and `fitmuontail`. -/

namespace Verif

open Matrix

/-- The pseudo-inverse of a Gram matrix is symmetric. -/
theorem pinv_symm {ι : Type*} [Fintype ι] {A : Matrix ι ι ℝ} (hA : Aᵀ = A) : (pinv A)ᵀ = pinv A := by
  have h := isPinv_pinv hA
  refine IsPinv.unique (A := A) ⟨?_, ?_, ?_, ?_⟩ h
  · have := congrArg Matrix.transpose h.axa
    rwa [Matrix.transpose_mul, Matrix.transpose_mul, hA, ← Matrix.mul_assoc] at this
  · have := congrArg Matrix.transpose h.xax
    rwa [Matrix.transpose_mul, Matrix.transpose_mul, hA, ← Matrix.mul_assoc] at this
  · have := h.xa
    rw [Matrix.transpose_mul, hA] at this
    rw [Matrix.transpose_mul, Matrix.transpose_transpose, hA, this]
  · have := h.ax
    rw [Matrix.transpose_mul, hA] at this
    rw [Matrix.transpose_mul, Matrix.transpose_transpose, hA, this]

theorem gramT {κ ι : Type*} [Fintype κ] [Fintype ι] (J : Matrix κ ι ℝ) : (Jᵀ * J)ᵀ = Jᵀ * J := by
  rw [Matrix.transpose_mul, Matrix.transpose_transpose]

/-- The pseudo-inverse of a Gram matrix is positive semidefinite. -/
theorem pinv_gram_nonneg {κ ι : Type*} [Fintype κ] [Fintype ι] (J : Matrix κ ι ℝ) (v : ι → ℝ) :
    0 ≤ v ⬝ᵥ (pinv (Jᵀ * J) *ᵥ v) := by
  have h := isPinv_pinv (gramT J)
  have hs := pinv_symm (gramT J)
  set X := pinv (Jᵀ * J)
  have e : X = (J * X)ᵀ * (J * X) := by
    rw [Matrix.transpose_mul, hs]
    rw [show X * Jᵀ * (J * X) = X * (Jᵀ * J) * X by simp only [Matrix.mul_assoc], h.xax]
  rw [e, ← Matrix.mulVec_mulVec, Matrix.dotProduct_mulVec, Matrix.vecMul_transpose]
  exact Finset.sum_nonneg fun i _ => mul_self_nonneg _

end Verif

namespace Verif.NonLin

open Verif Verif.Dft Matrix

variable {n : ℕ} [NeZero n]

/-- The covariance: symmetric, positive semidefinite, the errors are the roots of its diagonal. -/
theorem cov_facts {κ ι : Type*} [Fintype κ] [Fintype ι] [DecidableEq ι] (J : Matrix κ ι ℝ) :
    (pinv (Jᵀ * J))ᵀ = pinv (Jᵀ * J) ∧ (∀ v, 0 ≤ v ⬝ᵥ (pinv (Jᵀ * J) *ᵥ v)) ∧
      ∀ i, Real.sqrt (pinv (Jᵀ * J) i i) ^ 2 = pinv (Jᵀ * J) i i := by
  refine ⟨pinv_symm (gramT J), pinv_gram_nonneg J, fun i => Real.sq_sqrt ?_⟩
  have := pinv_gram_nonneg J (Pi.single i 1)
  simpa using this

theorem argmax_ok {l : List ℝ} {i : ℤ} (h : argmax l = .ok i) :
    0 ≤ i ∧ i < l.length ∧ (∀ j < l.length, l.getD j 0 ≤ l.getD i.toNat 0) ∧
      ∀ j < i.toNat, l.getD j 0 < l.getD i.toNat 0 := by
  unfold argmax at h
  cases hm : OF.argminOn (fun i => -(l.getD i.toNat 0)) (OF.arange 0 l.length) with
  | none => rw [hm] at h; cases h
  | some k =>
    rw [hm] at h
    cases h
    obtain ⟨h1, h2, h3⟩ := OF.argminOn_spec _ _ (OF.arange_sorted _ _) _ hm
    rw [OF.mem_arange] at h1
    refine ⟨h1.1, h1.2, fun j hj => ?_, fun j hj => ?_⟩
    · have := h2 (j : ℤ) ((OF.mem_arange _ _ _).2 ⟨by omega, by omega⟩)
      simp only [Int.toNat_natCast] at this
      linarith
    · have := h3 (j : ℤ) ((OF.mem_arange _ _ _).2 ⟨by omega, by omega⟩) (by omega)
      simp only [Int.toNat_natCast] at this
      linarith

theorem argmax_defined {l : List ℝ} (h : l ≠ []) : ∃ i, argmax l = .ok i := by
  unfold argmax
  cases hm : OF.argminOn (fun i => -(l.getD i.toNat 0)) (OF.arange 0 l.length) with
  | none =>
    have := (OF.argminOn_none _ _).1 hm
    have hl : 0 < l.length := List.length_pos_of_ne_nil h
    have : (0 : ℤ) ∈ OF.arange 0 l.length := (OF.mem_arange _ _ _).2 ⟨le_rfl, by exact_mod_cast hl⟩
    simp_all
  | some k => exact ⟨k, rfl⟩

theorem argmax_nil : argmax [] = .error .valueError := rfl

omit [NeZero n] in
theorem toL_length (p : ZMod n → ℝ) : (toL p).length = n := by simp [toL]

omit [NeZero n] in
theorem toL_getD (p : ZMod n → ℝ) {j : ℕ} (hj : j < n) : (toL p).getD j 0 = p (j : ZMod n) := by
  simp [toL, hj]

/-- Anatomy of a returned fit. -/
theorem run_ok {o : Obj n} {pulse : ZMod n → ℝ} {guess : Option (List ℝ)}
    {bounds : Option (List EReal × List EReal)} {taurise : Option ℝ}
    {solve : List ℝ → List EReal × List EReal → Lsq n} {r : FitResult n}
    (h : o.run pulse guess bounds taurise solve = .ok r) :
    ¬ (o.npole = 1 ∧ taurise = none) ∧
    ∃ p0 m res, o.start pulse guess = .ok p0 ∧
      LsqValid p0 (bounds.getD (o.defaultBounds p0)) p0 ∧ o.residuals p0 = .ok res ∧
      r.lsq = solve p0 (bounds.getD (o.defaultBounds p0)) ∧ o.model r.lsq.x = .ok m ∧
      o.calcchi2 m (dofOf o.npole) = .ok r.chi2 ∧ r.cov = pinv (r.lsq.jacᵀ * r.lsq.jac) ∧
      r.errors = fun i => Real.sqrt (r.cov i i) := by
  unfold Obj.run at h
  by_cases h1 : o.npole = 1 ∧ taurise = none
  · rw [if_pos h1] at h; cases h
  rw [if_neg h1] at h
  refine ⟨h1, ?_⟩
  cases hs : o.start pulse guess with
  | error e => rw [hs] at h; cases h
  | ok p0 =>
    rw [hs] at h
    simp only at h
    by_cases hv : LsqValid p0 (bounds.getD (o.defaultBounds p0)) p0
    · rw [if_neg (not_not.2 hv)] at h
      cases hr : o.residuals p0 with
      | error e =>
        rw [hr] at h
        cases e <;> cases h
      | ok res =>
        rw [hr] at h
        simp only at h
        cases hm : o.model (solve p0 (bounds.getD (o.defaultBounds p0))).x with
        | error e => rw [hm] at h; cases h
        | ok m =>
          rw [hm] at h
          simp only at h
          cases hc : o.calcchi2 m (dofOf o.npole) with
          | error e => rw [hc] at h; cases h
          | ok c =>
            rw [hc] at h
            cases h
            exact ⟨p0, m, res, rfl, hv, hr, rfl, hm, hc, rfl, rfl⟩
    · rw [if_pos hv] at h; cases h

/-- Strict bounds around a positive start point pass the validation. -/
theorem lsqValid_of {x0 : List ℝ} {b : List EReal × List EReal} (h1 : b.1.length = x0.length)
    (h2 : b.2.length = x0.length) (h3 : ∀ p ∈ b.1.zip x0, p.1 < (p.2 : EReal))
    (h4 : ∀ p ∈ b.2.zip x0, (p.2 : EReal) < p.1) (hpos : ∀ x ∈ x0, 0 < x) : LsqValid x0 b x0 := by
  refine ⟨h1, h2, fun p hp => ?_, fun p hp => (h3 p hp).le, fun p hp => (h4 p hp).le, hpos⟩
  obtain ⟨i, hi, rfl⟩ := List.mem_iff_getElem.1 hp
  rw [List.length_zip] at hi
  have hi0 : i < x0.length := by omega
  have a := h3 (b.1[i], x0[i]) (List.mem_iff_getElem.2 ⟨i, by rw [List.length_zip]; omega, by simp⟩)
  have c := h4 (b.2[i], x0[i]) (List.mem_iff_getElem.2 ⟨i, by rw [List.length_zip]; omega, by simp⟩)
  simp only [List.getElem_zip]
  exact a.trans c

/-- The reduced chi2 in terms of the psd. -/
theorem chi2_weighted {psd : ZMod n → ℝ} {fs : ℝ} {tmpl : Option (List ℝ)} {pulse : ZMod n → ℝ}
    {npole : ℤ} {errscale : ℝ} {tau : Option ℝ} {scale : Bool} {o : Obj n}
    (ho : o = (init psd fs tmpl).prepare pulse npole errscale tau scale)
    (hpsd : ∀ k, k ≠ 0 → 0 < psd k) (herr : 0 < errscale)
    {m : ZMod n → ℂ} {chi2 : ℝ} {dof : ℕ} (hc : o.calcchi2 m dof = .ok chi2) :
    chi2 * ((n : ℝ) - dof) =
      errscale * (‖fftR pulse 0 / (Real.sqrt (fs * n) : ℂ) - m 0‖ ^ 2 / 10 ^ 40 +
      ∑ k ∈ Finset.univ.erase 0, ‖fftR pulse k / (Real.sqrt (fs * n) : ℂ) - m k‖ ^ 2 / psd k) := by
  unfold Obj.calcchi2 at hc
  split_ifs at hc with hd
  cases hc
  have hd' : (((n : ℤ) - dof : ℤ) : ℝ) ≠ 0 := by exact_mod_cast hd
  push_cast at hd' ⊢
  rw [div_mul_cancel₀ _ hd']
  rw [← Finset.add_sum_erase _ _ (Finset.mem_univ (0 : ZMod n)), mul_add, Finset.mul_sum]
  subst ho
  congr 1
  · simp only [Obj.prepare, init, Function.update_self]
    rw [Real.sq_sqrt (by positivity)]
    field_simp
  · refine Finset.sum_congr rfl fun k hk => ?_
    have hk0 := Finset.ne_of_mem_erase hk
    simp only [Obj.prepare, init, Function.update_of_ne hk0]
    rw [Real.sq_sqrt (div_nonneg (hpsd k hk0).le herr.le)]
    have := (hpsd k hk0).ne'
    field_simp

omit [NeZero n] in
theorem argmax_peak (pulse : ZMod n → ℝ) {m : ℕ} (hmn : m < n)
    (hmax : ∀ j : ZMod n, j ≠ (m : ZMod n) → pulse j < pulse (m : ZMod n)) :
    argmax (toL pulse) = .ok (m : ℤ) := by
  obtain ⟨i, hi⟩ := argmax_defined (l := toL pulse) (by
    intro h
    have := toL_length pulse
    rw [h] at this
    simp at this
    omega)
  obtain ⟨h0, h1, h2, -⟩ := argmax_ok hi
  rw [toL_length] at h1 h2
  have := h2 m hmn
  rw [toL_getD _ hmn, toL_getD _ (by omega)] at this
  by_contra hne
  refine absurd this (not_le.2 (hmax _ fun he => hne ?_))
  rw [hi]
  congr 1
  have : i.toNat = m := by
    have := (ZMod.natCast_eq_natCast_iff' i.toNat m n).1 he
    rwa [Nat.mod_eq_of_lt (by omega), Nat.mod_eq_of_lt hmn] at this
  omega

omit [NeZero n] in
theorem slice_mem (p : ZMod n → ℝ) {a b : ℤ} (ha : 0 ≤ a) (hb : 0 ≤ b) {x : ℝ}
    (hx : x ∈ slice (toL p) a b) : ∃ j : ℕ, a ≤ j ∧ (j : ℤ) < b ∧ j < n ∧ x = p (j : ZMod n) := by
  unfold slice Np.clipIdx at hx
  rw [toL_length, if_pos ha, if_pos hb] at hx
  obtain ⟨k, hk, rfl⟩ := List.getElem_of_mem hx
  rw [List.length_drop, List.length_take, toL_length] at hk
  refine ⟨min a.toNat n + k, by omega, by omega, by omega, ?_⟩
  rw [List.getElem_drop, List.getElem_take]
  simp [toL]

omit [NeZero n] in
theorem slice_ne (p : ZMod n → ℝ) {a b : ℤ} (ha : 0 ≤ a) (hab : a < b) (han : a < n) :
    slice (toL p) a b ≠ [] := by
  intro h
  have := congrArg List.length h
  unfold slice Np.clipIdx at this
  rw [List.length_drop, List.length_take, toL_length, if_pos ha, if_pos (by omega)] at this
  simp only [List.length_nil] at this
  omega

theorem mean_pos {l : List ℝ} (hne : l ≠ []) (h : ∀ x ∈ l, 0 < x) : ∃ a, Np.mean l = some a ∧ 0 < a := by
  refine ⟨_, if_neg hne, div_pos ?_ (by exact_mod_cast List.length_pos_of_ne_nil hne)⟩
  exact List.sum_pos _ h hne

theorem muonTau_defined (fs : ℝ) (signal : ZMod n → ℝ) : ∃ τ, muonTau fs signal = .ok τ := by
  obtain ⟨i, hi⟩ := argmax_defined (l := (toL signal).map fun y =>
    -|y - ampscale signal / Real.exp 1|) (by
      intro h
      have := congrArg List.length h
      rw [List.length_map, toL_length] at this
      exact NeZero.ne n this)
  exact ⟨_, by unfold muonTau; rw [hi]⟩

/-- A guess of the right length is the start point. -/
theorem start_some {o : Obj n} {pulse : ZMod n → ℝ} {g p0 : List ℝ}
    (h : o.start pulse (some g) = .ok p0) : p0 = g := by
  unfold Obj.start at h
  simp only at h
  split_ifs at h <;> cases h <;> rfl

end Verif.NonLin
