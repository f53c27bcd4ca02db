import Verif.DidvBeliefGlue

/-! Helper lemmas for C155: the responses with one, two and three poles as functions of the parameters of a fit with priors, of
which the data leave the resistances open and determine the rest. -/

namespace Verif.Device
open Verif Verif.Dft Verif.Didv MeasureTheory Filter Topology

theorem real_twice {d : ℕ} (i : Fin d) (x : Fin d → ℝ) : ContDiffAt ℝ 2 (fun v : Fin d → ℝ => (v i : ℂ)) x :=
  (Complex.ofRealCLM.contDiff.contDiffAt (x := x i)).comp x (contDiff_apply ℝ ℝ i).contDiffAt

theorem twice_div {d : ℕ} {a b : (Fin d → ℝ) → ℂ} {x : Fin d → ℝ} (ha : ContDiffAt ℝ 2 a x) (hb : ContDiffAt ℝ 2 b x) (h0 : b x ≠ 0) :
    ContDiffAt ℝ 2 (fun v => a v / b v) x := by
  simp only [div_eq_mul_inv]
  exact ha.mul (hb.inv h0)

theorem shifted_twice {d : ℕ} {Z : (Fin d → ℝ) → ℂ} {x : Fin d → ℝ} (hZ : ContDiffAt ℝ 2 Z x) (h0 : Z x ≠ 0) (f : ℝ) (i : Fin d) :
    ContDiffAt ℝ 2 (shifted Z f i) x :=
  (twice_div contDiffAt_const hZ h0).mul (contDiffAt_const.mul (real_twice i x)).cexp

theorem cvalue_ne {d : ℕ} {x : Fin d → ℝ} {i : Fin d} (h : x i ≠ 0) : ∀ᶠ v in 𝓝 x, v i ≠ 0 :=
  (continuous_apply i).continuousAt.eventually_ne h

/-- A response without change, multiplied by the shunt resistance. -/
theorem still_scaled {d : ℕ} {Z : (Fin d → ℝ) → ℂ} {x : Fin d → ℝ} {i0 : Fin d} (hx : x i0 ≠ 0) (hZ : ContDiffAt ℝ 2 Z x) (h0 : Z x ≠ 0)
    {f : ℝ} {i : Fin d} {u : Fin d → ℝ} (hu : u i0 = 0) (h : fderiv ℝ (shifted (fun v => Z v / (v i0 : ℂ)) f i) x u = 0) {Z' : ℂ}
    (hZ' : HasDerivAt (fun s : ℝ => Z (x + s • u)) Z' 0) : Z' + jw f * u i * Z x = 0 := by
  have hc : (x i0 : ℂ) ≠ 0 := Complex.ofReal_ne_zero.2 hx
  have e0 : x + (0 : ℝ) • u = x := by simp
  have h1 : HasDerivAt (fun s : ℝ => Z (x + s • u) / (((x + s • u) i0 : ℝ) : ℂ)) (Z' / x i0) 0 := by
    refine (hZ'.div (line_deriv x u i0) (by rw [e0]; exact hc)).congr_deriv ?_
    rw [e0, hu]
    field_simp
    simp
  have := shifted_still ((twice_div hZ (real_twice i0 x) hc).of_le (by norm_num)) (div_ne_zero h0 hc) h h1
  field_simp at this
  simpa using this

section
variable {o : Obj} {n : ℕ} [NeZero n] {W : ZMod n → ℂ} {c : Option ℝ} {f0 : ℝ}

theorem responds_truth {Z : ℝ → ℂ} {dt : ℝ} (hρ : 0 < o.rsh) (h : Responds o W Z dt) (k : ZMod n) :
    1 / (Z (fftfreq o.fs k) / (o.rsh : ℂ)) * Complex.exp (-2 * Complex.I * Real.pi * fftfreq o.fs k * dt) = o.rsh * W k := by
  obtain ⟨h1, h2⟩ := h k
  have hc : (o.rsh : ℂ) ≠ 0 := Complex.ofReal_ne_zero.2 hρ.ne'
  rw [h2]
  field_simp

/-! ### One pole -/

noncomputable def p1 (f : ℝ) (v : Fin 4 → ℝ) : ℂ := docOne f (v 0) (v 1) (v 2)

theorem p1_twice (f : ℝ) (x : Fin 4 → ℝ) : ContDiffAt ℝ 2 (p1 f) x :=
  ((real_twice 0 x).add (real_twice 1 x)).add (contDiffAt_const.mul (real_twice 2 x))

theorem p1_line (f : ℝ) (x u : Fin 4 → ℝ) : HasDerivAt (fun s : ℝ => p1 f (x + s • u)) (u 0 + u 1 + jw f * u 2) 0 :=
  ((line_deriv x u 0).add (line_deriv x u 1)).add ((line_deriv x u 2).const_mul (jw f))

theorem p1_inj (hf : f0 ≠ 0) {x u : Fin 4 → ℝ} (hx : x 2 ≠ 0) (hu : u 0 = 0)
    (h : ∀ j : ℕ, j < 3 → u 0 + u 1 + jw ((2 * j + 1) * f0) * u 2 +
      jw ((2 * j + 1) * f0) * u 3 * p1 ((2 * j + 1) * f0) x = 0) : u = 0 := by
  have hc := coeffs_zero hf (N := 3) (c := fun i => ((if i = 0 then u 1 else if i = 1 then u 2 + u 3 * (x 0 + x 1)
    else u 3 * x 2 : ℝ) : ℂ)) fun j hj => by
      rw [← h j hj]
      simp only [Finset.sum_range_succ, Finset.sum_range_zero, p1, docOne, hu]
      simp [jw]
      ring
  have c0 := hc 0 (by norm_num)
  have c1 := hc 1 (by norm_num)
  have c2 := hc 2 (by norm_num)
  simp only [Complex.ofReal_eq_zero] at c0 c1 c2
  norm_num at c0 c1 c2
  have h3 : u 3 = 0 := by tauto
  rw [h3] at c1
  have h2 : u 2 = 0 := by linarith
  funext i
  fin_cases i <;> simp [hu, c0, h2, h3]

theorem p1_family (hf : DrivenBelow o c n f0 3) {σ x : Fin 4 → ℝ} (hx : x 0 = o.rsh) (hpos : ∀ i : Fin 4, i.val + 1 < 4 → 0 < x i)
    (hσ : σ 0 ≠ 0) (hW : Responds o W (fun f => docOne f (x 0) (x 1) (x 2)) (x 3)) :
    Family o W c σ (fun f => shifted (fun v => p1 f v / (v 0 : ℂ)) f 3) x := by
  have p0 := hpos 0 (by simp)
  have q1 := hpos 1 (by simp)
  have q2 := hpos 2 (by simp)
  have hc : (x 0 : ℂ) ≠ 0 := Complex.ofReal_ne_zero.2 p0.ne'
  have hne : ∀ k, p1 (fftfreq o.fs k) x ≠ 0 := fun k => (hW k).1
  refine ⟨fun k => ?_, fun k => ?_, fun k => ?_, fun u hu hu' => ?_, hpos⟩
  · have hs : ∀ᶠ v in 𝓝 x, v 0 + v 1 ≠ 0 :=
      ContinuousAt.eventually_ne (g := fun v : Fin 4 → ℝ => v 0 + v 1) (by fun_prop) (by positivity)
    filter_upwards [(p1_twice (fftfreq o.fs k) x).continuousAt.eventually_ne (hne k), hs, cvalue_ne (i := 0) p0.ne'] with v hv h1 h0
    have := (scaledY_doc (fftfreq o.fs k) (v 0) (v 1) 0 0 0 (v 2) 0 0 0 (v 3) (by norm_num) (by simpa using h1) h1).1 hv
    rw [show List.ofFn v = [v 0, v 1, v 2, v 3] by simp [List.ofFn_succ], this]
    simp only [shifted, p1, one_div_div]
  · exact shifted_twice (twice_div (p1_twice _ _) (real_twice 0 x) hc) (div_ne_zero (hne k) hc) _ _
  · rw [hx] at p0
    have := responds_truth p0 hW k
    simp only [shifted, p1]
    rw [← this, hx]
  · refine p1_inj hf.1 q2.ne' (hu' 0 hσ) fun j hj => ?_
    obtain ⟨k, a1, a2, a3⟩ := hf.2 j hj
    rw [← a3]
    exact still_scaled p0.ne' (p1_twice _ _) (hne k) (hu' 0 hσ) (hu k a1 a2) (p1_line _ _ _)

theorem p1_conj (f : ℝ) (v : Fin 4 → ℝ) : shifted (fun v => p1 (-f) v / (v 0 : ℂ)) (-f) 3 v =
    (starRingEnd ℂ) (shifted (fun v => p1 f v / (v 0 : ℂ)) f 3 v) :=
  shifted_conj (by simp [p1, docOne, Complex.conj_ofNat]) _ _

/-! ### Two poles -/

noncomputable def p2 (f : ℝ) (v : Fin 8 → ℝ) : ℂ := docTwo f (v 0) (v 1) (v 2) (v 3) (v 4) (v 5) (v 6)

theorem loop_ne {l : ℝ} (h : l ≠ 1) : (1 - l : ℂ) ≠ 0 := by
  intro h'
  exact h (by exact_mod_cast (sub_eq_zero.1 h').symm)

theorem p2_den (f t l : ℝ) : 1 + 2 * Complex.I * Real.pi * f * t / (1 - l : ℂ) ≠ 0 := by
  have := one_jw_ne f (t / (1 - l))
  unfold jw at this
  push_cast at this
  rwa [← mul_div_assoc] at this

theorem p2_twice (f : ℝ) {x : Fin 8 → ℝ} (h : x 4 ≠ 1) : ContDiffAt ℝ 2 (p2 f) x := by
  have hl := loop_ne h
  have e : ContDiffAt ℝ 2 (fun v : Fin 8 → ℝ => (1 - v 4 : ℂ)) x := contDiffAt_const.sub (real_twice 4 x)
  exact ((((real_twice 0 x).add (real_twice 1 x)).add (contDiffAt_const.mul (real_twice 5 x))).add
    ((real_twice 2 x).mul (contDiffAt_const.add (real_twice 3 x)))).add
    (twice_div (twice_div (((real_twice 2 x).mul (contDiffAt_const.add (real_twice 3 x))).mul (real_twice 4 x)) e hl)
      (contDiffAt_const.add (twice_div (contDiffAt_const.mul (real_twice 6 x)) e hl)) (p2_den _ _ _))

/-- The slope along `u`. -/
noncomputable def p2' (f : ℝ) (x u : Fin 8 → ℝ) : ℂ :=
  u 3 * x 2 + jw f * u 5 + (x 2 * u 3 * x 4 + x 2 * (2 + x 3) * u 4) / (1 - x 4 + jw f * x 6) -
    x 2 * (2 + x 3) * x 4 * (-u 4 + jw f * u 6) / (1 - x 4 + jw f * x 6) ^ 2

theorem p2_line (f : ℝ) {x u : Fin 8 → ℝ} (h : x 4 ≠ 1) (h0 : u 0 = 0) (h1 : u 1 = 0) (h2 : u 2 = 0) :
    HasDerivAt (fun s : ℝ => p2 f (x + s • u)) (p2' f x u) 0 := by
  have hl := loop_ne h
  have hd := p2_den f (x 6) (x 4)
  have e0 : x + (0 : ℝ) • u = x := by simp
  have e := (line_deriv x u 4).const_sub 1
  have := ((((line_deriv x u 0).add (line_deriv x u 1)).add ((line_deriv x u 5).const_mul (jw f))).add
    ((line_deriv x u 2).mul ((line_deriv x u 3).const_add 1))).add
    (((((line_deriv x u 2).mul ((line_deriv x u 3).const_add 2)).mul (line_deriv x u 4)).div e (by rw [e0]; exact hl)).div
      ((((line_deriv x u 6).const_mul (jw f)).div e (by rw [e0]; exact hl)).const_add 1) (by
        simp only [Pi.div_apply, e0]; exact hd))
  refine this.congr_deriv ?_
  have hq : 1 - (x 4 : ℂ) + jw f * x 6 ≠ 0 := by
    intro h'
    apply hd
    unfold jw at h'
    field_simp
    linear_combination h'
  simp only [p2', Pi.div_apply, Pi.mul_apply, Pi.add_apply, Pi.smul_apply, smul_eq_mul, zero_mul, add_zero, zero_add, h0, h1, h2,
    Complex.ofReal_zero]
  rw [show 1 + jw f * (x 6 : ℂ) / (1 - x 4) = (1 - x 4 + jw f * x 6) / (1 - x 4) by field_simp]
  generalize jw f = w at *
  generalize hQ : 1 - (x 4 : ℂ) + w * x 6 = Q at *
  generalize hE : 1 - (x 4 : ℂ) = E at *
  have h6 : w * (x 6 : ℂ) = Q - E := by rw [← hQ]; ring
  rw [h6]
  field_simp
  ring

theorem p2_inj (hf : f0 ≠ 0) {x u : Fin 8 → ℝ} (hl : x 4 ≠ 1) (hx2 : x 2 ≠ 0) (hx3 : 0 < x 3) (hx4 : x 4 ≠ 0) (hx5 : x 5 ≠ 0) (hx6 : x 6 ≠ 0)
    (h0 : u 0 = 0) (h1 : u 1 = 0) (h2 : u 2 = 0)
    (h : ∀ j : ℕ, j < 5 → p2' ((2 * j + 1) * f0) x u + jw ((2 * j + 1) * f0) * u 7 * p2 ((2 * j + 1) * f0) x = 0) : u = 0 := by
  have hc := coeffs_zero hf (N := 5) (c := fun i => ((
    if i = 0 then u 3 * x 2 * (1 - x 4) ^ 2 + (x 2 * u 3 * x 4 + x 2 * (2 + x 3) * u 4) * (1 - x 4) + x 2 * (2 + x 3) * x 4 * u 4
    else if i = 1 then 2 * u 3 * x 2 * (1 - x 4) * x 6 + (u 5 + u 7 * (x 0 + x 1 + x 2 * (1 + x 3))) * (1 - x 4) ^ 2 +
      (x 2 * u 3 * x 4 + x 2 * (2 + x 3) * u 4) * x 6 + u 7 * (x 2 * (2 + x 3) * x 4) * (1 - x 4) - x 2 * (2 + x 3) * x 4 * u 6
    else if i = 2 then u 3 * x 2 * x 6 ^ 2 + 2 * (u 5 + u 7 * (x 0 + x 1 + x 2 * (1 + x 3))) * (1 - x 4) * x 6 +
      u 7 * x 5 * (1 - x 4) ^ 2 + u 7 * (x 2 * (2 + x 3) * x 4) * x 6
    else if i = 3 then (u 5 + u 7 * (x 0 + x 1 + x 2 * (1 + x 3))) * x 6 ^ 2 + 2 * u 7 * x 5 * (1 - x 4) * x 6
    else u 7 * x 5 * x 6 ^ 2 : ℝ) : ℂ)) fun j hj => by
      have e := h j hj
      have hd := p2_den ((2 * j + 1) * f0) (x 6) (x 4)
      have hE := loop_ne hl
      simp only [Finset.sum_range_succ, Finset.sum_range_zero]
      unfold p2' p2 docTwo at e
      rw [show 2 * Complex.I * Real.pi * (((2 * j + 1) * f0 : ℝ) : ℂ) = jw ((2 * j + 1) * f0) from rfl] at e hd
      generalize jw ((2 * j + 1) * f0) = w at *
      have hq : 1 - (x 4 : ℂ) + w * x 6 ≠ 0 := by
        intro h'
        apply hd
        field_simp
        rw [mul_zero]
        exact h'
      rw [show 1 + w * (x 6 : ℂ) / (1 - x 4) = (1 - x 4 + w * x 6) / (1 - x 4) by field_simp] at e
      field_simp at e
      simp
      linear_combination e
  have c0 := hc 0 (by norm_num)
  have c1 := hc 1 (by norm_num)
  have c2 := hc 2 (by norm_num)
  have c3 := hc 3 (by norm_num)
  have c4 := hc 4 (by norm_num)
  simp only [Complex.ofReal_eq_zero] at c0 c1 c2 c3 c4
  norm_num at c0 c1 c2 c3 c4
  have e7 : u 7 = 0 := by tauto
  have e5 : u 5 = 0 := by
    rw [e7] at c3
    have : u 5 * x 6 ^ 2 = 0 := by linarith
    simpa [hx6] using this
  have e3 : u 3 = 0 := by
    rw [e7, e5] at c2
    have : u 3 * (x 2 * x 6 ^ 2) = 0 := by linarith
    simpa [hx6, hx2] using this
  have h23 : 2 + x 3 ≠ 0 := by positivity
  have e4 : u 4 = 0 := by
    rw [e3] at c0
    have : u 4 * (x 2 * (2 + x 3)) = 0 := by linear_combination c0
    simpa [hx2, h23] using this
  have e6 : u 6 = 0 := by
    rw [e3, e4, e5, e7] at c1
    have : u 6 * (x 2 * (2 + x 3) * x 4) = 0 := by linear_combination -c1
    simpa [hx2, h23, hx4] using this
  funext i
  fin_cases i <;> simp [h0, h1, h2, e3, e4, e5, e6, e7]

theorem ne_one {d : ℕ} {x : Fin d → ℝ} {i : Fin d} (h : x i ≠ 1) : ∀ᶠ v in 𝓝 x, v i ≠ 1 :=
  (continuous_apply i).continuousAt.eventually_ne h

theorem p2_family (hf : DrivenBelow o c n f0 5) {σ x : Fin 8 → ℝ} (hx : x 0 = o.rsh) (hpos : ∀ i : Fin 8, i.val + 1 < 8 → 0 < x i)
    (hl : x 4 ≠ 1) (hσ : σ 0 ≠ 0 ∧ σ 1 ≠ 0 ∧ σ 2 ≠ 0)
    (hW : Responds o W (fun f => docTwo f (x 0) (x 1) (x 2) (x 3) (x 4) (x 5) (x 6)) (x 7)) :
    Family o W c σ (fun f => shifted (fun v => p2 f v / (v 0 : ℂ)) f 7) x := by
  have p0 := hpos 0 (by simp)
  have q1 := hpos 1 (by simp)
  have q2 := hpos 2 (by simp)
  have q3 := hpos 3 (by simp)
  have hc : (x 0 : ℂ) ≠ 0 := Complex.ofReal_ne_zero.2 p0.ne'
  have hne : ∀ k, p2 (fftfreq o.fs k) x ≠ 0 := fun k => (hW k).1
  refine ⟨fun k => ?_, fun k => ?_, fun k => ?_, fun u hu hu' => ?_, hpos⟩
  · have hs : ∀ᶠ v in 𝓝 x, v 0 + v 1 ≠ 0 :=
      ContinuousAt.eventually_ne (g := fun v : Fin 8 → ℝ => v 0 + v 1) (by fun_prop) (by positivity)
    have hA : ∀ᶠ v in 𝓝 x, v 0 + v 1 + v 2 * (1 + v 3) ≠ 0 :=
      ContinuousAt.eventually_ne (g := fun v : Fin 8 → ℝ => v 0 + v 1 + v 2 * (1 + v 3)) (by fun_prop) (by positivity)
    filter_upwards [(p2_twice (fftfreq o.fs k) hl).continuousAt.eventually_ne (hne k), hs, hA, ne_one hl] with v hv h1 h2 h3
    have := (scaledY_doc (fftfreq o.fs k) (v 0) (v 1) (v 2) (v 3) (v 4) (v 5) (v 6) 0 0 (v 7) h3 h2 h1).2.1 hv
    rw [show List.ofFn v = [v 0, v 1, v 2, v 3, v 4, v 5, v 6, v 7] by simp [List.ofFn_succ], this]
    simp only [shifted, p2, one_div_div]
  · exact shifted_twice (twice_div (p2_twice _ hl) (real_twice 0 x) hc) (div_ne_zero (hne k) hc) _ _
  · rw [hx] at p0
    have := responds_truth p0 hW k
    simp only [shifted, p2]
    rw [← this, hx]
  · have u0 := hu' 0 hσ.1
    have u1 := hu' 1 hσ.2.1
    have u2 := hu' 2 hσ.2.2
    refine p2_inj hf.1 hl q2.ne' q3 (hpos 4 (by simp)).ne' (hpos 5 (by simp)).ne' (hpos 6 (by simp)).ne' u0 u1 u2 fun j hj => ?_
    obtain ⟨k, a1, a2, a3⟩ := hf.2 j hj
    rw [← a3]
    exact still_scaled p0.ne' (p2_twice _ hl) (hne k) u0 (hu k a1 a2) (p2_line _ hl u0 u1 u2)

theorem p2_conj (f : ℝ) (v : Fin 8 → ℝ) : shifted (fun v => p2 (-f) v / (v 0 : ℂ)) (-f) 7 v =
    (starRingEnd ℂ) (shifted (fun v => p2 f v / (v 0 : ℂ)) f 7 v) :=
  shifted_conj (by simp [p2, docTwo, Complex.conj_ofNat]) _ _

/-! ### Three poles -/

noncomputable def p3 (f : ℝ) (v : Fin 10 → ℝ) : ℂ := docThree f (v 0) (v 1) (v 2) (v 3) (v 4) (v 5) (v 6) (v 7) (v 8)

/-- The denominator of the thermal term, multiplied out. -/
noncomputable def p3K (w : ℂ) (x : Fin 10 → ℝ) : ℂ := (1 - x 4 + w * x 6) * (1 + w * x 8) - x 7

theorem p3_den {f : ℝ} {x : Fin 10 → ℝ} (h : x 4 ≠ 1) :
    docThreeDen f (x 4) (x 6) (x 7) (x 8) = p3K (jw f) x / ((1 - x 4) * (1 + jw f * x 8)) := by
  have hl := loop_ne h
  have h8 := one_jw_ne f (x 8)
  unfold docThreeDen p3K
  rw [show 2 * Complex.I * Real.pi * (f : ℂ) = jw f from rfl]
  field_simp

theorem p3_K_ne {f : ℝ} {x : Fin 10 → ℝ} (h : x 4 ≠ 1) (hd : docThreeDen f (x 4) (x 6) (x 7) (x 8) ≠ 0) : p3K (jw f) x ≠ 0 := by
  rw [p3_den h] at hd
  intro h'
  simp [h'] at hd

theorem p3_den_twice (f : ℝ) {x : Fin 10 → ℝ} (h : x 4 ≠ 1) :
    ContDiffAt ℝ 2 (fun v : Fin 10 → ℝ => docThreeDen f (v 4) (v 6) (v 7) (v 8)) x := by
  have hl := loop_ne h
  have e : ContDiffAt ℝ 2 (fun v : Fin 10 → ℝ => (1 - v 4 : ℂ)) x := contDiffAt_const.sub (real_twice 4 x)
  exact (contDiffAt_const.add (twice_div (contDiffAt_const.mul (real_twice 6 x)) e hl)).sub
    (twice_div (twice_div (real_twice 7 x) e hl) (contDiffAt_const.add (contDiffAt_const.mul (real_twice 8 x))) (one_jw_ne f (x 8)))

theorem p3_twice (f : ℝ) {x : Fin 10 → ℝ} (h : x 4 ≠ 1) (hd : docThreeDen f (x 4) (x 6) (x 7) (x 8) ≠ 0) : ContDiffAt ℝ 2 (p3 f) x := by
  have hl := loop_ne h
  have e : ContDiffAt ℝ 2 (fun v : Fin 10 → ℝ => (1 - v 4 : ℂ)) x := contDiffAt_const.sub (real_twice 4 x)
  exact ((((real_twice 0 x).add (real_twice 1 x)).add (contDiffAt_const.mul (real_twice 5 x))).add
    ((real_twice 2 x).mul (contDiffAt_const.add (real_twice 3 x)))).add
    (twice_div (twice_div (((real_twice 2 x).mul (contDiffAt_const.add (real_twice 3 x))).mul (real_twice 4 x)) e hl)
      (p3_den_twice f h) hd)

/-- The thermal term, multiplied out. -/
theorem p3_eq {f : ℝ} {x : Fin 10 → ℝ} (h : x 4 ≠ 1) (hd : docThreeDen f (x 4) (x 6) (x 7) (x 8) ≠ 0) :
    p3 f x = x 0 + x 1 + jw f * x 5 + x 2 * (1 + x 3) + x 2 * (2 + x 3) * x 4 * (1 + jw f * x 8) / p3K (jw f) x := by
  have hl := loop_ne h
  have h8 := one_jw_ne f (x 8)
  have hK := p3_K_ne h hd
  unfold p3 docThree
  rw [p3_den h, show 2 * Complex.I * Real.pi * (f : ℂ) = jw f from rfl]
  field_simp

/-- The slope along `u`. -/
noncomputable def p3' (f : ℝ) (x u : Fin 10 → ℝ) : ℂ :=
  jw f * u 5 + x 2 * u 3 +
    ((x 2 * u 3 * x 4 + x 2 * (2 + x 3) * u 4) * (1 + jw f * x 8) + x 2 * (2 + x 3) * x 4 * (jw f * u 8)) / p3K (jw f) x -
    x 2 * (2 + x 3) * x 4 * (1 + jw f * x 8) *
      ((-u 4 + jw f * u 6) * (1 + jw f * x 8) + (1 - x 4 + jw f * x 6) * (jw f * u 8) - u 7) / p3K (jw f) x ^ 2

theorem p3_line (f : ℝ) {x u : Fin 10 → ℝ} (h : x 4 ≠ 1) (hd : docThreeDen f (x 4) (x 6) (x 7) (x 8) ≠ 0) (h0 : u 0 = 0) (h1 : u 1 = 0)
    (h2 : u 2 = 0) : HasDerivAt (fun s : ℝ => p3 f (x + s • u)) (p3' f x u) 0 := by
  have hK := p3_K_ne h hd
  have e0 : x + (0 : ℝ) • u = x := by simp
  have hev : (fun s : ℝ => p3 f (x + s • u)) =ᶠ[𝓝 0] fun s : ℝ => ((x + s • u) 0 : ℂ) + ((x + s • u) 1 : ℂ) + jw f * ((x + s • u) 5 : ℂ) +
      ((x + s • u) 2 : ℂ) * (1 + ((x + s • u) 3 : ℂ)) +
      ((x + s • u) 2 : ℂ) * (2 + ((x + s • u) 3 : ℂ)) * ((x + s • u) 4 : ℂ) * (1 + jw f * ((x + s • u) 8 : ℂ)) / p3K (jw f) (x + s • u) := by
    have hcont : Tendsto (fun s : ℝ => x + s • u) (𝓝 0) (𝓝 x) := by
      have : ContinuousAt (fun s : ℝ => x + s • u) 0 := by fun_prop
      have := this.tendsto
      rwa [e0] at this
    filter_upwards [hcont (ne_one h), hcont ((p3_den_twice f h).continuousAt.eventually_ne hd)] with s a1 a2
    exact p3_eq a1 a2
  refine HasDerivAt.congr_of_eventuallyEq ?_ hev
  have := ((((line_deriv x u 0).add (line_deriv x u 1)).add ((line_deriv x u 5).const_mul (jw f))).add
    ((line_deriv x u 2).mul ((line_deriv x u 3).const_add 1))).add
    (((((line_deriv x u 2).mul ((line_deriv x u 3).const_add 2)).mul (line_deriv x u 4)).mul
      (((line_deriv x u 8).const_mul (jw f)).const_add 1)).div
      (((((line_deriv x u 4).const_sub 1).add ((line_deriv x u 6).const_mul (jw f))).mul
        (((line_deriv x u 8).const_mul (jw f)).const_add 1)).sub (line_deriv x u 7)) (by
        simpa [p3K] using hK))
  refine this.congr_deriv ?_
  simp only [p3', p3K, Pi.mul_apply, Pi.sub_apply, Pi.add_apply, Pi.smul_apply, smul_eq_mul, zero_mul, add_zero, zero_add, h0,
    h1, h2, Complex.ofReal_zero]
  have hK' : (1 - (x 4 : ℂ) + jw f * x 6) * (1 + jw f * x 8) - x 7 ≠ 0 := hK
  generalize hQ : (1 - (x 4 : ℂ) + jw f * x 6) * (1 + jw f * x 8) - x 7 = Q at *
  field_simp
  ring

theorem p3_inj (hf : f0 ≠ 0) {x u : Fin 10 → ℝ} (hl : x 4 ≠ 1) (hx2 : x 2 ≠ 0) (hx3 : 0 < x 3) (hx4 : x 4 ≠ 0) (hx5 : x 5 ≠ 0)
    (hx6 : x 6 ≠ 0) (hx7 : x 7 ≠ 0) (hx8 : x 8 ≠ 0) (h0 : u 0 = 0) (h1 : u 1 = 0) (h2 : u 2 = 0)
    (h : ∀ j : ℕ, j < 7 → docThreeDen ((2 * j + 1) * f0) (x 4) (x 6) (x 7) (x 8) ≠ 0 ∧
      p3' ((2 * j + 1) * f0) x u + jw ((2 * j + 1) * f0) * u 9 * p3 ((2 * j + 1) * f0) x = 0) : u = 0 := by
  have hc := coeffs_zero hf (N := 7) (c := fun i => ((
    let A := x 0 + x 1 + x 2 * (1 + x 3)
    let m := x 2 * (2 + x 3)
    let k0 := 1 - x 4 - x 7
    let k1 := x 6 + (1 - x 4) * x 8
    let k2 := x 6 * x 8
    let a0 := x 2 * u 3
    let a1 := u 5 + u 9 * A
    let a2 := u 9 * x 5
    let b0 := x 2 * u 3 * x 4 + m * u 4
    let b1 := b0 * x 8 + m * x 4 * u 8 + u 9 * m * x 4
    let b2 := u 9 * m * x 4 * x 8
    let d0 := -u 4 - u 7
    let d1 := u 6 - u 4 * x 8 + (1 - x 4) * u 8
    let d2 := u 6 * x 8 + x 6 * u 8
    let M := m * x 4
    if i = 0 then a0 * k0 ^ 2 + b0 * k0 - M * d0
    else if i = 1 then a1 * k0 ^ 2 + 2 * a0 * k0 * k1 + b1 * k0 + b0 * k1 - M * (d1 + x 8 * d0)
    else if i = 2 then a2 * k0 ^ 2 + 2 * a1 * k0 * k1 + a0 * (k1 ^ 2 + 2 * k0 * k2) + b2 * k0 + b1 * k1 + b0 * k2 - M * (d2 + x 8 * d1)
    else if i = 3 then 2 * a2 * k0 * k1 + a1 * (k1 ^ 2 + 2 * k0 * k2) + 2 * a0 * k1 * k2 + b2 * k1 + b1 * k2 - M * (x 8 * d2)
    else if i = 4 then a2 * (k1 ^ 2 + 2 * k0 * k2) + 2 * a1 * k1 * k2 + a0 * k2 ^ 2 + b2 * k2
    else if i = 5 then 2 * a2 * k1 * k2 + a1 * k2 ^ 2
    else a2 * k2 ^ 2 : ℝ) : ℂ)) fun j hj => by
      obtain ⟨hd, e⟩ := h j hj
      have hK := p3_K_ne hl hd
      rw [p3_eq hl hd] at e
      simp only [Finset.sum_range_succ, Finset.sum_range_zero]
      unfold p3' at e
      generalize jw ((2 * j + 1) * f0) = w at *
      field_simp at e
      unfold p3K at e
      simp
      linear_combination e
  have c0 := hc 0 (by norm_num)
  have c1 := hc 1 (by norm_num)
  have c2 := hc 2 (by norm_num)
  have c3 := hc 3 (by norm_num)
  have c4 := hc 4 (by norm_num)
  have c5 := hc 5 (by norm_num)
  have c6 := hc 6 (by norm_num)
  simp only [Complex.ofReal_eq_zero] at c0 c1 c2 c3 c4 c5 c6
  norm_num at c0 c1 c2 c3 c4 c5 c6
  clear hc
  have e9 : u 9 = 0 := by tauto
  have e5 : u 5 = 0 := by
    rw [e9] at c5
    have : u 5 * (x 6 * x 8) ^ 2 = 0 := by linarith
    simpa [hx6, hx8] using this
  have e3 : u 3 = 0 := by
    rw [e9, e5] at c4
    have : u 3 * (x 2 * (x 6 * x 8) ^ 2) = 0 := by linear_combination c4
    simpa [hx6, hx2, hx8] using this
  have h23 : 2 + x 3 ≠ 0 := by positivity
  have hm : x 2 * (2 + x 3) ≠ 0 := mul_ne_zero hx2 h23
  simp only [e3, e5, e9] at c0 c1 c2 c3
  have e6 : x 4 * u 6 = u 4 * x 6 := by
    have : (x 2 * (2 + x 3)) * (x 8 ^ 2 * (x 4 * u 6 - u 4 * x 6)) = 0 := by linear_combination -c3
    have := (mul_eq_zero.1 ((mul_eq_zero.1 this).resolve_left hm)).resolve_left (pow_ne_zero 2 hx8)
    linarith
  have e4 : u 4 = 0 := by
    have : (x 2 * (2 + x 3)) * (u 4 * x 8 ^ 2) = 0 := by
      linear_combination c2 + (x 2 * (2 + x 3)) * 2 * x 8 * e6
    have := (mul_eq_zero.1 this).resolve_left hm
    simpa [hx8] using this
  rw [e4] at e6 c0 c1
  have e6' : u 6 = 0 := by simpa [hx4] using e6
  rw [e6'] at c1
  have e7 : u 7 = 0 := by
    have : (x 2 * (2 + x 3)) * (x 4 * u 7) = 0 := by linear_combination c0
    simpa [hx4] using (mul_eq_zero.1 this).resolve_left hm
  rw [e7] at c1
  have e8 : u 8 = 0 := by
    have : (x 2 * (2 + x 3)) * (x 4 * (x 7 * u 8)) = 0 := by linear_combination -c1
    simpa [hx4, hx7] using (mul_eq_zero.1 this).resolve_left hm
  funext i
  fin_cases i <;> simp [h0, h1, h2, e3, e4, e5, e6', e7, e8, e9]

theorem p3_family (hf : DrivenBelow o c n f0 7) {σ x : Fin 10 → ℝ} (hx : x 0 = o.rsh) (hpos : ∀ i : Fin 10, i.val + 1 < 10 → 0 < x i)
    (hl : x 4 ≠ 1) (hσ : σ 0 ≠ 0 ∧ σ 1 ≠ 0 ∧ σ 2 ≠ 0) (hd : ∀ k : ZMod n, docThreeDen (fftfreq o.fs k) (x 4) (x 6) (x 7) (x 8) ≠ 0)
    (hW : Responds o W (fun f => docThree f (x 0) (x 1) (x 2) (x 3) (x 4) (x 5) (x 6) (x 7) (x 8)) (x 9)) :
    Family o W c σ (fun f => shifted (fun v => p3 f v / (v 0 : ℂ)) f 9) x := by
  have p0 := hpos 0 (by simp)
  have q1 := hpos 1 (by simp)
  have q2 := hpos 2 (by simp)
  have q3 := hpos 3 (by simp)
  have hc : (x 0 : ℂ) ≠ 0 := Complex.ofReal_ne_zero.2 p0.ne'
  have hne : ∀ k, p3 (fftfreq o.fs k) x ≠ 0 := fun k => (hW k).1
  refine ⟨fun k => ?_, fun k => ?_, fun k => ?_, fun u hu hu' => ?_, hpos⟩
  · have hs : ∀ᶠ v in 𝓝 x, v 0 + v 1 ≠ 0 :=
      ContinuousAt.eventually_ne (g := fun v : Fin 10 → ℝ => v 0 + v 1) (by fun_prop) (by positivity)
    have hA : ∀ᶠ v in 𝓝 x, v 0 + v 1 + v 2 * (1 + v 3) ≠ 0 :=
      ContinuousAt.eventually_ne (g := fun v : Fin 10 → ℝ => v 0 + v 1 + v 2 * (1 + v 3)) (by fun_prop) (by positivity)
    filter_upwards [(p3_twice (fftfreq o.fs k) hl (hd k)).continuousAt.eventually_ne (hne k), hs, hA, ne_one hl,
      (p3_den_twice (fftfreq o.fs k) hl).continuousAt.eventually_ne (hd k)] with v hv h1 h2 h3 h4
    have := (scaledY_doc (fftfreq o.fs k) (v 0) (v 1) (v 2) (v 3) (v 4) (v 5) (v 6) (v 7) (v 8) (v 9) h3 h2 h1).2.2 h4 hv
    rw [show List.ofFn v = [v 0, v 1, v 2, v 3, v 4, v 5, v 6, v 7, v 8, v 9] by simp [List.ofFn_succ], this]
    simp only [shifted, p3, one_div_div]
  · exact shifted_twice (twice_div (p3_twice _ hl (hd k)) (real_twice 0 x) hc) (div_ne_zero (hne k) hc) _ _
  · rw [hx] at p0
    have := responds_truth p0 hW k
    simp only [shifted, p3]
    rw [← this, hx]
  · have u0 := hu' 0 hσ.1
    have u1 := hu' 1 hσ.2.1
    have u2 := hu' 2 hσ.2.2
    refine p3_inj hf.1 hl q2.ne' q3 (hpos 4 (by simp)).ne' (hpos 5 (by simp)).ne' (hpos 6 (by simp)).ne' (hpos 7 (by simp)).ne'
      (hpos 8 (by simp)).ne' u0 u1 u2 fun j hj => ?_
    obtain ⟨k, a1, a2, a3⟩ := hf.2 j hj
    rw [← a3]
    exact ⟨hd k, still_scaled p0.ne' (p3_twice _ hl (hd k)) (hne k) u0 (hu k a1 a2) (p3_line _ hl (hd k) u0 u1 u2)⟩

theorem p3_conj (f : ℝ) (v : Fin 10 → ℝ) : shifted (fun v => p3 (-f) v / (v 0 : ℂ)) (-f) 9 v =
    (starRingEnd ℂ) (shifted (fun v => p3 f v / (v 0 : ℂ)) f 9 v) :=
  shifted_conj (by simp [p3, docThree, docThreeDen, Complex.conj_ofNat]) _ _

end
theorem not_coveredP {Ω : Type*} [MeasurableSpace Ω] {μ : Measure Ω} [IsProbabilityMeasure μ] {r : Ω → ℝ → PResult} {d : ℕ} {truth : List ℝ}
    {σ : Fin d → ℝ} {i : Fin d} (h : Overconfident μ truth σ r) (hi : σ i = 0) : ¬CoveredP (d := d) μ truth r := by
  rintro ⟨D', C', ⟨h1, h2⟩, h3⟩
  obtain ⟨D, C, G, ⟨a1, a2⟩, -, -, -, -, -, -, hlt⟩ := h
  have hD : D' = D := by
    funext ω i
    exact tendsto_nhds_unique (h1 ω i) (a1 ω i)
  obtain ⟨ω⟩ : Nonempty Ω := μ.nonempty_of_neZero
  have hC : C' i i = C i i := tendsto_nhds_unique (h2 ω i i) (a2 ω i i)
  have := h3 i
  rw [hD, hC] at this
  exact absurd (hlt i hi) (not_lt.2 this)

end Verif.Device
