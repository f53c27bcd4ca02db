import Verif.DidvShiftLemmas
import Mathlib.Algebra.Polynomial.OfFn
import Mathlib.RingTheory.Polynomial.Basic
import Mathlib.Analysis.Normed.Module.FiniteDimension
import Mathlib.Topology.Order.Compact

/-! Lemmas for property C146: fractions of polynomials whose values at many odd harmonics tend, up to a time shift,
to those of a fraction in lowest terms have coefficients which tend to its coefficients. -/

namespace Verif.Didv
open Verif Polynomial Filter Topology

/-- The polynomial with given real coefficients, at the odd harmonics. -/
noncomputable def atH (f0 : ℝ) {a : ℕ} (v : Fin a → ℝ) : ℂ[X] := ((ofFn a v).map Complex.ofRealHom).comp (sPoly f0)

/-- Its values. -/
noncomputable def ev {a : ℕ} (v : Fin a → ℝ) (s : ℂ) : ℂ := ∑ i, (v i : ℂ) * s ^ (i : ℕ)

theorem atH_eval (f0 : ℝ) {a : ℕ} (v : Fin a → ℝ) (j : ℕ) : (atH f0 v).eval (j : ℂ) = ev v (jw ((2 * j + 1) * f0)) := by
  unfold atH ev
  rw [eval_comp, sPoly_eval, ofFn_eq_sum_monomial, Polynomial.map_sum, eval_finsetSum]
  simp

theorem sPoly_degree (f0 : ℝ) : (sPoly f0).natDegree ≤ 1 := by
  unfold sPoly
  compute_degree

theorem atH_degree (f0 : ℝ) {a : ℕ} (v : Fin (a + 1) → ℝ) : (atH f0 v).natDegree ≤ a := by
  unfold atH
  refine natDegree_comp_le.trans ?_
  have h1 : ((ofFn (a + 1) v).map Complex.ofRealHom).natDegree ≤ a :=
    natDegree_map_le.trans (Nat.lt_succ_iff.1 (ofFn_natDegree_lt (by omega) v))
  exact (Nat.mul_le_mul h1 (sPoly_degree f0)).trans (by omega)

theorem prod_degree (f0 : ℝ) {a b d : ℕ} (hd : a + b < d) (v : Fin (a + 1) → ℝ) (w : Fin (b + 1) → ℝ) :
    (atH f0 v * atH f0 w).degree < d := by
  refine lt_of_le_of_lt degree_le_natDegree ?_
  have := natDegree_mul_le (p := atH f0 v) (q := atH f0 w)
  have h1 := atH_degree f0 v
  have h2 := atH_degree f0 w
  exact_mod_cast (show (atH f0 v * atH f0 w).natDegree < d by omega)

theorem comp_zero {f0 : ℝ} (hf : f0 ≠ 0) {P : ℂ[X]} (h : P.comp (sPoly f0) = 0) : P = 0 := by
  rcases comp_eq_zero_iff.1 h with h | ⟨-, h⟩
  · exact h
  · have h1 := congrArg (fun p => p.eval 1 - p.eval 0) h
    simp only [sPoly, eval_mul, eval_add, eval_C, eval_X, eval_one, eval_ofNat] at h1
    have hj : jw f0 ≠ 0 := by
      unfold jw
      have hpi : (Real.pi : ℂ) ≠ 0 := Complex.ofReal_ne_zero.2 Real.pi_ne_zero
      have hf' : (f0 : ℂ) ≠ 0 := Complex.ofReal_ne_zero.2 hf
      simp [hpi, hf']
    have h2 : jw f0 * 2 = 0 := by linear_combination h1
    exact absurd h2 (mul_ne_zero hj two_ne_zero)

theorem atH_zero {f0 : ℝ} (hf : f0 ≠ 0) {a : ℕ} {v : Fin a → ℝ} (h : atH f0 v = 0) : v = 0 := by
  have h1 := comp_zero hf h
  rw [Polynomial.map_eq_zero_iff (RingHom.injective _)] at h1
  exact injective_ofFn a (by rw [h1, map_zero])

theorem atH_mul {f0 : ℝ} (hf : f0 ≠ 0) {P Q : ℝ[X]} (h : (P.map Complex.ofRealHom).comp (sPoly f0) =
    (Q.map Complex.ofRealHom).comp (sPoly f0)) : P = Q := by
  have h1 : ((P.map Complex.ofRealHom) - (Q.map Complex.ofRealHom)).comp (sPoly f0) = 0 := by
    rw [sub_comp, h, sub_self]
  exact Polynomial.map_injective _ (RingHom.injective _) (sub_eq_zero.1 (comp_zero hf h1))

/-- As `shift_sign`, with a product which does not vanish altogether. -/
theorem shift_sign' {N D N' D' : ℂ[X]} {d : ℕ} {f0 δ : ℝ} (h1 : (N' * D).degree < d) (h2 : (N * D').degree < d)
    (h0 : N * D' ≠ 0)
    (h : ∀ j : ℕ, j < 2 * d → (N' * D).eval (j : ℂ) = phase ((2 * j + 1) * f0) δ * (N * D').eval (j : ℂ)) :
    (phase f0 δ = 1 ∨ phase f0 δ = -1) ∧ N' * D = C (phase f0 δ) * (N * D') := by
  have hw : phase f0 δ ^ 2 = 1 := by
    by_contra hw
    have hc := phase_ne f0 δ
    have := (exp_poly hw (pow_ne_zero 2 hc) (b := d) d (P := N' * D) (Q := C (-phase f0 δ) * (N * D')) h1
      (by rwa [degree_C_mul (neg_ne_zero.2 hc)]) (fun j hj => by
        rw [h j (by omega), phase_odd, eval_mul (p := C _), eval_C]
        ring)).2
    rcases mul_eq_zero.1 this with h' | h'
    · rw [C_eq_zero] at h'
      exact neg_ne_zero.2 hc h'
    · exact h0 h'
  refine ⟨(mul_eq_zero.1 (by linear_combination hw : (phase f0 δ - 1) * (phase f0 δ + 1) = 0)).imp sub_eq_zero.1
    eq_neg_of_add_eq_zero_left, ?_⟩
  rw [← sub_eq_zero]
  refine roots_many (b := d) ((degree_sub_le _ _).trans_lt (max_lt h1 ?_)) fun j hj => ?_
  · rwa [degree_C_mul (phase_ne _ _)]
  · rw [eval_sub, h j (by omega), eval_mul (p := C _), eval_C, phase_odd, hw, one_pow, mul_one, sub_self]

/-- Every phase belongs to a time shift. -/
theorem phase_surj {f0 : ℝ} (hf : f0 ≠ 0) {u : ℂ} (hu : ‖u‖ = 1) : ∃ δ, phase f0 δ = u := by
  refine ⟨-u.arg / (2 * Real.pi * f0), ?_⟩
  unfold phase
  have : (-2 * Real.pi * f0 * (-u.arg / (2 * Real.pi * f0)) : ℝ) = u.arg := by
    have := Real.pi_ne_zero
    field_simp
  rw [this]
  have := Complex.norm_mul_exp_arg_mul_I u
  rwa [hu, Complex.ofReal_one, one_mul] at this

theorem phase_norm (f0 d : ℝ) : ‖phase f0 d‖ = 1 := Complex.norm_exp_ofReal_mul_I _

theorem ev_continuous {a : ℕ} (s : ℂ) : Continuous fun v : Fin a → ℝ => ev v s := by
  unfold ev
  fun_prop

theorem ev_smul {a : ℕ} (c : ℝ) (v : Fin a → ℝ) (s : ℂ) : ev (c • v) s = c * ev v s := by
  unfold ev
  rw [Finset.mul_sum]
  refine Finset.sum_congr rfl fun i _ => ?_
  simp only [Pi.smul_apply, smul_eq_mul, Complex.ofReal_mul]
  ring

/-- A fraction in lowest terms, with a denominator of full degree, which equals another one up to a sign: the other one
has a common factor taken in. -/
theorem lowest_terms {a b : ℕ} {N n : Fin (a + 1) → ℝ} {D d : Fin (b + 1) → ℝ} {σ : ℝ} (hσ : σ ≠ 0)
    (hco : IsCoprime (ofFn (a + 1) N) (ofFn (b + 1) D)) (hdeg : D (Fin.last b) ≠ 0)
    (h : ofFn (a + 1) n * ofFn (b + 1) D = C σ * (ofFn (a + 1) N * ofFn (b + 1) d)) :
    ∃ c : ℝ, d = c • D ∧ n = (σ * c) • N := by
  have hD : ofFn (b + 1) D ≠ 0 := by
    intro h0
    have := congrFun (injective_ofFn (b + 1) (h0.trans (map_zero _).symm)) (Fin.last b)
    exact hdeg this
  have hdvd : ofFn (b + 1) D ∣ ofFn (b + 1) d := by
    refine hco.symm.dvd_of_dvd_mul_left (?_ : ofFn (b + 1) D ∣ ofFn (a + 1) N * ofFn (b + 1) d)
    have h1 : ofFn (b + 1) D ∣ C σ * (ofFn (a + 1) N * ofFn (b + 1) d) := ⟨ofFn (a + 1) n, by rw [← h, mul_comm]⟩
    exact ((isUnit_C.2 (isUnit_iff_ne_zero.2 hσ)).dvd_mul_left).1 h1
  have hdD : b ≤ (ofFn (b + 1) D).natDegree := le_natDegree_of_ne_zero (by
    rw [ofFn_coeff_eq_val_of_lt _ (by omega)]
    exact hdeg)
  obtain ⟨q, hq⟩ := hdvd
  have hqd : q.natDegree = 0 := by
    by_cases hq0 : q = 0
    · rw [hq0, natDegree_zero]
    · have h1 := natDegree_mul hD hq0
      rw [← hq] at h1
      have h2 := ofFn_natDegree_lt (by omega) d
      omega
  obtain ⟨c, rfl⟩ := natDegree_eq_zero.1 hqd
  have e1 : d = c • D := injective_ofFn (b + 1) (by rw [hq, map_smul, smul_eq_C_mul, mul_comm])
  refine ⟨c, e1, injective_ofFn (a + 1) ?_⟩
  rw [map_smul, smul_eq_C_mul]
  apply mul_right_cancel₀ hD
  rw [h, hq, C_mul]
  ring

/-- Along an ultrafilter, fractions whose values at the odd harmonics tend, up to a time shift, to those of a fraction
in lowest terms have, up to a factor and a sign, coefficients which tend to its coefficients. -/
theorem stable_fraction {ι : Type*} {l : Ultrafilter ι} {a b d : ℕ} (hd : a + b < d) {N' : ι → Fin (a + 1) → ℝ}
    {D' : ι → Fin (b + 1) → ℝ} {N : Fin (a + 1) → ℝ} {D : Fin (b + 1) → ℝ} {dl : ι → ℝ} {f0 : ℝ} (hf : f0 ≠ 0)
    {Z : ι → ℕ → ℂ} {z : ℕ → ℂ} (hZ : ∀ j < 2 * d, Tendsto (fun i => Z i j) l (𝓝 (z j)))
    (hN' : ∀ j < 2 * d, ∀ i, ev (N' i) (jw ((2 * j + 1) * f0)) =
      phase ((2 * j + 1) * f0) (dl i) * Z i j * ev (D' i) (jw ((2 * j + 1) * f0)))
    (hN : ∀ j < 2 * d, ev N (jw ((2 * j + 1) * f0)) = z j * ev D (jw ((2 * j + 1) * f0)))
    (hD' : ∀ i, D' i ≠ 0) (hN0 : N ≠ 0) (hco : IsCoprime (ofFn (a + 1) N) (ofFn (b + 1) D)) (hdeg : D (Fin.last b) ≠ 0) :
    ∃ (κ : ι → ℝ) (σ : ℝ), (σ = 1 ∨ σ = -1) ∧ Tendsto (fun i => phase f0 (dl i)) l (𝓝 (σ : ℂ)) ∧
      (∀ q, Tendsto (fun i => κ i * D' i q) l (𝓝 (D q))) ∧ ∀ q, Tendsto (fun i => κ i * N' i q) l (𝓝 (σ * N q)) := by
  let v : ι → (Fin (a + 1) → ℝ) × (Fin (b + 1) → ℝ) := fun i => (N' i, D' i)
  have hv : ∀ i, v i ≠ 0 := fun i h0 => hD' i (congrArg Prod.snd h0)
  let w : ι → (Fin (a + 1) → ℝ) × (Fin (b + 1) → ℝ) := fun i => ‖v i‖⁻¹ • v i
  have hw : ∀ i, w i ∈ Metric.sphere (0 : (Fin (a + 1) → ℝ) × (Fin (b + 1) → ℝ)) 1 := fun i => by
    rw [mem_sphere_zero_iff_norm, norm_smul, norm_inv, norm_norm, inv_mul_cancel₀ (norm_ne_zero_iff.2 (hv i))]
  obtain ⟨x, hx, hwx⟩ := (isCompact_sphere (0 : (Fin (a + 1) → ℝ) × (Fin (b + 1) → ℝ)) 1).ultrafilter_le_nhds (l.map w)
    (le_principal_iff.2 (Filter.mem_map.2 (Filter.Eventually.of_forall hw)))
  obtain ⟨u, hu, hul⟩ := (isCompact_sphere (0 : ℂ) 1).ultrafilter_le_nhds (l.map fun i => phase f0 (dl i))
    (le_principal_iff.2 (Filter.mem_map.2 (Filter.Eventually.of_forall fun i => 
      mem_sphere_zero_iff_norm.2 (phase_norm f0 (dl i)))))
  have hwx' : Tendsto w l (𝓝 x) := hwx
  have hul' : Tendsto (fun i => phase f0 (dl i)) l (𝓝 u) := hul
  rw [mem_sphere_zero_iff_norm] at hx hu
  obtain ⟨δ, rfl⟩ := phase_surj hf hu
  have hlim : ∀ j < 2 * d, ev x.1 (jw ((2 * j + 1) * f0)) =
      phase ((2 * j + 1) * f0) δ * z j * ev x.2 (jw ((2 * j + 1) * f0)) := by
    intro j hj
    have h1 : Tendsto (fun i => ev (w i).1 (jw ((2 * j + 1) * f0))) l (𝓝 (ev x.1 (jw ((2 * j + 1) * f0)))) :=
      ((ev_continuous _).tendsto _).comp ((continuous_fst.tendsto _).comp hwx')
    have h2 : Tendsto (fun i => ev (w i).2 (jw ((2 * j + 1) * f0))) l (𝓝 (ev x.2 (jw ((2 * j + 1) * f0)))) :=
      ((ev_continuous _).tendsto _).comp ((continuous_snd.tendsto _).comp hwx')
    have h3 : Tendsto (fun i => phase ((2 * j + 1) * f0) (dl i)) l (𝓝 (phase ((2 * j + 1) * f0) δ)) := by
      simp only [phase_odd]
      exact hul'.mul ((hul'.pow 2).pow j)
    refine tendsto_nhds_unique h1 (((h3.mul (hZ j hj)).mul h2).congr fun i => ?_)
    change _ = ev (‖v i‖⁻¹ • N' i) _
    have e : (w i).2 = ‖v i‖⁻¹ • D' i := rfl
    rw [e, ev_smul, ev_smul, hN' j hj i]
    ring
  have hx2 : x.2 ≠ 0 := by
    intro h0
    have h1 : atH f0 x.1 = 0 := by
      refine roots_many (b := d) ?_ fun j hj => ?_
      · refine degree_le_natDegree.trans_lt ?_
        have := atH_degree f0 x.1
        exact_mod_cast (show (atH f0 x.1).natDegree < d by omega)
      · rw [atH_eval, hlim j (by omega), h0]
        simp [ev]
    have h2 := atH_zero hf h1
    have : x = 0 := Prod.ext h2 h0
    rw [this, norm_zero] at hx
    exact zero_ne_one hx
  obtain ⟨hs, hpoly⟩ := shift_sign' (f0 := f0) (δ := δ) (prod_degree f0 hd x.1 D) (prod_degree f0 hd N x.2)
    (mul_ne_zero (fun h => hN0 (atH_zero hf h)) fun h => hx2 (atH_zero hf h)) (fun j hj => by
      rw [eval_mul, eval_mul, atH_eval, atH_eval, atH_eval, atH_eval, hlim j hj, hN j hj]
      ring)
  obtain ⟨σ, hσ, hp⟩ : ∃ σ : ℝ, (σ = 1 ∨ σ = -1) ∧ phase f0 δ = σ := by
    rcases hs with h | h
    · exact ⟨1, Or.inl rfl, by rw [h]; norm_num⟩
    · exact ⟨-1, Or.inr rfl, by rw [h]; norm_num⟩
  have hσ0 : σ ≠ 0 := by rcases hσ with rfl | rfl <;> norm_num
  have hreal : ofFn (a + 1) x.1 * ofFn (b + 1) D = C σ * (ofFn (a + 1) N * ofFn (b + 1) x.2) := by
    refine atH_mul hf ?_
    rw [Polynomial.map_mul, mul_comp, Polynomial.map_mul, Polynomial.map_mul, mul_comp, mul_comp, Polynomial.map_C,
      C_comp]
    rw [hp] at hpoly
    exact hpoly
  obtain ⟨c, e2, e1⟩ := lowest_terms hσ0 hco hdeg hreal
  have hc : c ≠ 0 := by
    rintro rfl
    exact hx2 (by rw [e2, zero_smul])
  refine ⟨fun i => c⁻¹ * ‖v i‖⁻¹, σ, hσ, by rw [← hp]; exact hul', fun q => ?_, fun q => ?_⟩
  · have h1 : Tendsto (fun i => (w i).2 q) l (𝓝 (x.2 q)) :=
      ((continuous_apply q).tendsto _).comp ((continuous_snd.tendsto _).comp hwx')
    have h2 := h1.const_mul c⁻¹
    rw [e2, Pi.smul_apply, smul_eq_mul, inv_mul_cancel_left₀ hc] at h2
    refine h2.congr fun i => ?_
    change c⁻¹ * (‖v i‖⁻¹ * D' i q) = _
    ring
  · have h1 : Tendsto (fun i => (w i).1 q) l (𝓝 (x.1 q)) :=
      ((continuous_apply q).tendsto _).comp ((continuous_fst.tendsto _).comp hwx')
    have h2 := h1.const_mul c⁻¹
    rw [e1, Pi.smul_apply, smul_eq_mul, show c⁻¹ * (σ * c * N q) = σ * N q by field_simp] at h2
    refine h2.congr fun i => ?_
    change c⁻¹ * (‖v i‖⁻¹ * N' i q) = _
    ring

/-- An admittance with a time shift, in terms of the impedance and another time shift. -/
theorem impedance_of {z x y : ℂ} {f dt dt' : ℝ} (hx : recipZ z = .ok x)
    (e : x * Complex.exp (-2 * Complex.I * Real.pi * f * dt') = y) :
    y ≠ 0 ∧ z = phase f (dt' - dt) * (Complex.exp (-2 * Complex.I * Real.pi * f * dt) / y) := by
  unfold recipZ at hx
  split_ifs at hx with h0
  cases hx
  rw [shift_phase f dt dt'] at e
  have hE := Complex.exp_ne_zero (-2 * Complex.I * Real.pi * f * dt)
  have hp := phase_ne f (dt' - dt)
  subst e
  refine ⟨mul_ne_zero (one_div_ne_zero h0) (mul_ne_zero hE hp), ?_⟩
  field_simp

theorem phase_zero (f : ℝ) : phase f 0 = 1 := by simp [phase]

theorem poly_one (a : ℝ) : ofFn 1 ![a] = C a := by
  rw [ofFn_eq_sum_monomial, Fin.sum_univ_one]
  simp

theorem poly_two (a b : ℝ) : ofFn 2 ![a, b] = C a + C b * X := by
  rw [ofFn_eq_sum_monomial, Fin.sum_univ_two]
  simp [← C_mul_X_pow_eq_monomial]

theorem poly_three (a b c : ℝ) : ofFn 3 ![a, b, c] = C a + C b * X + C c * X ^ 2 := by
  rw [ofFn_eq_sum_monomial, Fin.sum_univ_three]
  simp [← C_mul_X_pow_eq_monomial]

theorem poly_four (a b c d : ℝ) : ofFn 4 ![a, b, c, d] = C a + C b * X + C c * X ^ 2 + C d * X ^ 3 := by
  rw [ofFn_eq_sum_monomial, Fin.sum_univ_four]
  simp [← C_mul_X_pow_eq_monomial]

/-- Two poles. -/
theorem two_pole_tendsto {ι : Type*} {F : Filter ι} {A B t1 t2 dt f0 : ℝ} (hA : 0 < A) (hB : B ≠ 0) (h1 : t1 ≠ 0)
    (hf : f0 ≠ 0) {A' B' t1' t2' dt' : ι → ℝ} (hA' : ∀ i, 0 ≤ A' i) {y : ℕ → ℂ} {Y : ι → ℕ → ℂ}
    (hy : ∀ j : ℕ, j < 8 → fitY ((2 * j + 1) * f0) [A, B, t1, t2, dt] = .ok (y j))
    (hY : ∀ (i : ι) (j : ℕ), j < 8 → fitY ((2 * j + 1) * f0) [A' i, B' i, t1' i, t2' i, dt' i] = .ok (Y i j))
    (hlim : ∀ j < 8, Tendsto (fun i => Y i j) F (𝓝 (y j))) :
    Tendsto A' F (𝓝 A) ∧ Tendsto B' F (𝓝 B) ∧ Tendsto t1' F (𝓝 t1) ∧ Tendsto t2' F (𝓝 t2) ∧
      Tendsto (fun i => phase f0 (dt' i - dt)) F (𝓝 1) := by
  have key : ∀ l : Ultrafilter ι, (l : Filter ι) ≤ F → Tendsto A' l (𝓝 A) ∧ Tendsto B' l (𝓝 B) ∧
      Tendsto t1' l (𝓝 t1) ∧ Tendsto t2' l (𝓝 t2) ∧ Tendsto (fun i => phase f0 (dt' i - dt)) l (𝓝 1) := by
    intro l hl
    have hnum : ∀ A B t1 t2 : ℝ, ∀ s : ℂ, ev ![A + B, A * (t1 + t2), A * (t1 * t2)] s =
        A * ((1 + s * t2) * (1 + s * t1)) + B := by
      intro A B t1 t2 s
      simp only [ev, Fin.sum_univ_three, Matrix.cons_val]
      push_cast
      simp
      ring
    have hden : ∀ (t1 : ℝ) (s : ℂ), ev ![1, t1] s = 1 + s * t1 := by
      intro t1 s
      simp only [ev, Fin.sum_univ_two, Matrix.cons_val]
      simp
      ring
    have hZ2 : ∀ (f A B t1 t2 : ℝ), A * ((1 + jw f * t2) * (1 + jw f * t1)) + B = twoPoleZ f A B t1 t2 * (1 + jw f * t1) := by
      intro f A B t1 t2
      have h := one_jw_ne f t1
      unfold twoPoleZ
      field_simp
    have hyz : ∀ j : ℕ, j < 8 → y j ≠ 0 ∧ twoPoleZ ((2 * j + 1) * f0) A B t1 t2 =
        Complex.exp (-2 * Complex.I * Real.pi * ((2 * j + 1) * f0 : ℝ) * dt) / y j := by
      intro j hj
      obtain ⟨x, hx, e⟩ := fitY_two (hy j hj)
      have := impedance_of (dt := dt) hx e
      rwa [sub_self, phase_zero, one_mul] at this
    have hYz : ∀ i (j : ℕ), j < 8 → twoPoleZ ((2 * j + 1) * f0) (A' i) (B' i) (t1' i) (t2' i) =
        phase ((2 * j + 1) * f0) (dt' i - dt) *
          (Complex.exp (-2 * Complex.I * Real.pi * ((2 * j + 1) * f0 : ℝ) * dt) / Y i j) := by
      intro i j hj
      obtain ⟨x, hx, e⟩ := fitY_two (hY i j hj)
      exact (impedance_of (dt := dt) hx e).2
    obtain ⟨κ, σ, hσ, hph, hD, hN⟩ := stable_fraction (l := l) (a := 2) (b := 1) (d := 4) (by norm_num)
      (N' := fun i => ![A' i + B' i, A' i * (t1' i + t2' i), A' i * (t1' i * t2' i)]) (D' := fun i => ![1, t1' i])
      (N := ![A + B, A * (t1 + t2), A * (t1 * t2)]) (D := ![1, t1]) (dl := fun i => dt' i - dt) hf
      (Z := fun i j => Complex.exp (-2 * Complex.I * Real.pi * ((2 * j + 1) * f0 : ℝ) * dt) / Y i j)
      (z := fun j => Complex.exp (-2 * Complex.I * Real.pi * ((2 * j + 1) * f0 : ℝ) * dt) / y j)
      (fun j hj => tendsto_const_nhds.div ((hlim j hj).mono_left hl) (hyz j hj).1)
      (fun j hj i => by rw [hnum, hden, hZ2, hYz i j hj])
      (fun j hj => by rw [hnum, hden, hZ2, (hyz j hj).2])
      (fun i h0 => one_ne_zero (congrFun h0 0))
      (fun h0 => by
        have e1 : A * (t1 + t2) = 0 := congrFun h0 1
        have e2 : A * (t1 * t2) = 0 := congrFun h0 2
        have e3 := (mul_eq_zero.1 e1).resolve_left hA.ne'
        have e4 := (mul_eq_zero.1 ((mul_eq_zero.1 e2).resolve_left hA.ne')).resolve_left h1
        exact h1 (by linarith))
      (by
        refine ⟨C (1 / B), -C (1 / B) * (C A * (1 + C t2 * X)), ?_⟩
        have hc : (C (1 / B) : ℝ[X]) * C B = 1 := by rw [← C_mul, one_div_mul_cancel hB, C_1]
        rw [poly_three, poly_two]
        simp only [map_add, map_mul, map_one]
        linear_combination hc)
      h1
    have d0 := hD 0
    have d1 := hD 1
    have n0 := hN 0
    have n1 := hN 1
    have n2 := hN 2
    simp only [Matrix.cons_val, mul_one] at d0 d1 n0 n1 n2
    have hκ : ∀ᶠ i in (l : Filter ι), κ i ≠ 0 := d0.eventually_ne one_ne_zero
    have hκt : ∀ᶠ i in (l : Filter ι), κ i * t1' i ≠ 0 := d1.eventually_ne h1
    have T1 : Tendsto t1' l (𝓝 t1) := by
      have := d1.div d0 one_ne_zero
      rw [div_one] at this
      refine this.congr' ?_
      filter_upwards [hκ] with i hi
      simp only [Pi.div_apply]
      field_simp
    have AT2 : Tendsto (fun i => A' i * t2' i) l (𝓝 (σ * (A * t2))) := by
      have := n2.div d1 h1
      rw [show σ * (A * (t1 * t2)) / t1 = σ * (A * t2) by field_simp] at this
      refine this.congr' ?_
      filter_upwards [hκt] with i hi
      simp only [Pi.div_apply]
      have ha := left_ne_zero_of_mul hi
      have hb := right_ne_zero_of_mul hi
      field_simp
    have AA : Tendsto A' l (𝓝 (σ * A)) := by
      have := ((n1.div d0 one_ne_zero).sub AT2).div T1 h1
      rw [show (σ * (A * (t1 + t2)) / 1 - σ * (A * t2)) / t1 = σ * A by field_simp; ring] at this
      refine this.congr' ?_
      filter_upwards [hκt] with i hi
      simp only [Pi.div_apply]
      have ha := left_ne_zero_of_mul hi
      have hb := right_ne_zero_of_mul hi
      field_simp
      ring
    have hσ1 : σ = 1 := by
      rcases hσ with h | h
      · exact h
      · have := ge_of_tendsto' AA hA'
        rw [h] at this
        linarith
    subst hσ1
    rw [one_mul] at AA
    simp only [one_mul] at AT2 n0
    refine ⟨AA, ?_, T1, ?_, by simpa using hph⟩
    · have := (n0.div d0 one_ne_zero).sub AA
      rw [show (A + B) / 1 - A = B by ring] at this
      refine this.congr' ?_
      filter_upwards [hκ] with i hi
      simp only [Pi.div_apply]
      field_simp
      ring
    · have := AT2.div AA hA.ne'
      rw [mul_div_cancel_left₀ _ hA.ne'] at this
      refine this.congr' ?_
      filter_upwards [AA.eventually_ne hA.ne'] with i hi
      simp only [Pi.div_apply]
      field_simp
  refine ⟨?_, ?_, ?_, ?_, ?_⟩ <;> rw [tendsto_iff_ultrafilter] <;> intro l hl
  · exact (key l hl).1
  · exact (key l hl).2.1
  · exact (key l hl).2.2.1
  · exact (key l hl).2.2.2.1
  · exact (key l hl).2.2.2.2

/-- One pole. -/
theorem one_pole_tendsto {ι : Type*} {F : Filter ι} {A t2 dt f0 : ℝ} (hA : 0 < A)
    (hf : f0 ≠ 0) {A' t2' dt' : ι → ℝ} (hA' : ∀ i, 0 ≤ A' i) {y : ℕ → ℂ} {Y : ι → ℕ → ℂ}
    (hy : ∀ j : ℕ, j < 4 → fitY ((2 * j + 1) * f0) [A, t2, dt] = .ok (y j))
    (hY : ∀ (i : ι) (j : ℕ), j < 4 → fitY ((2 * j + 1) * f0) [A' i, t2' i, dt' i] = .ok (Y i j))
    (hlim : ∀ j < 4, Tendsto (fun i => Y i j) F (𝓝 (y j))) :
    Tendsto A' F (𝓝 A) ∧ Tendsto t2' F (𝓝 t2) ∧ Tendsto (fun i => phase f0 (dt' i - dt)) F (𝓝 1) := by
  have key : ∀ l : Ultrafilter ι, (l : Filter ι) ≤ F → Tendsto A' l (𝓝 A) ∧ Tendsto t2' l (𝓝 t2) ∧
      Tendsto (fun i => phase f0 (dt' i - dt)) l (𝓝 1) := by
    intro l hl
    have hnum : ∀ (f A t2 : ℝ), ev ![A, A * t2] (jw f) = onePoleZ f A t2 := by
      intro f A t2
      simp only [ev, Fin.sum_univ_two, Matrix.cons_val, onePoleZ]
      push_cast
      simp
      ring
    have hden : ∀ s : ℂ, ev ![1] s = 1 := by
      intro s
      simp [ev]
    have hyz : ∀ j : ℕ, j < 4 → y j ≠ 0 ∧ onePoleZ ((2 * j + 1) * f0) A t2 =
        Complex.exp (-2 * Complex.I * Real.pi * ((2 * j + 1) * f0 : ℝ) * dt) / y j := by
      intro j hj
      obtain ⟨x, hx, e⟩ := fitY_one (hy j hj)
      have := impedance_of (dt := dt) hx e.symm
      rwa [sub_self, phase_zero, one_mul] at this
    have hYz : ∀ i (j : ℕ), j < 4 → onePoleZ ((2 * j + 1) * f0) (A' i) (t2' i) =
        phase ((2 * j + 1) * f0) (dt' i - dt) *
          (Complex.exp (-2 * Complex.I * Real.pi * ((2 * j + 1) * f0 : ℝ) * dt) / Y i j) := by
      intro i j hj
      obtain ⟨x, hx, e⟩ := fitY_one (hY i j hj)
      exact (impedance_of (dt := dt) hx e.symm).2
    obtain ⟨κ, σ, hσ, hph, hD, hN⟩ := stable_fraction (l := l) (a := 1) (b := 0) (d := 2) (by norm_num)
      (N' := fun i => ![A' i, A' i * t2' i]) (D' := fun _ => ![1])
      (N := ![A, A * t2]) (D := ![1]) (dl := fun i => dt' i - dt) hf
      (Z := fun i j => Complex.exp (-2 * Complex.I * Real.pi * ((2 * j + 1) * f0 : ℝ) * dt) / Y i j)
      (z := fun j => Complex.exp (-2 * Complex.I * Real.pi * ((2 * j + 1) * f0 : ℝ) * dt) / y j)
      (fun j hj => tendsto_const_nhds.div ((hlim j hj).mono_left hl) (hyz j hj).1)
      (fun j hj i => by rw [hnum, hden, hYz i j hj, mul_one])
      (fun j hj => by rw [hnum, hden, (hyz j hj).2, mul_one])
      (fun i h0 => one_ne_zero (congrFun h0 0))
      (fun h0 => hA.ne' (congrFun h0 0))
      (by
        refine ⟨0, 1, ?_⟩
        rw [poly_one, map_one]
        ring)
      one_ne_zero
    have d0 := hD 0
    have n0 := hN 0
    have n1 := hN 1
    simp only [Matrix.cons_val, mul_one] at d0 n0 n1
    have hκ : ∀ᶠ i in (l : Filter ι), κ i ≠ 0 := d0.eventually_ne one_ne_zero
    have AA : Tendsto A' l (𝓝 (σ * A)) := by
      have := n0.div d0 one_ne_zero
      rw [div_one] at this
      refine this.congr' ?_
      filter_upwards [hκ] with i hi
      simp only [Pi.div_apply]
      field_simp
    have hσ1 : σ = 1 := by
      rcases hσ with h | h
      · exact h
      · have := ge_of_tendsto' AA hA'
        rw [h] at this
        linarith
    subst hσ1
    rw [one_mul] at AA
    simp only [one_mul] at n0 n1
    refine ⟨AA, ?_, by simpa using hph⟩
    have := n1.div n0 hA.ne'
    rw [mul_div_cancel_left₀ _ hA.ne'] at this
    refine this.congr' ?_
    filter_upwards [AA.eventually_ne hA.ne', hκ] with i hi hk
    simp only [Pi.div_apply]
    field_simp
  refine ⟨?_, ?_, ?_⟩ <;> rw [tendsto_iff_ultrafilter] <;> intro l hl
  · exact (key l hl).1
  · exact (key l hl).2.1
  · exact (key l hl).2.2

/-- Three poles. -/
theorem three_pole_tendsto {ι : Type*} {F : Filter ι} {A B K t1 t2 t3 dt f0 : ℝ} (hA : 0 < A) (hB : B ≠ 0) (hK : K ≠ 0)
    (h1 : t1 ≠ 0) (h3 : t3 ≠ 0) (hf : f0 ≠ 0) {A' B' K' t1' t2' t3' dt' : ι → ℝ} (hA' : ∀ i, 0 ≤ A' i) {y : ℕ → ℂ}
    {Y : ι → ℕ → ℂ} (hy : ∀ j : ℕ, j < 12 → fitY ((2 * j + 1) * f0) [A, B, K, t1, t2, t3, dt] = .ok (y j))
    (hY : ∀ (i : ι) (j : ℕ), j < 12 →
      fitY ((2 * j + 1) * f0) [A' i, B' i, K' i, t1' i, t2' i, t3' i, dt' i] = .ok (Y i j))
    (hlim : ∀ j < 12, Tendsto (fun i => Y i j) F (𝓝 (y j))) :
    Tendsto A' F (𝓝 A) ∧ Tendsto B' F (𝓝 B) ∧ Tendsto K' F (𝓝 K) ∧ Tendsto t1' F (𝓝 t1) ∧ Tendsto t2' F (𝓝 t2) ∧
      Tendsto t3' F (𝓝 t3) ∧ Tendsto (fun i => phase f0 (dt' i - dt)) F (𝓝 1) := by
  have key : ∀ l : Ultrafilter ι, (l : Filter ι) ≤ F → Tendsto A' l (𝓝 A) ∧ Tendsto B' l (𝓝 B) ∧ Tendsto K' l (𝓝 K) ∧
      Tendsto t1' l (𝓝 t1) ∧ Tendsto t2' l (𝓝 t2) ∧ Tendsto t3' l (𝓝 t3) ∧
      Tendsto (fun i => phase f0 (dt' i - dt)) l (𝓝 1) := by
    intro l hl
    have hden : ∀ (f0 K t1 t3 : ℝ) (j : ℕ), ev ![1 - K, t1 + t3, t1 * t3] (jw ((2 * j + 1) * f0)) =
        (den3 f0 K t1 t3).eval (j : ℂ) := by
      intro f0 K t1 t3 j
      simp only [den3, eval_add, eval_sub, eval_mul, eval_C, eval_one, sPoly_eval]
      simp only [ev, Fin.sum_univ_three, Matrix.cons_val]
      push_cast
      simp
      ring
    have hnum : ∀ (f0 A B K t1 t2 t3 : ℝ) (j : ℕ), ev ![A * (1 - K) + B, A * (t1 + t3) + A * t2 * (1 - K) + B * t3,
        A * (t1 * t3) + A * t2 * (t1 + t3), A * t2 * (t1 * t3)] (jw ((2 * j + 1) * f0)) =
        (num3 f0 A B K t1 t2 t3).eval (j : ℂ) := by
      intro f0 A B K t1 t2 t3 j
      simp only [num3, den3, eval_add, eval_sub, eval_mul, eval_C, eval_one, sPoly_eval]
      simp only [ev, Fin.sum_univ_four, Matrix.cons_val]
      push_cast
      simp
      ring
    have hyz : ∀ j : ℕ, j < 12 → y j ≠ 0 ∧ (num3 f0 A B K t1 t2 t3).eval (j : ℂ) =
        Complex.exp (-2 * Complex.I * Real.pi * ((2 * j + 1) * f0 : ℝ) * dt) / y j * (den3 f0 K t1 t3).eval (j : ℂ) := by
      intro j hj
      obtain ⟨z, x, hz, hx, e⟩ := fitY_three (hy j hj)
      have := impedance_of (dt := dt) hx e
      rw [sub_self, phase_zero, one_mul] at this
      exact ⟨this.1, by rw [(frac3 hz).2, this.2]⟩
    have hYz : ∀ i (j : ℕ), j < 12 → (den3 f0 (K' i) (t1' i) (t3' i)).eval (j : ℂ) ≠ 0 ∧
        (num3 f0 (A' i) (B' i) (K' i) (t1' i) (t2' i) (t3' i)).eval (j : ℂ) =
        phase ((2 * j + 1) * f0) (dt' i - dt) *
          (Complex.exp (-2 * Complex.I * Real.pi * ((2 * j + 1) * f0 : ℝ) * dt) / Y i j) *
          (den3 f0 (K' i) (t1' i) (t3' i)).eval (j : ℂ) := by
      intro i j hj
      obtain ⟨z, x, hz, hx, e⟩ := fitY_three (hY i j hj)
      exact ⟨(frac3 hz).1, by rw [(frac3 hz).2, ← (impedance_of (dt := dt) hx e).2]⟩
    obtain ⟨κ, σ, hσ, hph, hD, hN⟩ := stable_fraction (l := l) (a := 3) (b := 2) (d := 6) (by norm_num)
      (N' := fun i => ![A' i * (1 - K' i) + B' i, A' i * (t1' i + t3' i) + A' i * t2' i * (1 - K' i) + B' i * t3' i,
        A' i * (t1' i * t3' i) + A' i * t2' i * (t1' i + t3' i), A' i * t2' i * (t1' i * t3' i)])
      (D' := fun i => ![1 - K' i, t1' i + t3' i, t1' i * t3' i])
      (N := ![A * (1 - K) + B, A * (t1 + t3) + A * t2 * (1 - K) + B * t3,
        A * (t1 * t3) + A * t2 * (t1 + t3), A * t2 * (t1 * t3)]) (D := ![1 - K, t1 + t3, t1 * t3])
      (dl := fun i => dt' i - dt) hf
      (Z := fun i j => Complex.exp (-2 * Complex.I * Real.pi * ((2 * j + 1) * f0 : ℝ) * dt) / Y i j)
      (z := fun j => Complex.exp (-2 * Complex.I * Real.pi * ((2 * j + 1) * f0 : ℝ) * dt) / y j)
      (fun j hj => tendsto_const_nhds.div ((hlim j hj).mono_left hl) (hyz j hj).1)
      (fun j hj i => by rw [hnum, hden, (hYz i j hj).2])
      (fun j hj => by rw [hnum, hden, (hyz j hj).2])
      (fun i h0 => by
        have h := (hYz i 0 (by norm_num)).1
        rw [← hden, h0] at h
        exact h (by simp [ev]))
      (fun h0 => by
        have e3 : A * t2 * (t1 * t3) = 0 := congrFun h0 3
        have e2 : A * (t1 * t3) + A * t2 * (t1 + t3) = 0 := congrFun h0 2
        have h2 : t2 = 0 := (mul_eq_zero.1 ((mul_eq_zero.1 e3).resolve_right (mul_ne_zero h1 h3))).resolve_left hA.ne'
        rw [h2] at e2
        exact mul_ne_zero hA.ne' (mul_ne_zero h1 h3) (by linarith))
      (by
        refine ⟨C (1 / B) * C (1 / K) * (1 + C t1 * X),
          -(C (1 / B) * C (1 / K) * (1 + C t1 * X) * (C A * (1 + C t2 * X))) - C (1 / K), ?_⟩
        have hc : (C (1 / B) : ℝ[X]) * C B = 1 := by rw [← C_mul, one_div_mul_cancel hB, C_1]
        have hk : (C (1 / K) : ℝ[X]) * C K = 1 := by rw [← C_mul, one_div_mul_cancel hK, C_1]
        rw [poly_four, poly_three]
        simp only [map_add, map_mul, map_one, map_sub]
        linear_combination C (1 / K) * (1 + C t1 * X) * (1 + C t3 * X) * hc + hk)
      (mul_ne_zero h1 h3)
    have d0 := hD 0
    have d1 := hD 1
    have d2 := hD 2
    have n0 := hN 0
    have n1 := hN 1
    have n2 := hN 2
    have n3 := hN 3
    simp only [Matrix.cons_val] at d0 d1 d2 n0 n1 n2 n3
    have h13 := mul_ne_zero h1 h3
    have hd2 : ∀ᶠ i in (l : Filter ι), κ i * (t1' i * t3' i) ≠ 0 := d2.eventually_ne h13
    have AT2 : Tendsto (fun i => A' i * t2' i) l (𝓝 (σ * (A * t2))) := by
      have := n3.div d2 h13
      rw [show σ * (A * t2 * (t1 * t3)) / (t1 * t3) = σ * (A * t2) by field_simp] at this
      refine this.congr' ?_
      filter_upwards [hd2] with i hi
      simp only [Pi.div_apply]
      rw [show κ i * (A' i * t2' i * (t1' i * t3' i)) = A' i * t2' i * (κ i * (t1' i * t3' i)) by ring,
        mul_div_cancel_right₀ _ hi]
    have AA : Tendsto A' l (𝓝 (σ * A)) := by
      have := (n2.sub (AT2.mul d1)).div d2 h13
      rw [show (σ * (A * (t1 * t3) + A * t2 * (t1 + t3)) - σ * (A * t2) * (t1 + t3)) / (t1 * t3) = σ * A by
        field_simp; ring] at this
      refine this.congr' ?_
      filter_upwards [hd2] with i hi
      simp only [Pi.div_apply]
      rw [div_eq_iff hi]
      ring
    have hσ1 : σ = 1 := by
      rcases hσ with h | h
      · exact h
      · have := ge_of_tendsto' AA hA'
        rw [h] at this
        linarith
    subst hσ1
    rw [one_mul] at AA
    simp only [one_mul] at AT2 n0 n1
    have KB : Tendsto (fun i => κ i * B' i) l (𝓝 B) := by
      have := n0.sub (AA.mul d0)
      rw [show A * (1 - K) + B - A * (1 - K) = B by ring] at this
      exact this.congr fun i => by ring
    have KBT : Tendsto (fun i => κ i * B' i * t3' i) l (𝓝 (B * t3)) := by
      have := (n1.sub (AA.mul d1)).sub (AT2.mul d0)
      rw [show A * (t1 + t3) + A * t2 * (1 - K) + B * t3 - A * (t1 + t3) - A * t2 * (1 - K) = B * t3 by ring] at this
      exact this.congr fun i => by ring
    have T3 : Tendsto t3' l (𝓝 t3) := by
      have := KBT.div KB hB
      rw [mul_div_cancel_left₀ _ hB] at this
      refine this.congr' ?_
      filter_upwards [KB.eventually_ne hB] with i hi
      simp only [Pi.div_apply]
      rw [mul_div_cancel_left₀ _ hi]
    have hT3 : ∀ᶠ i in (l : Filter ι), t3' i ≠ 0 := T3.eventually_ne h3
    have KT1 : Tendsto (fun i => κ i * t1' i) l (𝓝 t1) := by
      have := d2.div T3 h3
      rw [mul_div_cancel_right₀ _ h3] at this
      refine this.congr' ?_
      filter_upwards [hT3] with i hi
      simp only [Pi.div_apply]
      field_simp
    have K1 : Tendsto κ l (𝓝 1) := by
      have := (d1.sub KT1).div T3 h3
      rw [show (t1 + t3 - t1) / t3 = 1 by field_simp; ring] at this
      refine this.congr' ?_
      filter_upwards [hT3] with i hi
      simp only [Pi.div_apply]
      field_simp
      ring
    have hκ : ∀ᶠ i in (l : Filter ι), κ i ≠ 0 := K1.eventually_ne one_ne_zero
    refine ⟨AA, ?_, ?_, ?_, ?_, T3, by simpa using hph⟩
    · have := KB.div K1 one_ne_zero
      rw [div_one] at this
      refine this.congr' ?_
      filter_upwards [hκ] with i hi
      simp only [Pi.div_apply]
      field_simp
    · have := (tendsto_const_nhds (x := (1 : ℝ))).sub (d0.div K1 one_ne_zero)
      rw [show 1 - (1 - K) / 1 = K by ring] at this
      refine this.congr' ?_
      filter_upwards [hκ] with i hi
      simp only [Pi.div_apply]
      field_simp
      ring
    · have := KT1.div K1 one_ne_zero
      rw [div_one] at this
      refine this.congr' ?_
      filter_upwards [hκ] with i hi
      simp only [Pi.div_apply]
      field_simp
    · have := AT2.div AA hA.ne'
      rw [mul_div_cancel_left₀ _ hA.ne'] at this
      refine this.congr' ?_
      filter_upwards [AA.eventually_ne hA.ne'] with i hi
      simp only [Pi.div_apply]
      field_simp
  refine ⟨?_, ?_, ?_, ?_, ?_, ?_, ?_⟩ <;> rw [tendsto_iff_ultrafilter] <;> intro l hl
  · exact (key l hl).1
  · exact (key l hl).2.1
  · exact (key l hl).2.2.1
  · exact (key l hl).2.2.2.1
  · exact (key l hl).2.2.2.2.1
  · exact (key l hl).2.2.2.2.2.1
  · exact (key l hl).2.2.2.2.2.2

end Verif.Didv
