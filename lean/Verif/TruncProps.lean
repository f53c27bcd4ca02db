import Verif.TruncLemmas
import Verif.CutProps

/-! Property C88: the estimates `iterstat` gives with `return_unbiased_estimates=True`. -/

namespace Verif.Trunc
open Verif Verif.Cut

/-- **C88**: asking for the unbiased estimates does not change which points are selected. -/
theorem iterstatU_mask (solve : Solver) (f : ℕ) (data : List ℝ) (cut precision : ℝ) :
    (iterstatU solve f data cut precision).map (·.mask) =
      (iterstat f data cut precision).map (·.mask) := by
  unfold iterstatU iterstat
  split_ifs
  · rfl
  · exact isLoopU_mask _ _ _ _ _ _ _ _

/-- **C88**: hence it returns whenever the plain call does, on all data. -/
theorem iterstatU_returns (solve : Solver) (data : List ℝ) (cut precision : ℝ) (hp : 0 ≤ precision) :
    ∃ F mask, ∀ f ≥ F, ∃ r, iterstatU solve f data cut precision = some r ∧ r.mask = mask := by
  obtain ⟨F, r, hr⟩ := iterstat_returns data cut precision hp
  refine ⟨F, r.mask, fun f hf => ?_⟩
  have h := iterstatU_mask solve f data cut precision
  rw [hr f hf] at h
  cases hu : iterstatU solve f data cut precision with
  | none => rw [hu] at h; cases h
  | some q => rw [hu] at h; exact ⟨q, rfl, Option.some_inj.1 h⟩

/-- **C88** (partial).  What comes back is either the plain mean and standard deviation of all data,
or a pair of estimates for the selected points between `m - cut*s` and `m + cut*s`, `m` and `s` being
their mean and standard deviation.  If the solver has solved its equations, the second estimate makes
the likelihood of the truncated normal distribution stationary in the standard deviation; the first
makes it stationary in the mean if it equals `m`.  Missing: stationarity in the mean in general, which
is false (`unbiased_mean_violated`). -/
theorem iterstatU_stationary_partial (solve : Solver) (f : ℕ) (data : List ℝ) (cut precision : ℝ)
    (r : Stat) (hd : data ≠ []) (h : iterstatU solve f data cut precision = some r) :
    (∃ m s, r.mean = some m ∧ r.std = some s ∧ IsMean data m ∧ IsStd data s ∧
      Selected data r.mask = data) ∨
    ∃ m s, IsMean (Selected data r.mask) m ∧ IsStd (Selected data r.mask) s ∧
      r.mean = (unbiased solve (Selected data r.mask) (m - cut * s) (m + cut * s)).map (·.1) ∧
      r.std = (unbiased solve (Selected data r.mask) (m - cut * s) (m + cut * s)).map (·.2) ∧
      ∀ μ σ, r.mean = some μ → r.std = some σ → 0 < cut * s → 0 < σ →
        ∀ x, x = (Selected data r.mask).filter (fun v => decide (|v - m| ≤ cut * s)) →
          muEqn x (m - cut * s) (m + cut * s) μ σ = 0 →
          stdEqn x (m - cut * s) (m + cut * s) μ σ = 0 →
          HasDerivAt (fun t => logLik x (m - cut * s) (m + cut * s) μ t) 0 σ ∧
          (μ = m → HasDerivAt (fun t => logLik x (m - cut * s) (m + cut * s) t σ) 0 μ) := by
  unfold iterstatU at h
  rw [if_neg hd] at h
  rcases isLoopU_result _ _ _ _ _ _ _ _ _ h with rfl | ⟨mask, p, hm, hne, hp, hp1, hp2⟩
  · left
    refine ⟨_, _, rfl, rfl, isMean_avg hd, isStd_std hd, ?_⟩
    rw [← sel_eq_selected, sel_replicate]
  · right
    subst hm
    rw [sel_eq_selected] at hne hp
    refine ⟨_, _, isMean_avg hne, isStd_std hne, hp ▸ hp1, hp ▸ hp2, ?_⟩
    intro μ σ _ _ hcs hσ x _ h1 h2
    have hab : avg (Selected data r.mask) - cut * std (Selected data r.mask) <
        avg (Selected data r.mask) + cut * std (Selected data r.mask) := by linarith
    refine ⟨?_, fun hμ => ?_⟩
    · have := logLik_deriv_σ (μ := μ) hσ hab x
      rwa [h2, zero_div] at this
    · have := logLik_deriv_μ (μ := μ) hσ hab x
      have hpe := (pdf_eq_iff (μ := μ) hσ hab).2 (by rw [hμ]; ring)
      rw [hpe, sub_self, mul_zero, add_zero] at this
      unfold muEqn at h1
      rw [hpe, sub_self, mul_zero, add_zero] at h1
      rwa [h1, zero_div] at this

/-- **C88**: on the regular path the estimates are what the solver makes of the selected points inside
the bounds, started from their mean and standard deviation. -/
theorem unbiased_start (solve : Solver) (x : List ℝ) (a b : ℝ) :
    (∀ v ∈ x, v < a ∨ b < v) ∧ unbiased solve x a b = none ∨
    ∃ y m s, y = x.filter (fun v => decide (a ≤ v ∧ v ≤ b)) ∧ IsMean y m ∧ IsStd y s ∧
      unbiased solve x a b =
        some (solve (fun p => (muEqn y a b p.1 p.2, stdEqn y a b p.1 p.2)) (m, s)) := by
  have hsel : select x a b = x.filter (fun v => decide (a ≤ v ∧ v ≤ b)) := by
    unfold select
    congr 1
    funext v
    rw [Bool.decide_and]
  by_cases hne : select x a b = []
  · left
    refine ⟨fun v hv => ?_, by unfold unbiased; simp only [hne, if_true]⟩
    rw [hsel, List.filter_eq_nil_iff] at hne
    have := hne v hv
    rw [decide_eq_true_iff, not_and_or, not_le, not_le] at this
    exact this
  · right
    refine ⟨select x a b, _, _, hsel, isMean_avg hne, isStd_std hne, ?_⟩
    unfold unbiased
    simp only [if_neg hne]

/-- **C88**: data whose mean lies in the middle of the bounds: its mean solves the first equation, so
nothing needs correcting in the mean. -/
theorem unbiased_centred {x : List ℝ} {a b m σ : ℝ} (hm : IsMean x m) (hc : m = (a + b) / 2)
    (hab : a < b) (hσ : 0 < σ) : muEqn x a b m σ = 0 := by
  unfold muEqn
  rw [(pdf_eq_iff hσ hab).2 hc, sub_self, mul_zero, add_zero, mul_comm (x.length : ℝ), hm.2, sub_self]

/-- Non-vacuity. -/
example : muEqn [0, 2] (-1) 3 1 5 = 0 :=
  unbiased_centred ⟨by simp, by norm_num⟩ (by norm_num) (by norm_num) (by norm_num)

/-- **C88**, violated: away from the centre a solution of the two equations does not make the
likelihood stationary in the mean, unless the standard deviation happens to be 1 in the caller's
units: the truncation term of the first equation lacks the factor `std**2`. -/
theorem unbiased_mean_violated {x : List ℝ} {a b μ σ : ℝ} (hx : x ≠ []) (hab : a < b) (hσ : 0 < σ)
    (h1 : σ ≠ 1) (hc : μ ≠ (a + b) / 2) (hμ : muEqn x a b μ σ = 0) :
    ¬ HasDerivAt (fun t => logLik x a b t σ) 0 μ := by
  intro h0
  have hd := (logLik_deriv_μ (μ := μ) hσ hab x).unique h0
  have hz := Z_pos (μ := μ) hσ hab
  have hpe : pdf b μ σ - pdf a μ σ ≠ 0 := by
    rw [Ne, sub_eq_zero, pdf_eq_iff hσ hab]
    exact hc
  have hn : (x.length : ℝ) ≠ 0 := by
    rw [Nat.cast_ne_zero]
    exact (List.length_pos_iff.2 hx).ne'
  have hs : σ ^ 2 ≠ 1 := by
    intro hs
    apply h1
    nlinarith
  rw [div_eq_zero_iff, or_iff_left (by positivity)] at hd
  unfold muEqn at hμ
  have : (x.length : ℝ) * (σ ^ 2 - 1) * (pdf b μ σ - pdf a μ σ) / (cdf b μ σ - cdf a μ σ) = 0 := by
    have : x.length * σ ^ 2 / (cdf b μ σ - cdf a μ σ) * (pdf b μ σ - pdf a μ σ) -
        x.length / (cdf b μ σ - cdf a μ σ) * (pdf b μ σ - pdf a μ σ) = 0 := by linarith
    rw [← this]
    ring
  rw [div_eq_zero_iff, or_iff_left hz.ne'] at this
  rcases mul_eq_zero.1 this with h | h
  · rcases mul_eq_zero.1 h with h | h
    · exact hn h
    · exact hs (by linarith)
  · exact hpe h

/-- **C88**, violated, the concrete case: two points in `[-1, 2]` for which mean 0 and standard
deviation 2 solve both equations exactly, although the likelihood is not stationary there. -/
theorem unbiased_witness_violated : ∃ x : List ℝ, (∀ v ∈ x, -1 ≤ v ∧ v ≤ 2) ∧
    muEqn x (-1) 2 0 2 = 0 ∧ stdEqn x (-1) 2 0 2 = 0 ∧
    ¬ HasDerivAt (fun t => logLik x (-1) 2 t 2) 0 0 := by
  obtain ⟨p, q, hp, hq, h1, h2⟩ := solution_exists
  refine ⟨[p, q], by simp [hp, hq], h1, h2, ?_⟩
  exact unbiased_mean_violated (by simp) (by norm_num) (by norm_num) (by norm_num) (by norm_num) h1

/-- **C88**: the second equation is a matter of shape, not of units. -/
theorem stdEqn_units {c : ℝ} (hc : 0 < c) (x : List ℝ) (a b μ σ : ℝ) :
    stdEqn (x.map fun v => c * v) (c * a) (c * b) (c * μ) (c * σ) = c ^ 2 * stdEqn x a b μ σ := by
  unfold stdEqn
  rw [cdf_scale hc, cdf_scale hc, pdf_scale hc, pdf_scale hc, List.length_map, List.map_map]
  have h1 : (x.map ((fun v => v ^ 2) ∘ fun v => c * v)).sum = c ^ 2 * (x.map fun v => v ^ 2).sum := by
    rw [← List.sum_map_mul_left]
    congr 1
    apply List.map_congr_left
    intro v _
    simp [mul_pow]
  rw [h1, List.sum_map_mul_left, List.map_id']
  field_simp

/-- **C88**, violated: the estimates depend on the unit of the data.  If `(mu, std)` solves the
equations for some data, then for the same data in another unit (`c * x`) the converted pair does not
solve them, unless `mu` is centred. -/
theorem unbiased_units_violated {x : List ℝ} {a b μ σ c : ℝ} (hx : x ≠ []) (hab : a < b) (hσ : 0 < σ)
    (hc0 : 0 < c) (hc1 : c ≠ 1) (hc : μ ≠ (a + b) / 2) (hμ : muEqn x a b μ σ = 0) :
    muEqn (x.map fun v => c * v) (c * a) (c * b) (c * μ) (c * σ) ≠ 0 := by
  have hz := Z_pos (μ := μ) hσ hab
  have hpe : pdf b μ σ - pdf a μ σ ≠ 0 := by
    rw [Ne, sub_eq_zero, pdf_eq_iff hσ hab]
    exact hc
  have hn : (x.length : ℝ) ≠ 0 := by
    rw [Nat.cast_ne_zero]
    exact (List.length_pos_iff.2 hx).ne'
  unfold muEqn at hμ ⊢
  rw [cdf_scale hc0, cdf_scale hc0, pdf_scale hc0, pdf_scale hc0, List.length_map,
    List.sum_map_mul_left, List.map_id']
  intro h
  have h2 : (x.length : ℝ) / (cdf b μ σ - cdf a μ σ) * (pdf b μ σ - pdf a μ σ) * (1 / c - c) = 0 := by
    have : (x.length : ℝ) / (cdf b μ σ - cdf a μ σ) * (pdf b μ σ / c - pdf a μ σ / c) =
        (x.length : ℝ) / (cdf b μ σ - cdf a μ σ) * (pdf b μ σ - pdf a μ σ) * (1 / c) := by ring
    rw [this] at h
    linear_combination h - c * hμ
  rcases mul_eq_zero.1 h2 with h3 | h3
  · rcases mul_eq_zero.1 h3 with h4 | h4
    · exact div_ne_zero hn hz.ne' h4
    · exact hpe h4
  · rw [sub_eq_zero, div_eq_iff hc0.ne'] at h3
    apply hc1
    nlinarith

/-- Non-vacuity: the two points above, in milliamperes instead of amperes. -/
example : ∃ x : List ℝ, muEqn x (-1) 2 0 2 = 0 ∧
    muEqn (x.map fun v => 1000 * v) (1000 * (-1)) (1000 * 2) (1000 * 0) (1000 * 2) ≠ 0 := by
  obtain ⟨p, q, _, _, h1, _⟩ := solution_exists
  exact ⟨[p, q], h1, unbiased_units_violated (by simp) (by norm_num) (by norm_num) (by norm_num)
    (by norm_num) (by norm_num) h1⟩

end Verif.Trunc
