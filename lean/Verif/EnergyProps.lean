import Verif.EnergyLemmas
import Verif.OFStatProps

/-!
Property C160: noise makes energy_absorbed too large by the heat it dissipates in the load.
-/

namespace Verif.Utils
open Verif MeasureTheory

variable {m : ℕ} {Ω : Type*} [MeasurableSpace Ω] {μ : Measure Ω} {noise : Ω → Fin m → ℝ} {v : Fin m → ℝ}

/-- With a given baseline. -/
theorem energy_noise_given [IsProbabilityMeasure μ] (h : Noisy μ noise v) (e : ℝ) (S : Fin m → ℝ) (ioff qb rl rsh fs b : ℝ)
    (pre post : Option ℤ) :
    ∃ (E0 : ℝ) (E : Ω → ℝ),
      energyAbsorbed e (List.ofFn S) ioff qb rl rsh (some fs) (some b) none pre post = .ok E0 ∧
      (∀ ω, energyAbsorbed e (samples S (noise ω)) ioff qb rl rsh (some fs) (some b) none pre post = .ok (E ω)) ∧
      Integrable E μ ∧
      ∫ ω, E ω ∂μ = E0 + rl * Np.trapz1 (List.ofFn v) / (fs * e) := by
  obtain ⟨h1, h2⟩ := energy_core h S ioff qb rl rsh b (β := fun _ => 0) MemLp.zero (by simp)
  simp only [add_zero] at h1 h2
  refine ⟨_, _, energy_ok _ _ _ _ _ _ _ rfl _, fun ω => energy_ok _ _ _ _ _ _ _ rfl _, h1.div_const _, ?_⟩
  rw [integral_div, h2]
  simp
  ring

/-- With a baseline measured from the trace. -/
theorem energy_noise_measured [IsProbabilityMeasure μ] (h : Noisy μ noise v) (hm : 0 < m) (e : ℝ) (S : Fin m → ℝ)
    (ioff qb rl rsh fs : ℝ) {pre : ℕ} (hp : 0 < pre) (post : Option ℕ) :
    ∃ (E0 : ℝ) (E : Ω → ℝ),
      energyAbsorbed e (List.ofFn S) ioff qb rl rsh (some fs) none none (some (pre : ℤ)) (post.map Nat.cast) = .ok E0 ∧
      (∀ ω, energyAbsorbed e (samples S (noise ω)) ioff qb rl rsh (some fs) none none (some (pre : ℤ))
        (post.map Nat.cast) = .ok (E ω)) ∧
      Integrable E μ ∧
      ∫ ω, E ω ∂μ = E0 + rl * (Np.trapz1 (List.ofFn v) -
        (m - 1 : ℕ) * ∫ ω, meanOver (baseIdx m pre post) (noise ω) ^ 2 ∂μ) / (fs * e) := by
  obtain ⟨g1, g2⟩ := h.mean_over (baseIdx m pre post)
  obtain ⟨h1, h2⟩ := energy_core h S ioff qb rl rsh (meanOver (baseIdx m pre post) S) g1 g2
  have hb : ∀ ω, base1 (samples S (noise ω)) none (some (pre : ℤ)) (post.map Nat.cast) =
      .ok (some (meanOver (baseIdx m pre post) S + meanOver (baseIdx m pre post) (noise ω))) := fun ω => by
    rw [← meanOver_add]
    exact mean_base _ hp hm post
  refine ⟨_, _, energy_ok _ _ _ _ _ _ _ (mean_base S hp hm post) _, fun ω => energy_ok _ _ _ _ _ _ _ (hb ω) _,
    h1.div_const _, ?_⟩
  rw [integral_div, h2]
  ring

/-- Noise of the same variance at every sample: the mean energy is between the true one and the true one plus the heat of
the noise. -/
theorem energy_noise_bounds [IsProbabilityMeasure μ] {s : ℝ} (h : Noisy μ noise fun _ => s) (hm : 0 < m) {e : ℝ} (he : 0 < e)
    (S : Fin m → ℝ) (ioff qb : ℝ) {rl : ℝ} (hrl : 0 ≤ rl) (rsh : ℝ) {fs : ℝ} (hfs : 0 < fs) {pre : ℕ} (hp : 0 < pre)
    (post : Option ℕ) {E0 : ℝ} {E : Ω → ℝ}
    (h0 : energyAbsorbed e (List.ofFn S) ioff qb rl rsh (some fs) none none (some (pre : ℤ)) (post.map Nat.cast) = .ok E0)
    (hE : ∀ ω, energyAbsorbed e (samples S (noise ω)) ioff qb rl rsh (some fs) none none (some (pre : ℤ))
      (post.map Nat.cast) = .ok (E ω)) :
    E0 ≤ ∫ ω, E ω ∂μ ∧ ∫ ω, E ω ∂μ ≤ E0 + rl * s * ((m - 1 : ℕ) / fs) / e := by
  obtain ⟨E0', E', k0, kE, -, k⟩ := energy_noise_measured h hm e S ioff qb rl rsh fs hp post
  rw [h0, Except.ok.injEq] at k0
  have e1 : E' = E := by
    funext ω
    have := kE ω
    rw [hE ω, Except.ok.injEq] at this
    exact this.symm
  subst e1 k0
  set idx := baseIdx m pre post with hidx
  have hl : (0 : ℝ) < idx.length := by
    have := List.length_pos_iff.2 (baseIdx_ne hp hm post)
    exact_mod_cast this
  have hV0 : 0 ≤ ∫ ω, meanOver idx (noise ω) ^ 2 ∂μ := integral_nonneg fun ω => sq_nonneg _
  have hV : ∫ ω, meanOver idx (noise ω) ^ 2 ∂μ ≤ s := by
    obtain ⟨j1, j2⟩ := integral_list (μ := μ) idx (fun j ω => noise ω j ^ 2) fun j => (h.sq_int j).integrable_sq
    have h3 : ∫ ω, (idx.map fun j => noise ω j ^ 2).sum / idx.length ∂μ = s := by
      rw [integral_div, j2]
      simp only [h.var]
      rw [List.map_const', List.sum_replicate, nsmul_eq_mul]
      field_simp
    rw [← h3]
    refine integral_mono (h.mean_over idx).1.integrable_sq (j1.div_const _) fun ω => ?_
    simp only [meanOver]
    rw [div_pow, div_le_div_iff₀ (by positivity) hl]
    have := list_sq_le idx (noise ω)
    nlinarith
  have ht : Np.trapz1 (List.ofFn fun _ : Fin m => s) = (m - 1 : ℕ) * s := by
    rw [List.ofFn_eq_map, trapz1_map_const, List.length_finRange]
  rw [k, ht]
  set V := ∫ ω, meanOver idx (noise ω) ^ 2 ∂μ
  have hM : (0 : ℝ) ≤ (m - 1 : ℕ) := Nat.cast_nonneg _
  have e2 : rl * ((m - 1 : ℕ) * s - (m - 1 : ℕ) * V) / (fs * e) = rl * (s - V) * ((m - 1 : ℕ) / fs) / e := by
    field_simp
  rw [e2]
  constructor
  · have : 0 ≤ rl * (s - V) * ((m - 1 : ℕ) / fs) / e := by
      have : 0 ≤ s - V := by linarith
      positivity
    linarith
  · have : 0 ≤ rl * V * ((m - 1 : ℕ) / fs) / e := by positivity
    have e3 : rl * (s - V) * ((m - 1 : ℕ) / fs) / e + rl * V * ((m - 1 : ℕ) / fs) / e = rl * s * ((m - 1 : ℕ) / fs) / e := by
      ring
    linarith

/-- Uncorrelated noise of the same variance: the share of the baseline is one over the number of its samples. -/
theorem energy_noise_white [IsProbabilityMeasure μ] {s : ℝ} (h : Noisy μ noise fun _ => s)
    (hu : ∀ i j, i ≠ j → ∫ ω, noise ω i * noise ω j ∂μ = 0) (hm : 0 < m) (e : ℝ) (S : Fin m → ℝ) (ioff qb rl rsh fs : ℝ)
    {pre : ℕ} (hp : 0 < pre) {post : Option ℕ} (hpp : ∀ j, post = some j → pre ≤ j) {E0 : ℝ} {E : Ω → ℝ}
    (h0 : energyAbsorbed e (List.ofFn S) ioff qb rl rsh (some fs) none none (some (pre : ℤ)) (post.map Nat.cast) = .ok E0)
    (hE : ∀ ω, energyAbsorbed e (samples S (noise ω)) ioff qb rl rsh (some fs) none none (some (pre : ℤ))
      (post.map Nat.cast) = .ok (E ω)) :
    ∫ ω, E ω ∂μ = E0 + rl * s * (1 - 1 / ((baseIdx m pre post).length : ℝ)) * (m - 1 : ℕ) / (fs * e) := by
  obtain ⟨E0', E', k0, kE, -, k⟩ := energy_noise_measured h hm e S ioff qb rl rsh fs hp post
  rw [h0, Except.ok.injEq] at k0
  have e1 : E' = E := by
    funext ω
    have := kE ω
    rw [hE ω, Except.ok.injEq] at this
    exact this.symm
  subst e1 k0
  have hnd : (baseIdx m pre post).Nodup := baseIdx_nodup hpp
  have hl : (0 : ℝ) < (baseIdx m pre post).length := by
    have := List.length_pos_iff.2 (baseIdx_ne hp hm post)
    exact_mod_cast this
  rw [k, h.mean_sq hu hnd]
  have ht : Np.trapz1 (List.ofFn fun _ : Fin m => s) = (m - 1 : ℕ) * s := by
    rw [List.ofFn_eq_map, trapz1_map_const, List.length_finRange]
  rw [ht]
  ring

/-- Independent standard normal draws meet the hypotheses. -/
example : Noisy (OF.normalDraws 5) (fun ω j => ω j) (fun _ : Fin 5 => 1) ∧
    ∀ i j : Fin 5, i ≠ j → ∫ ω, ω i * ω j ∂(OF.normalDraws 5) = 0 := by
  have h := OF.normalDraws_stationary (n := 5)
  refine ⟨⟨h.sq_int, h.mean, fun j => ?_⟩, fun i j hij => (h.cov i j).trans (if_neg (sub_ne_zero.2 hij))⟩
  simp only [pow_two]
  exact (h.cov j j).trans (if_pos (sub_self _))

end Verif.Utils
