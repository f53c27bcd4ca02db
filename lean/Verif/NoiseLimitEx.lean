import Verif.NoiseLimitLemmas
import Verif.DeviceLimitEx

/-! Noise as in property C150. -/

namespace Verif.Noise
open Verif Verif.Dft MeasureTheory ProbabilityTheory Filter

variable {n c : ℕ} [NeZero n]

omit [NeZero n] in
/-- Drawing again and again from one distribution. -/
theorem series_pi {α : Type*} [MeasurableSpace α] (P : Measure α) [IsProbabilityMeasure P] {X : α → Fin c → ZMod n → ℝ}
    (hX : Measurable X) (h2 : ∀ i s, MemLp (fun a => X a i s) 2 P) :
    Series (Measure.infinitePi fun _ : ℕ => P) (fun a ω => X (ω a)) := by
  have hm : ∀ i : ℕ, MeasurePreserving (fun ω : ℕ → α => ω i) (Measure.infinitePi fun _ : ℕ => P) P :=
    fun i => measurePreserving_eval_infinitePi _ i
  refine ⟨fun i s => (h2 i s).comp_measurePreserving (hm 0), ?_, fun a => ?_⟩
  · have hi := iIndepFun_infinitePi (P := fun _ : ℕ => P) (X := fun _ ω => X ω) fun _ => hX
    exact fun a b hab => hi.indepFun hab
  · refine ⟨(hX.comp (hm a).measurable).aemeasurable, (hX.comp (hm 0).measurable).aemeasurable, ?_⟩
    change (Measure.infinitePi fun _ : ℕ => P).map (X ∘ fun ω => ω a) = (Measure.infinitePi fun _ : ℕ => P).map (X ∘ fun ω => ω 0)
    rw [← Measure.map_map hX (hm a).measurable, ← Measure.map_map hX (hm 0).measurable, (hm a).map_eq, (hm 0).map_eq]

/-- A sign and a position for each of two channels. -/
noncomputable abbrev pair : Measure ((Bool × ZMod 4) × (Bool × ZMod 4)) := (Device.throws 4).prod (Device.throws 4)

/-- The jolts of the two channels. -/
noncomputable def jolts (a : (Bool × ZMod 4) × (Bool × ZMod 4)) (i : Fin 2) : ZMod 4 → ℝ :=
  if i = 0 then Device.jolt 4 2 a.1 else Device.jolt 4 2 a.2

theorem jolts_sq (i : Fin 2) (s : ZMod 4) : MemLp (fun a => jolts a i s) 2 pair := by
  refine MemLp.of_bound (Measurable.of_discrete).aestronglyMeasurable 2 (Eventually.of_forall fun a => ?_)
  have h : ∀ b, ‖Device.jolt 4 2 b s‖ ≤ 2 := by
    intro b
    unfold Device.jolt
    split_ifs <;> simp
  unfold jolts
  split_ifs
  · exact h _
  · exact h _

theorem jolts_joint : Joint pair jolts (fun i j s => if i = j ∧ s = 0 then 1 else 0) := by
  have h := Device.jolt_stationary 4 2
  have hc : ∀ s s' : ZMod 4, ∫ a, Device.jolt 4 2 a s * Device.jolt 4 2 a s' ∂Device.throws 4 = if s' - s = 0 then 1 else 0 := by
    intro s s'
    simp only [mul_comm (Device.jolt 4 2 _ s)]
    rw [h.cov s' s]
    norm_num
  intro i j s s'
  fin_cases i <;> fin_cases j
  · refine Eq.trans ?_ (integral_fun_fst (μ := Device.throws 4) (ν := Device.throws 4) fun a => Device.jolt 4 2 a s * Device.jolt 4 2 a s') |>.trans ?_
    · rfl
    · rw [hc]
      simp
  · refine Eq.trans ?_ (integral_prod_mul (μ := Device.throws 4) (ν := Device.throws 4) (fun a => Device.jolt 4 2 a s) fun a => Device.jolt 4 2 a s') |>.trans ?_
    · rfl
    · rw [h.mean]
      simp
  · refine Eq.trans ?_ (integral_prod_mul (μ := Device.throws 4) (ν := Device.throws 4) (fun a => Device.jolt 4 2 a s') fun a => Device.jolt 4 2 a s) |>.trans ?_
    · exact integral_congr_ae (Eventually.of_forall fun a => mul_comm _ _)
    · rw [h.mean]
      simp
  · refine Eq.trans ?_ (integral_fun_snd (μ := Device.throws 4) (ν := Device.throws 4) fun a => Device.jolt 4 2 a s * Device.jolt 4 2 a s') |>.trans ?_
    · rfl
    · rw [hc]
      simp

theorem jolts_mix (k : Half 4) (w : Fin 2 → ℂ) :
    popMix (Measure.infinitePi fun _ : ℕ => pair) (fun ω => jolts (ω 0)) 1 k w = popMix pair jolts 1 k w := by
  have hm : MeasurePreserving (fun ω : ℕ → (Bool × ZMod 4) × (Bool × ZMod 4) => ω 0) (Measure.infinitePi fun _ : ℕ => pair) pair :=
    measurePreserving_eval_infinitePi _ 0
  have : ∫ a, ‖∑ i, w i * segFft (jolts a i) k‖ ^ 2 ∂pair = ∫ ω : ℕ → (Bool × ZMod 4) × (Bool × ZMod 4),
      ‖∑ i, w i * segFft (jolts (ω 0) i) k‖ ^ 2 ∂(Measure.infinitePi fun _ : ℕ => pair) := by
    rw [← integral_map (φ := fun ω : ℕ → (Bool × ZMod 4) × (Bool × ZMod 4) => ω 0) (f := fun a => ‖∑ i, w i * segFft (jolts a i) k‖ ^ 2)
      hm.measurable.aemeasurable (Measurable.of_discrete).aestronglyMeasurable, hm.map_eq]
  unfold popMix
  rw [this]

theorem jolts_loud (k : Half 4) (w : Fin 2 → ℂ) (hw : w ≠ 0) :
    0 < popMix (Measure.infinitePi fun _ : ℕ => pair) (fun ω => jolts (ω 0)) 1 k w := by
  rw [jolts_mix]
  have hR : ∀ (i j : Fin 2) (a : ZMod 4), noDc (fftR fun s : ZMod 4 => if i = j ∧ s = 0 then (1 : ℝ) else 0) a =
      if i = j then (if a = 0 then 0 else 1) else 0 := by
    intro i j a
    unfold noDc
    rw [fftR_apply, Finset.sum_eq_single 0]
    · by_cases h : i = j <;> simp [h]
    · intro s _ hs
      simp [hs]
    · simp
  obtain ⟨d, hd, hdiag⟩ : ∃ d : ℝ, 0 < d ∧ ∀ i j, popCsd pair jolts 1 i j k = if i = j then (d : ℂ) else 0 := by
    have key : ∀ (k : Half 4) (f : ℂ) (d : ℝ), (if 1 ≤ (k : ℕ) ∧ 2 * (k : ℕ) < 4 then 2 else 1 : ℂ) = f →
        f * (((if k.bin - 1 = 0 then 0 else 1) + 4 * (if k.bin = 0 then 0 else 1) + (if k.bin + 1 = 0 then 0 else 1)) / 6) = d →
        ∀ i j, popCsd pair jolts 1 i j k = if i = j then (d : ℂ) else 0 := by
      intro k f d hf hd i j
      rw [pop_smooth jolts_joint jolts_sq (by norm_num) 1, hR, hR, hR, ← hd, hf]
      split_ifs <;> norm_num
    fin_cases k
    · refine ⟨1 / 3, by norm_num, key _ 1 _ (by simp) ?_⟩
      rw [if_neg (by decide), if_pos (by decide), if_neg (by decide)]
      norm_num
    · refine ⟨5 / 3, by norm_num, key _ 2 _ (by simp) ?_⟩
      rw [if_pos (by decide), if_neg (by decide), if_neg (by decide)]
      norm_num
    · refine ⟨1, by norm_num, key _ 1 _ (by simp) ?_⟩
      rw [if_neg (by decide), if_neg (by decide), if_neg (by decide)]
      norm_num
  have hf := popMix_form jolts_sq 1 k w
  simp only [hdiag, ite_mul, zero_mul, Finset.sum_ite_eq, Finset.mem_univ, if_true] at hf
  have : popMix pair jolts 1 k w = ∑ i, d * ‖w i‖ ^ 2 := by
    have h2 : ((∑ i, d * ‖w i‖ ^ 2 : ℝ) : ℂ) = popMix pair jolts 1 k w := by
      rw [← hf]
      push_cast
      refine Finset.sum_congr rfl fun i _ => ?_
      rw [mul_left_comm, mul_comm (starRingEnd ℂ _), Complex.mul_conj, Complex.normSq_eq_norm_sq]
      push_cast
      rfl
    exact_mod_cast h2.symm
  rw [this]
  obtain ⟨i, hi⟩ := Function.ne_iff.1 hw
  exact Finset.sum_pos' (fun i _ => by positivity) ⟨i, Finset.mem_univ _, mul_pos hd (pow_pos (norm_pos_iff.2 hi) 2)⟩

/-- Two fair coins. -/
noncomputable abbrev coins : Measure (Bool × ZMod 2) := Device.throws 2

/-- A pulse in the first channel if the coin says so, and in the second if the other coin does. -/
noncomputable def pulses (a : Bool × ZMod 2) (i : Fin 2) (s : ZMod 4) : ℝ :=
  if s = 0 ∧ (if i = 0 then a.1 = true else a.2 = 1) then 1 else 0

theorem pulses_sq (i : Fin 2) (s : ZMod 4) : MemLp (fun a => pulses a i s) 2 coins := by
  refine MemLp.of_bound (Measurable.of_discrete).aestronglyMeasurable 1 (Eventually.of_forall fun a => ?_)
  unfold pulses
  split_ifs <;> simp

theorem pulses_norm (a : Bool × ZMod 2) (i : Fin 2) (k : Half 4) :
    ‖rfft (pulses a i) k‖ = if (if i = 0 then a.1 = true else a.2 = 1) then 1 else 0 := by
  have : rfft (pulses a i) k = if (if i = 0 then a.1 = true else a.2 = 1) then 1 else 0 := by
    rw [rfft, fftR_apply, Finset.sum_eq_single 0]
    · by_cases h : (if i = 0 then a.1 = true else a.2 = 1) <;> simp [pulses, h]
    · intro s _ hs
      simp [pulses, hs]
    · simp
  rw [this]
  split_ifs <;> simp

theorem pulses_vary (i : Fin 2) (k : Half 4) :
    0 < Var[fun ω => ‖rfft (pulses (ω 0) i) k‖; Measure.infinitePi fun _ : ℕ => coins] := by
  have hm : MeasurePreserving (fun ω : ℕ → Bool × ZMod 2 => ω 0) (Measure.infinitePi fun _ : ℕ => coins) coins :=
    measurePreserving_eval_infinitePi _ 0
  have e : ∀ f : Bool × ZMod 2 → ℝ, ∫ ω, f (ω 0) ∂(Measure.infinitePi fun _ : ℕ => coins) = ∫ a, f a ∂coins := by
    intro f
    rw [← integral_map (φ := fun ω : ℕ → Bool × ZMod 2 => ω 0) (f := f) hm.measurable.aemeasurable
      (Measurable.of_discrete).aestronglyMeasurable, hm.map_eq]
  have hL : MemLp (fun ω : ℕ → Bool × ZMod 2 => ‖rfft (pulses (ω 0) i) k‖) 2 (Measure.infinitePi fun _ : ℕ => coins) :=
    (rfft_memLp (series_pi coins Measurable.of_discrete pulses_sq).sq_int i k).norm
  rw [variance_eq_sub hL]
  have h1 := e fun a => ‖rfft (pulses a i) k‖
  have h2 := e fun a => ‖rfft (pulses a i) k‖ ^ 2
  simp only [Pi.pow_apply]
  rw [h1, h2, Device.throws_mean, Device.throws_mean]
  simp only [pulses_norm]
  have hsum : ∀ g : ZMod 2 → ℝ, ∑ p, g p = g 0 + g 1 := fun g => Fin.sum_univ_two g
  rw [hsum, hsum]
  by_cases h : i = 0 <;> simp [h] <;> norm_num

end Verif.Noise
