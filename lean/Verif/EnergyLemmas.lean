import Verif.EnergySpec
import Verif.UtilsLemmas
import Verif.UtilsNdLemmas

/-! Auxiliary lemmas of property C160. -/

namespace Verif.Utils
open Verif MeasureTheory

variable {ι : Type*} {m : ℕ} {Ω : Type*} [MeasurableSpace Ω] {μ : Measure Ω}

theorem trapz1_map_add (l : List ι) (a b : ι → ℝ) :
    Np.trapz1 (l.map fun i => a i + b i) = Np.trapz1 (l.map a) + Np.trapz1 (l.map b) := by
  induction l with
  | nil => simp [Np.trapz1]
  | cons x l ih =>
    cases l with
    | nil => simp [Np.trapz1]
    | cons y l =>
      simp only [List.map_cons, Np.trapz1] at ih ⊢
      rw [ih]
      ring

theorem trapz1_map_mul (l : List ι) (a : ι → ℝ) (c : ℝ) :
    Np.trapz1 (l.map fun i => c * a i) = c * Np.trapz1 (l.map a) := by
  induction l with
  | nil => simp [Np.trapz1]
  | cons x l ih =>
    cases l with
    | nil => simp [Np.trapz1]
    | cons y l =>
      simp only [List.map_cons, Np.trapz1] at ih ⊢
      rw [ih]
      ring

theorem trapz1_map_const (l : List ι) (c : ℝ) : Np.trapz1 (l.map fun _ => c) = (l.length - 1 : ℕ) * c := by
  cases l with
  | nil => simp [Np.trapz1]
  | cons x l =>
    rw [List.map_const', List.length_cons, trapz1_replicate, Nat.add_sub_cancel]

/-- The integral of a random trace. -/
theorem integral_trapz1 (l : List ι) (g : ι → Ω → ℝ) (h : ∀ i, Integrable (g i) μ) :
    Integrable (fun ω => Np.trapz1 (l.map fun i => g i ω)) μ ∧
    ∫ ω, Np.trapz1 (l.map fun i => g i ω) ∂μ = Np.trapz1 (l.map fun i => ∫ ω, g i ω ∂μ) := by
  induction l with
  | nil => simp [Np.trapz1]
  | cons x l ih =>
    cases l with
    | nil => simp [Np.trapz1]
    | cons y l =>
      simp only [List.map_cons, Np.trapz1] at ih ⊢
      have i1 : Integrable (fun ω => (g x ω + g y ω) / 2) μ := ((h x).add (h y)).div_const 2
      refine ⟨i1.add ih.1, ?_⟩
      rw [integral_add i1 ih.1, integral_div, integral_add (h x) (h y), ih.2]

theorem memLp_list (l : List ι) (g : ι → Ω → ℝ) (h : ∀ i, MemLp (g i) 2 μ) :
    MemLp (fun ω => (l.map fun i => g i ω).sum) 2 μ := by
  induction l with
  | nil => simp
  | cons x l ih =>
    simp only [List.map_cons, List.sum_cons]
    exact (h x).add ih

theorem integral_list [IsFiniteMeasure μ] (l : List ι) (g : ι → Ω → ℝ) (h : ∀ i, Integrable (g i) μ) :
    Integrable (fun ω => (l.map fun i => g i ω).sum) μ ∧
    ∫ ω, (l.map fun i => g i ω).sum ∂μ = (l.map fun i => ∫ ω, g i ω ∂μ).sum := by
  induction l with
  | nil => simp
  | cons x l ih =>
    simp only [List.map_cons, List.sum_cons]
    refine ⟨(h x).add ih.1, ?_⟩
    rw [integral_add (h x) ih.1, ih.2]

theorem list_sq_le (l : List ι) (a : ι → ℝ) :
    (l.map a).sum ^ 2 ≤ l.length * (l.map fun i => a i ^ 2).sum := by
  induction l with
  | nil => simp
  | cons x l ih =>
    simp only [List.map_cons, List.sum_cons, List.length_cons, Nat.cast_add, Nat.cast_one]
    set s := (l.map a).sum
    set q := (l.map fun i => a i ^ 2).sum
    rcases Nat.eq_zero_or_pos l.length with h0 | h0
    · have : l = [] := List.length_eq_zero_iff.1 h0
      subst this
      simp [s, q]
    · have hp : (0 : ℝ) < l.length := by exact_mod_cast h0
      have h1 : 0 ≤ (l.length * a x - s) ^ 2 := sq_nonneg _
      have h2 : l.length * (2 * a x * s) ≤ l.length * (l.length * a x ^ 2 + q) := by nlinarith
      have h3 := le_of_mul_le_mul_left h2 hp
      nlinarith

variable {noise : Ω → Fin m → ℝ} {v : Fin m → ℝ}

/-- The mean of the noise over some samples. -/
theorem Noisy.mean_over [IsFiniteMeasure μ] (h : Noisy μ noise v) (idx : List (Fin m)) :
    MemLp (fun ω => meanOver idx (noise ω)) 2 μ ∧ ∫ ω, meanOver idx (noise ω) ∂μ = 0 := by
  constructor
  · have := (memLp_list (μ := μ) idx (fun j ω => noise ω j) h.sq_int).mul_const ((idx.length : ℝ)⁻¹)
    simpa only [meanOver, div_eq_mul_inv] using this
  · unfold meanOver
    rw [integral_div, (integral_list idx (fun j ω => noise ω j) fun j => (h.sq_int j).integrable (by norm_num)).2]
    simp [h.mean]

/-- The mean energy with a baseline which is off by a random `β`. -/
theorem energy_core [IsProbabilityMeasure μ] (h : Noisy μ noise v) (S : Fin m → ℝ) (ioff qb rl rsh B : ℝ) {β : Ω → ℝ}
    (hβ : MemLp β 2 μ) (hβ0 : ∫ ω, β ω ∂μ = 0) :
    Integrable (fun ω => Np.trapz1 ((samples S (noise ω)).map fun s =>
      powertraceSimple (B + β ω) ioff qb rl rsh - powertraceSimple s ioff qb rl rsh)) μ ∧
    ∫ ω, Np.trapz1 ((samples S (noise ω)).map fun s =>
      powertraceSimple (B + β ω) ioff qb rl rsh - powertraceSimple s ioff qb rl rsh) ∂μ =
    Np.trapz1 ((List.ofFn S).map fun s => powertraceSimple B ioff qb rl rsh - powertraceSimple s ioff qb rl rsh) +
      rl * (Np.trapz1 (List.ofFn v) - (m - 1 : ℕ) * ∫ ω, β ω ^ 2 ∂μ) := by
  have e : ∀ ω, (samples S (noise ω)).map (fun s =>
      powertraceSimple (B + β ω) ioff qb rl rsh - powertraceSimple s ioff qb rl rsh) =
      (List.finRange m).map fun j =>
        (powertraceSimple B ioff qb rl rsh - powertraceSimple (S j) ioff qb rl rsh) +
        ((qb * rsh - 2 * rl * (B - ioff)) * β ω + (-rl) * β ω ^ 2 +
          (-(qb * rsh - 2 * rl * (S j - ioff))) * noise ω j + rl * noise ω j ^ 2) := by
    intro ω
    rw [samples, List.ofFn_eq_map, List.map_map]
    refine List.map_congr_left fun j _ => ?_
    simp only [Function.comp_def, powertraceSimple]
    ring
  have i0 : ∀ j, Integrable (fun ω => noise ω j) μ := fun j => (h.sq_int j).integrable (by norm_num)
  have i1 : Integrable β μ := hβ.integrable (by norm_num)
  have i2 : ∀ j, Integrable (fun ω => noise ω j ^ 2) μ := fun j => (h.sq_int j).integrable_sq
  have i3 : Integrable (fun ω => β ω ^ 2) μ := hβ.integrable_sq
  set g : Fin m → Ω → ℝ := fun j ω => (powertraceSimple B ioff qb rl rsh - powertraceSimple (S j) ioff qb rl rsh) +
        ((qb * rsh - 2 * rl * (B - ioff)) * β ω + (-rl) * β ω ^ 2 +
          (-(qb * rsh - 2 * rl * (S j - ioff))) * noise ω j + rl * noise ω j ^ 2) with hg
  have k1 : ∀ c d : ℝ, Integrable (fun ω => c * β ω + d * β ω ^ 2) μ := fun c d => (i1.const_mul c).add (i3.const_mul d)
  have k2 : ∀ (c d a : ℝ) j, Integrable (fun ω => c * β ω + d * β ω ^ 2 + a * noise ω j) μ := fun c d a j =>
    (k1 c d).add ((i0 j).const_mul a)
  have k3 : ∀ (c d a b : ℝ) j, Integrable (fun ω => c * β ω + d * β ω ^ 2 + a * noise ω j + b * noise ω j ^ 2) μ :=
    fun c d a b j => (k2 c d a j).add ((i2 j).const_mul b)
  have hi : ∀ j, Integrable (g j) μ := fun j => (integrable_const _).add (k3 _ _ _ _ j)
  have hv : ∀ j, ∫ ω, g j ω ∂μ = (powertraceSimple B ioff qb rl rsh - powertraceSimple (S j) ioff qb rl rsh) +
      (rl * v j + -(rl * ∫ ω, β ω ^ 2 ∂μ)) := by
    intro j
    rw [hg]
    simp only
    rw [integral_add (integrable_const _) (k3 _ _ _ _ j), integral_add (k2 _ _ _ j) ((i2 j).const_mul _),
      integral_add (k1 _ _) ((i0 j).const_mul _), integral_add (i1.const_mul _) (i3.const_mul _), integral_const_mul,
      integral_const_mul, integral_const_mul, integral_const_mul, hβ0, h.mean, h.var]
    simp
    ring
  obtain ⟨r1, r2⟩ := integral_trapz1 (μ := μ) (List.finRange m) g hi
  simp only [e]
  refine ⟨r1, r2.trans ?_⟩
  simp only [hv]
  rw [trapz1_map_add, trapz1_map_add, trapz1_map_mul, trapz1_map_const, List.length_finRange, List.ofFn_eq_map,
    List.ofFn_eq_map, List.map_map]
  simp only [Function.comp_def]
  ring

theorem sliceTo_nat (l : List ℝ) (k : ℕ) : Np.sliceTo l (k : ℤ) = l.take k := by
  unfold Np.sliceTo Np.clipIdx
  rw [if_pos (Int.natCast_nonneg k), Int.toNat_natCast, List.take_eq_take_iff]
  simp

theorem sliceFrom_nat (l : List ℝ) (k : ℕ) : Np.sliceFrom l (k : ℤ) = l.drop k := by
  unfold Np.sliceFrom Np.clipIdx
  rw [if_pos (Int.natCast_nonneg k), Int.toNat_natCast]
  rcases le_total k l.length with h | h
  · rw [min_eq_left h]
  · rw [min_eq_right h, List.drop_length, List.drop_eq_nil_of_le h]

theorem baseIdx_ne {pre : ℕ} (hp : 0 < pre) (hm : 0 < m) (post : Option ℕ) : baseIdx m pre post ≠ [] := by
  intro h
  have := congrArg List.length h
  unfold baseIdx at this
  rw [List.length_append, List.length_take, List.length_finRange, List.length_nil] at this
  omega

/-- The measured baseline. -/
theorem mean_base (x : Fin m → ℝ) {pre : ℕ} (hp : 0 < pre) (hm : 0 < m) (post : Option ℕ) :
    base1 (List.ofFn x) none (some (pre : ℤ)) (post.map Nat.cast) = .ok (some (meanOver (baseIdx m pre post) x)) := by
  have e : base1 (List.ofFn x) none (some (pre : ℤ)) (post.map Nat.cast) =
      .ok (Np.mean ((baseIdx m pre post).map x)) := by
    cases post with
    | none =>
      show Except.ok (Np.mean (Np.sliceTo (List.ofFn x) (pre : ℤ))) = _
      simp only [baseIdx, List.append_nil]
      rw [sliceTo_nat, List.ofFn_eq_map, List.map_take]
    | some j =>
      show Except.ok (Np.mean (Np.sliceTo (List.ofFn x) (pre : ℤ) ++ Np.sliceFrom (List.ofFn x) (j : ℤ))) = _
      simp only [baseIdx]
      rw [sliceTo_nat, sliceFrom_nat, List.ofFn_eq_map, List.map_append, List.map_take, List.map_drop]
  rw [e, Np.mean, if_neg (by simpa using baseIdx_ne hp hm post), List.length_map]
  rfl

theorem meanOver_add (idx : List (Fin m)) (S y : Fin m → ℝ) :
    meanOver idx (fun j => S j + y j) = meanOver idx S + meanOver idx y := by
  simp only [meanOver]
  rw [← add_div]
  congr 1
  induction idx with
  | nil => simp
  | cons a l ih =>
    simp only [List.map_cons, List.sum_cons]
    rw [ih]
    ring

/-- The energy once the baseline is known. -/
theorem energy_ok (e ioff qb rl rsh fs : ℝ) (trace : List ℝ) {baseline : Option ℝ} {pre post : Option ℤ} {b : ℝ}
    (h : base1 trace baseline pre post = .ok (some b)) (time : Option (List ℝ)) :
    energyAbsorbed e trace ioff qb rl rsh (some fs) baseline time pre post =
      .ok (Np.trapz1 (trace.map fun s => powertraceSimple b ioff qb rl rsh - powertraceSimple s ioff qb rl rsh) /
        (fs * e)) := by
  rw [energyAbsorbed_eq, h]
  simp [rest1]

theorem baseIdx_nodup {pre : ℕ} {post : Option ℕ} (hpp : ∀ j, post = some j → pre ≤ j) : (baseIdx m pre post).Nodup := by
  unfold baseIdx
  cases post with
  | none => simpa using (List.nodup_finRange m).sublist (List.take_sublist _ _)
  | some j =>
    have h : ((List.finRange m).take pre ++ (List.finRange m).drop pre).Nodup := by
      rw [List.take_append_drop]
      exact List.nodup_finRange m
    refine h.sublist ?_
    refine List.Sublist.append_left ?_ _
    have := hpp j rfl
    obtain ⟨d, rfl⟩ := Nat.exists_eq_add_of_le this
    simp only
    rw [← List.drop_drop]
    exact List.drop_sublist _ _

/-- The variance of the mean of uncorrelated samples. -/
theorem Noisy.mean_sq {s : ℝ} (h : Noisy μ noise fun _ => s)
    (hu : ∀ i j, i ≠ j → ∫ ω, noise ω i * noise ω j ∂μ = 0) {idx : List (Fin m)} (hnd : idx.Nodup) :
    ∫ ω, meanOver idx (noise ω) ^ 2 ∂μ = s / idx.length := by
  have hi : ∀ i j, Integrable (fun ω => noise ω i * noise ω j) μ := fun i j => (h.sq_int i).integrable_mul (h.sq_int j)
  have hc : ∀ i j, ∫ ω, noise ω i * noise ω j ∂μ = if i = j then s else 0 := by
    intro i j
    split_ifs with hij
    · subst hij
      simp only [← pow_two]
      exact h.var i
    · exact hu i j hij
  have e : ∀ ω, meanOver idx (noise ω) ^ 2 =
      (∑ i ∈ idx.toFinset, ∑ j ∈ idx.toFinset, noise ω i * noise ω j) / (idx.length : ℝ) ^ 2 := by
    intro ω
    rw [meanOver, div_pow, ← List.sum_toFinset _ hnd, pow_two, Finset.sum_mul_sum]
  simp only [e]
  rw [integral_div, integral_finsetSum _ fun i _ => integrable_finsetSum _ fun j _ => hi i j]
  have : ∀ i ∈ idx.toFinset, ∫ ω, ∑ j ∈ idx.toFinset, noise ω i * noise ω j ∂μ = s := by
    intro i hmem
    rw [integral_finsetSum _ fun j _ => hi i j]
    simp only [hc]
    rw [Finset.sum_ite_eq, if_pos hmem]
  rw [Finset.sum_congr rfl this, Finset.sum_const, List.toFinset_card_of_nodup hnd, nsmul_eq_mul]
  rcases eq_or_ne (idx.length : ℝ) 0 with h0 | h0
  · rw [h0]; simp
  · field_simp

end Verif.Utils
