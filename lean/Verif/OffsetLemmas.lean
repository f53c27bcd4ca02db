import Verif.Offset
import Verif.UtilsProps
import Mathlib.Algebra.BigOperators.Ring.Finset
import Mathlib.Algebra.Order.BigOperators.Group.List
import Mathlib.Data.Fintype.BigOperators

/-! Lemmas on the uncertainty of `calc_offset`. -/

namespace Verif.Utils
open Verif

theorem mapM_some (l : List ℝ) : (l.map some).mapM id = some l := by
  induction l with
  | nil => rfl
  | cons a l ih => simp [List.mapM_cons, ih]

theorem calcOffset_eq (x : List (List ℝ)) (nbins : ℕ) (fs sgfreq : ℝ) (isDidv : Bool) :
    calcOffset x nbins fs sgfreq isDidv = (traceMeans x nbins fs sgfreq isDidv).bind Np.mean := by
  change (match traceMeans x nbins fs sgfreq isDidv with | none => none | some ms => Np.mean ms) = _
  cases traceMeans x nbins fs sgfreq isDidv <;> rfl

theorem traceMeans_false {x : List (List ℝ)} {nbins : ℕ} (hn : 0 < nbins)
    (hlen : ∀ t ∈ x, t.length = nbins) (fs sgfreq : ℝ) :
    traceMeans x nbins fs sgfreq false = some (x.map fun t => t.sum / (nbins : ℝ)) := by
  unfold traceMeans
  simp only [Bool.false_eq_true, if_false]
  have e : (x.map fun t => Np.mean (t.take nbins)) = (x.map fun t => t.sum / (nbins : ℝ)).map some := by
    rw [List.map_map]
    refine List.map_congr_left fun t ht => ?_
    have hl := hlen t ht
    have hne : t ≠ [] := by
      rintro rfl
      simp at hl
      omega
    simp only [Function.comp_apply]
    rw [List.take_of_length_le hl.le, Np.mean, if_neg hne, hl]
  rw [e, mapM_some]

theorem traceMeans_true {x : List (List ℝ)} {nbins p : ℕ} {fs sg : ℝ} (hsg : 0 < sg)
    (hfs : fs = p * sg) (hp : 0 < p) (hpn : p ≤ nbins)
    (hlen : ∀ t ∈ x, t.length = nbins)
    (hper : ∀ t ∈ x, ∀ i, i + p < nbins → t[i + p]? = t[i]?) :
    traceMeans x nbins fs sg true = some (x.map fun t => (t.take p).sum / (p : ℝ)) := by
  have hp' : (p : ℝ) ≠ 0 := by exact_mod_cast hp.ne'
  have hb : 1 / sg * fs = p := by rw [hfs]; field_simp
  have hkeep : ⌊((⌊(nbins : ℝ) / p⌋₊ : ℕ) : ℝ) * p⌋₊ = nbins / p * p := by
    rw [Nat.floor_div_natCast, Nat.floor_natCast]
    have : ((nbins / p : ℕ) : ℝ) * p = ((nbins / p * p : ℕ) : ℝ) := by push_cast; ring
    rw [this, Nat.floor_natCast]
  have hm : 0 < nbins / p := Nat.div_pos hpn hp
  have hmp : nbins / p * p ≤ nbins := Nat.div_mul_le_self _ _
  unfold traceMeans
  simp only [if_true, hb, hkeep]
  have e : (x.map fun t => Np.mean (t.take (nbins / p * p))) =
      (x.map fun t => (t.take p).sum / (p : ℝ)).map some := by
    rw [List.map_map]
    refine List.map_congr_left fun t ht => ?_
    have hl := hlen t ht
    have hpos : 0 < nbins / p * p := Nat.mul_pos hm hp
    simp only [Function.comp_apply]
    unfold Np.mean
    rw [if_neg (by
      intro h
      have := congrArg List.length h
      rw [List.length_take, hl, List.length_nil] at this
      omega)]
    rw [sum_take_periods t p (by rw [hl]; exact hper t ht) _ (by rw [hl]; exact hmp)]
    rw [List.length_take, hl, min_eq_left hmp]
    have hmr : ((nbins / p : ℕ) : ℝ) ≠ 0 := by exact_mod_cast hm.ne'
    push_cast
    congr 1
    field_simp
  rw [e, mapM_some]

/-- The two return values from the means of the traces. -/
theorem offset_of_means {x : List (List ℝ)} {ms : List ℝ} {nbins : ℕ} {fs sg : ℝ} {b : Bool}
    (h : traceMeans x nbins fs sg b = some ms) (hx : x ≠ []) (hl : ms.length = x.length) :
    calcOffset x nbins fs sg b = some (ms.sum / x.length) ∧
    calcOffsetStd x nbins fs sg b =
      some (Real.sqrt ((ms.map fun v => (v - ms.sum / x.length) ^ 2).sum / x.length) / Real.sqrt x.length) := by
  have hm : ms ≠ [] := by
    rintro rfl
    exact hx (List.length_eq_zero_iff.1 hl.symm)
  constructor
  · rw [calcOffset_eq, h]
    simp [Np.mean, hm, hl]
  · unfold calcOffsetStd
    rw [h]
    simp [npStd, Np.mean, hm, hl]

/-- An average over all draws of a product of functions of the separate draws. -/
theorem sum_draws {n : ℕ} {Ω : Type} [Fintype Ω] (g : Fin n → Ω → ℝ) :
    ∑ w : Fin n → Ω, ∏ k, g k (w k) = ∏ k, ∑ a, g k a := by
  classical
  rw [Finset.prod_univ_sum]
  simp

theorem sum_one {n : ℕ} {Ω : Type} [Fintype Ω] [Nonempty Ω] (f : Ω → ℝ) (i : Fin n) :
    ∑ w : Fin n → Ω, f (w i) = (Fintype.card Ω : ℝ) ^ n * ((∑ a, f a) / Fintype.card Ω) := by
  classical
  have hN : (Fintype.card Ω : ℝ) ≠ 0 := by exact_mod_cast Fintype.card_ne_zero
  have h := sum_draws (Ω := Ω) fun k a => if k = i then f a else 1
  have e1 : ∀ w : Fin n → Ω, ∏ k, (if k = i then f (w k) else 1) = f (w i) := fun w => by
    rw [Finset.prod_eq_single i] <;> simp +contextual
  simp only [e1] at h
  rw [h, ← Finset.mul_prod_erase _ _ (Finset.mem_univ i)]
  simp only [if_true]
  rw [Finset.prod_congr rfl (g := fun _ => (Fintype.card Ω : ℝ))]
  · rw [Finset.prod_const, Finset.card_erase_of_mem (Finset.mem_univ _), Finset.card_univ, Fintype.card_fin]
    obtain ⟨m, rfl⟩ : ∃ m, n = m + 1 := ⟨n - 1, by have := i.2; omega⟩
    rw [Nat.add_sub_cancel, pow_succ]
    field_simp
  · intro k hk
    simp [Finset.ne_of_mem_erase hk]

theorem sum_two {n : ℕ} {Ω : Type} [Fintype Ω] [Nonempty Ω] (f : Ω → ℝ) {i j : Fin n} (hij : i ≠ j) :
    ∑ w : Fin n → Ω, f (w i) * f (w j) =
      (Fintype.card Ω : ℝ) ^ n * ((∑ a, f a) / Fintype.card Ω) ^ 2 := by
  classical
  have hN : (Fintype.card Ω : ℝ) ≠ 0 := by exact_mod_cast Fintype.card_ne_zero
  have h := sum_draws (Ω := Ω) fun k a => if k = i ∨ k = j then f a else 1
  have e1 : ∀ g : Fin n → ℝ, ∏ k, (if k = i ∨ k = j then g k else 1) = g i * g j := fun g => by
    rw [Finset.prod_ite, Finset.prod_const_one, mul_one]
    rw [show (Finset.univ.filter fun k => k = i ∨ k = j) = {i, j} by ext; simp, Finset.prod_pair hij]
  have e2 : ∀ w : Fin n → Ω, ∏ k, (if k = i ∨ k = j then f (w k) else 1) = f (w i) * f (w j) :=
    fun w => e1 fun k => f (w k)
  simp only [e2] at h
  rw [h]
  have e3 : ∀ k, (∑ a, if k = i ∨ k = j then f a else 1) =
      (Fintype.card Ω : ℝ) * if k = i ∨ k = j then (∑ a, f a) / Fintype.card Ω else 1 := by
    intro k
    split_ifs
    · field_simp
    · simp
  simp only [e3]
  rw [Finset.prod_mul_distrib, e1 fun _ => (∑ a, f a) / (Fintype.card Ω : ℝ)]
  rw [Finset.prod_const, Finset.card_univ, Fintype.card_fin]
  ring

theorem sum_sq_dev (ms : List ℝ) (hm : ms ≠ []) :
    (ms.map fun v => (v - ms.sum / ms.length) ^ 2).sum = (ms.map fun v => v ^ 2).sum - ms.sum ^ 2 / ms.length := by
  have hn : (ms.length : ℝ) ≠ 0 := by
    exact_mod_cast (List.length_pos_iff.2 hm).ne'
  have key : ∀ (l : List ℝ) (c : ℝ), (l.map fun v => (v - c) ^ 2).sum =
      (l.map fun v => v ^ 2).sum - 2 * c * l.sum + l.length * c ^ 2 := by
    intro l c
    induction l with
    | nil => simp
    | cons a l ih =>
      simp only [List.map_cons, List.sum_cons, ih, List.length_cons]
      push_cast
      ring
  rw [key]
  field_simp
  ring

theorem sum_sq_dev_eq_zero {ms : List ℝ} {c : ℝ} :
    (ms.map fun v => (v - c) ^ 2).sum = 0 ↔ ∀ v ∈ ms, v = c := by
  induction ms with
  | nil => simp
  | cons a l ih =>
    have h0 : 0 ≤ (l.map fun v => (v - c) ^ 2).sum :=
      List.sum_nonneg fun x hx => by
        obtain ⟨v, _, rfl⟩ := List.mem_map.1 hx
        positivity
    rw [List.map_cons, List.sum_cons, add_eq_zero_iff_of_nonneg (sq_nonneg _) h0, ih]
    simp [sub_eq_zero]

theorem sum_sq_dev_nonneg (ms : List ℝ) (c : ℝ) : 0 ≤ (ms.map fun v => (v - c) ^ 2).sum :=
  List.sum_nonneg fun x hx => by
    obtain ⟨v, _, rfl⟩ := List.mem_map.1 hx
    positivity

end Verif.Utils
