import Verif.OffsetLemmas

/-! C106: the uncertainty returned by `calc_offset`. -/

namespace Verif.Utils
open Verif

/-- The uncertainty is the spread of the means of the traces about the returned offset, divided by the
number of traces; it vanishes exactly if all traces have the same mean. -/
theorem offset_std {x : List (List ℝ)} {nbins : ℕ} (hn : 0 < nbins) (hlen : ∀ t ∈ x, t.length = nbins)
    (hx : x ≠ []) (fs sg : ℝ) :
    ∃ off s, calcOffset x nbins fs sg false = some off ∧ calcOffsetStd x nbins fs sg false = some s ∧
      off * (x.length * nbins) = (x.map List.sum).sum ∧ 0 ≤ s ∧
      (s * x.length) ^ 2 = (x.map fun t => (t.sum / nbins - off) ^ 2).sum ∧
      (s = 0 ↔ ∀ t ∈ x, ∀ u ∈ x, t.sum = u.sum) := by
  have hN : (0 : ℝ) < x.length := by exact_mod_cast List.length_pos_iff.2 hx
  have hb : (0 : ℝ) < nbins := by exact_mod_cast hn
  obtain ⟨h1, h2⟩ := offset_of_means (traceMeans_false hn hlen fs sg) hx (by simp)
  have e : (x.map fun t => t.sum / (nbins : ℝ)).sum = (x.map List.sum).sum / nbins := by
    rw [div_eq_mul_inv, ← List.sum_map_mul_right]
    rfl
  set off : ℝ := (x.map fun t => t.sum / (nbins : ℝ)).sum / x.length with hoff
  have h0 := sum_sq_dev_nonneg (x.map fun t => t.sum / (nbins : ℝ)) off
  have hsq : (Real.sqrt (((x.map fun t => t.sum / (nbins : ℝ)).map fun v => (v - off) ^ 2).sum / x.length) /
      Real.sqrt x.length * x.length) ^ 2 = (x.map fun t => (t.sum / nbins - off) ^ 2).sum := by
    rw [mul_pow, div_pow, Real.sq_sqrt (div_nonneg h0 hN.le), Real.sq_sqrt hN.le, List.map_map]
    change (x.map fun t => (t.sum / nbins - off) ^ 2).sum / _ / _ * _ = _
    generalize (x.map fun t => (t.sum / nbins - off) ^ 2).sum = S
    field_simp
  refine ⟨off, _, h1, h2, ?_, by positivity, hsq, ?_⟩
  · rw [hoff, e]
    field_simp
  · have hz : ∀ s : ℝ, s = 0 ↔ (s * x.length) ^ 2 = 0 := fun s => by
      simp [hN.ne']
    rw [hz, hsq]
    have := sum_sq_dev_eq_zero (ms := x.map fun t => t.sum / (nbins : ℝ)) (c := off)
    rw [List.map_map] at this
    change (x.map fun t => (t.sum / nbins - off) ^ 2).sum = 0 ↔ _ at this
    rw [this]
    constructor
    · intro h t ht u hu
      have a := h _ (List.mem_map_of_mem ht)
      have b := h _ (List.mem_map_of_mem hu)
      have := a.trans b.symm
      field_simp at this
      exact this
    · intro h v hv
      obtain ⟨t, ht, rfl⟩ := List.mem_map.1 hv
      rw [hoff, e, show x.map List.sum = x.map fun _ => t.sum from
        List.map_congr_left fun u hu => h u hu t ht]
      simp only [List.map_const', List.sum_replicate, nsmul_eq_mul]
      field_simp

example : (0 : ℕ) < 2 ∧ (∀ t ∈ [[(1 : ℝ), 3], [4, 6]], t.length = 2) ∧ [[(1 : ℝ), 3], [4, 6]] ≠ [] := by
  simp

/-- A common baseline does not change the uncertainty, and the order of the traces does not matter. -/
theorem offset_std_shift {x : List (List ℝ)} {nbins : ℕ} (hn : 0 < nbins)
    (hlen : ∀ t ∈ x, t.length = nbins) (hx : x ≠ []) (fs sg c : ℝ) :
    calcOffsetStd (x.map fun t => t.map (· + c)) nbins fs sg false = calcOffsetStd x nbins fs sg false ∧
    ∀ y, y.Perm x → calcOffsetStd y nbins fs sg false = calcOffsetStd x nbins fs sg false := by
  have hb : (nbins : ℝ) ≠ 0 := by exact_mod_cast hn.ne'
  have hN : (x.length : ℝ) ≠ 0 := by exact_mod_cast (List.length_pos_iff.2 hx).ne'
  obtain ⟨_, h2⟩ := offset_of_means (traceMeans_false hn hlen fs sg) hx (by simp)
  constructor
  · have hsum : ∀ t : List ℝ, (t.map (· + c)).sum = t.sum + t.length * c := by
      intro t
      induction t with
      | nil => simp
      | cons a l ih =>
        simp only [List.map_cons, List.sum_cons, ih, List.length_cons]
        push_cast
        ring
    obtain ⟨_, h3⟩ := offset_of_means (x := x.map fun t => t.map (· + c))
      (traceMeans_false (nbins := nbins) hn (by simpa using hlen) fs sg) (by simpa using hx) (by simp)
    rw [h2, h3]
    have em : ((x.map fun t => t.map (· + c)).map fun t => t.sum / (nbins : ℝ)) =
        (x.map fun t => t.sum / (nbins : ℝ)).map (· + c) := by
      rw [List.map_map, List.map_map]
      refine List.map_congr_left fun t ht => ?_
      simp only [Function.comp_apply, hsum, hlen t ht]
      field_simp
    rw [em, hsum]
    simp only [List.length_map, List.map_map]
    congr 5
    refine List.map_congr_left fun t _ => ?_
    simp only [Function.comp_apply]
    congr 1
    field_simp
    ring
  · intro y hy
    have hy0 : y ≠ [] := fun h => hx (by rw [h] at hy; exact hy.symm.eq_nil)
    obtain ⟨_, h3⟩ := offset_of_means (x := y)
      (traceMeans_false (nbins := nbins) hn (fun t ht => hlen t (hy.mem_iff.1 ht)) fs sg) hy0 (by simp)
    rw [h2, h3, hy.length_eq]
    have hp := hy.map fun t => t.sum / (nbins : ℝ)
    rw [hp.sum_eq, (hp.map _).sum_eq]

/-- dI/dV data with whole periods: offset and uncertainty are those of the first period of each trace alone,
whatever the length of the incomplete last period. -/
theorem offset_std_periodic {x : List (List ℝ)} {nbins p : ℕ} {fs sg : ℝ} (hsg : 0 < sg)
    (hfs : fs = p * sg) (hp : 0 < p) (hpn : p ≤ nbins) (hlen : ∀ t ∈ x, t.length = nbins)
    (hper : ∀ t ∈ x, ∀ i, i + p < nbins → t[i + p]? = t[i]?) :
    calcOffsetStd x nbins fs sg true = calcOffsetStd (x.map fun t => t.take p) p fs sg false ∧
    calcOffset x nbins fs sg true = calcOffset (x.map fun t => t.take p) p fs sg false := by
  have h1 := traceMeans_true hsg hfs hp hpn hlen hper
  have h2 : traceMeans (x.map fun t => t.take p) p fs sg false =
      some (x.map fun t => (t.take p).sum / (p : ℝ)) := by
    rw [traceMeans_false hp (by
      intro t ht
      obtain ⟨u, hu, rfl⟩ := List.mem_map.1 ht
      rw [List.length_take, hlen u hu]
      omega), List.map_map]
    rfl
  constructor
  · unfold calcOffsetStd
    rw [h1, h2, List.length_map]
  · rw [calcOffset_eq, calcOffset_eq, h1, h2]

example : (∀ t ∈ [[(1 : ℝ), 3, 1, 3, 1]], ∀ i, i + 2 < 5 → t[i + 2]? = t[i]?) ∧ (4 : ℝ) = (2 : ℕ) * 2 := by
  refine ⟨fun t ht i hi => ?_, by norm_num⟩
  rw [List.mem_singleton.1 ht]
  have : i < 3 := by omega
  interval_cases i <;> rfl

/-- What the uncertainty estimates.  Draw `n` traces independently from any population of traces: the mean
of the squared uncertainty is `(n-1)/n` times the true variance of the offset about the population mean. -/
theorem offset_std_mean_square {Ω : Type} [Fintype Ω] [Nonempty Ω] {n nbins : ℕ} (hn : 0 < n)
    (hb : 0 < nbins) (pop : Ω → List ℝ) (hpop : ∀ a, (pop a).length = nbins) (fs sg : ℝ) :
    ∃ off s : (Fin n → Ω) → ℝ,
      (∀ w, calcOffset (List.ofFn fun i => pop (w i)) nbins fs sg false = some (off w) ∧
        calcOffsetStd (List.ofFn fun i => pop (w i)) nbins fs sg false = some (s w)) ∧
      (∑ w, s w ^ 2) * n =
        (n - 1) * ∑ w, (off w - (∑ a, (pop a).sum / nbins) / Fintype.card Ω) ^ 2 := by
  have hN : (Fintype.card Ω : ℝ) ≠ 0 := by exact_mod_cast Fintype.card_ne_zero
  have hn' : (0 : ℝ) < n := by exact_mod_cast hn
  set f : Ω → ℝ := fun a => (pop a).sum / (nbins : ℝ) with hf
  set μ : ℝ := (∑ a, f a) / Fintype.card Ω with hμ
  set q : ℝ := (∑ a, f a ^ 2) / Fintype.card Ω with hq
  set C : ℝ := (Fintype.card Ω : ℝ) ^ n with hC
  have key : ∀ w : Fin n → Ω,
      calcOffset (List.ofFn fun i => pop (w i)) nbins fs sg false = some ((∑ i, f (w i)) / n) ∧
      calcOffsetStd (List.ofFn fun i => pop (w i)) nbins fs sg false =
        some (Real.sqrt ((∑ i, (f (w i) - (∑ i, f (w i)) / n) ^ 2) / n) / Real.sqrt n) := by
    intro w
    have hx : (List.ofFn fun i => pop (w i)) ≠ [] := by
      intro h
      have := congrArg List.length h
      simp at this
      omega
    obtain ⟨h1, h2⟩ := offset_of_means (traceMeans_false hb (x := List.ofFn fun i => pop (w i)) (by
      intro t ht
      obtain ⟨i, rfl⟩ := List.mem_ofFn.1 ht
      exact hpop _) fs sg) hx (by simp)
    have e : ((List.ofFn fun i => pop (w i)).map fun t => t.sum / (nbins : ℝ)) = List.ofFn fun i => f (w i) := by
      rw [List.map_ofFn]
      rfl
    rw [e, List.length_ofFn, List.sum_ofFn] at h1 h2
    rw [List.map_ofFn, List.sum_ofFn] at h2
    exact ⟨h1, h2⟩
  refine ⟨_, _, fun w => key w, ?_⟩
  have hsq : ∀ w : Fin n → Ω,
      (Real.sqrt ((∑ i, (f (w i) - (∑ i, f (w i)) / n) ^ 2) / n) / Real.sqrt n) ^ 2 =
        ((∑ i, f (w i) ^ 2) - (∑ i, f (w i)) ^ 2 / n) / n ^ 2 := by
    intro w
    rw [div_pow, Real.sq_sqrt (by positivity), Real.sq_sqrt hn'.le]
    have := sum_sq_dev (List.ofFn fun i => f (w i)) (by
      intro h
      have := congrArg List.length h
      simp at this
      omega)
    rw [List.map_ofFn, List.map_ofFn, List.length_ofFn, List.sum_ofFn, List.sum_ofFn, List.sum_ofFn] at this
    simp only [Function.comp_def] at this
    rw [this]
    field_simp
  have h1 : ∑ w : Fin n → Ω, ∑ i, f (w i) = n * (C * μ) := by
    rw [Finset.sum_comm, Finset.sum_congr rfl fun i _ => sum_one f i]
    simp [hC, hμ]
  have h2 : ∑ w : Fin n → Ω, ∑ i, f (w i) ^ 2 = n * (C * q) := by
    rw [Finset.sum_comm, Finset.sum_congr rfl fun i _ => sum_one (fun a => f a ^ 2) i]
    simp [hC, hq]
  have h3 : ∑ w : Fin n → Ω, (∑ i, f (w i)) ^ 2 = n * (C * q) + n * (n - 1) * (C * μ ^ 2) := by
    have e : ∀ w : Fin n → Ω, (∑ i, f (w i)) ^ 2 = ∑ i, ∑ j, f (w i) * f (w j) := fun w => by
      rw [sq, Finset.sum_mul_sum]
    simp only [e]
    rw [Finset.sum_comm]
    have : ∀ i : Fin n, ∑ w : Fin n → Ω, ∑ j, f (w i) * f (w j) = C * q + (n - 1) * (C * μ ^ 2) := by
      intro i
      rw [Finset.sum_comm, ← Finset.add_sum_erase _ _ (Finset.mem_univ i)]
      congr 1
      · rw [Finset.sum_congr rfl fun w _ => (sq (f (w i))).symm, sum_one (fun a => f a ^ 2) i]
      · rw [Finset.sum_congr rfl fun j hj => sum_two f (Finset.ne_of_mem_erase hj).symm, Finset.sum_const,
          Finset.card_erase_of_mem (Finset.mem_univ _), Finset.card_univ, Fintype.card_fin, nsmul_eq_mul,
          Nat.cast_sub hn]
        simp [hC, hμ]
    rw [Finset.sum_congr rfl fun i _ => this i]
    simp
    ring
  have hcard : ∑ _w : Fin n → Ω, (1 : ℝ) = C := by
    simp [hC]
  simp only [hsq]
  have e1 : ∑ w : Fin n → Ω, ((∑ i, f (w i) ^ 2) - (∑ i, f (w i)) ^ 2 / n) / n ^ 2 =
      (n * (C * q) - (n * (C * q) + n * (n - 1) * (C * μ ^ 2)) / n) / n ^ 2 := by
    rw [← Finset.sum_div, Finset.sum_sub_distrib, ← Finset.sum_div, h2, h3]
  have e2 : ∑ w : Fin n → Ω, ((∑ i, f (w i)) / n - μ) ^ 2 =
      (n * (C * q) + n * (n - 1) * (C * μ ^ 2)) / n ^ 2 - 2 * μ / n * (n * (C * μ)) + μ ^ 2 * C := by
    have : ∀ w : Fin n → Ω, ((∑ i, f (w i)) / n - μ) ^ 2 =
        (∑ i, f (w i)) ^ 2 / n ^ 2 - 2 * μ / n * (∑ i, f (w i)) + μ ^ 2 * 1 := fun w => by
      field_simp
      ring
    simp only [this]
    rw [Finset.sum_add_distrib, Finset.sum_sub_distrib, ← Finset.sum_div, ← Finset.mul_sum, ← Finset.mul_sum,
      h1, h3, hcard]
  rw [e1, e2]
  field_simp
  ring

example : (∀ a : Fin 2, (![[(1 : ℝ), 3], [4, 6]] a).length = 2) := by
  intro a
  fin_cases a <;> rfl

/-- C106 is false: the uncertainty is not an unbiased estimate of the error of the offset.  If the traces
of the population do not all have the same mean, the squared uncertainty is too small on average. -/
theorem offset_std_violated {Ω : Type} [Fintype Ω] [Nonempty Ω] {n nbins : ℕ} (hn : 0 < n)
    (hb : 0 < nbins) (pop : Ω → List ℝ) (hpop : ∀ a, (pop a).length = nbins) (fs sg : ℝ)
    (hne : ∃ a b, (pop a).sum ≠ (pop b).sum) :
    ∃ off s : (Fin n → Ω) → ℝ,
      (∀ w, calcOffset (List.ofFn fun i => pop (w i)) nbins fs sg false = some (off w) ∧
        calcOffsetStd (List.ofFn fun i => pop (w i)) nbins fs sg false = some (s w)) ∧
      ∑ w, s w ^ 2 < ∑ w, (off w - (∑ a, (pop a).sum / nbins) / Fintype.card Ω) ^ 2 := by
  obtain ⟨off, s, h1, h2⟩ := offset_std_mean_square hn hb pop hpop fs sg
  refine ⟨off, s, h1, ?_⟩
  have hn' : (0 : ℝ) < n := by exact_mod_cast hn
  have hb' : (nbins : ℝ) ≠ 0 := by exact_mod_cast hb.ne'
  set V := ∑ w, (off w - (∑ a, (pop a).sum / nbins) / Fintype.card Ω) ^ 2 with hV
  have hV0 : 0 < V := by
    refine lt_of_le_of_ne (Finset.sum_nonneg fun w _ => sq_nonneg _) fun h0 => ?_
    obtain ⟨a, b, hab⟩ := hne
    have hz := (Finset.sum_eq_zero_iff_of_nonneg fun w _ => sq_nonneg _).1 h0.symm
    have hconst : ∀ a, off (fun _ => a) = (pop a).sum / nbins := by
      intro a
      obtain ⟨o, _, ho, _, hsum, _⟩ := offset_std hb (x := List.ofFn fun _ : Fin n => pop a) (by
        intro t ht
        obtain ⟨i, rfl⟩ := List.mem_ofFn.1 ht
        exact hpop _) (by
        intro h
        have := congrArg List.length h
        simp at this
        omega) fs sg
      have := (h1 fun _ => a).1.symm.trans ho
      rw [Option.some.inj this]
      rw [List.length_ofFn, List.map_ofFn, List.sum_ofFn] at hsum
      simp only [Function.comp_def, Finset.sum_const, Finset.card_univ, Fintype.card_fin, nsmul_eq_mul] at hsum
      field_simp
      have h5 : (n : ℝ) * (o * nbins) = n * (pop a).sum := by linarith
      exact mul_left_cancel₀ hn'.ne' h5
    have ha := hz (fun _ => a) (Finset.mem_univ _)
    have hb2 := hz (fun _ => b) (Finset.mem_univ _)
    simp only [hconst] at ha hb2
    have ha' := sub_eq_zero.1 (pow_eq_zero_iff (two_ne_zero) |>.1 ha)
    have hb3 := sub_eq_zero.1 (pow_eq_zero_iff (two_ne_zero) |>.1 hb2)
    have := ha'.trans hb3.symm
    field_simp at this
    exact hab this
  have : (∑ w, s w ^ 2) * n < V * n := by
    rw [h2]
    nlinarith
  exact lt_of_mul_lt_mul_right this hn'.le

example : ∃ a b : Fin 2, (![[(1 : ℝ), 3], [4, 6]] a).sum ≠ (![[(1 : ℝ), 3], [4, 6]] b).sum :=
  ⟨0, 1, by norm_num⟩

/-- A single trace gets the uncertainty zero whatever it looks like. -/
theorem offset_std_single_violated {t : List ℝ} (ht : t ≠ []) (fs sg : ℝ) :
    calcOffsetStd [t] t.length fs sg false = some 0 := by
  obtain ⟨off, s, _, h2, _, _, _, h3⟩ := offset_std (x := [t]) (List.length_pos_iff.2 ht) (by simp) (by simp) fs sg
  rw [h2, h3.2 (by simp)]

example : [(1 : ℝ), 5] ≠ [] := by simp

end Verif.Utils
