import Verif.IvLimitEx

/-! Property C148: statistics of the IV curve. -/

namespace Verif.Iv
open Verif LineFit MeasureTheory ProbabilityTheory Filter Topology

variable {Ω : Type*} [MeasurableSpace Ω] {μ : Measure Ω} {o : Obj} {inds : List ℤ} {t c : ℕ} {b R : ℝ}
  {w : Ω → ℕ → ℕ → ℕ → ℝ} {res : Ω → Result}

/-- **C148.**  The current offset is right on average, and its stated error is its standard deviation. -/
theorem iv_offset [IsProbabilityMeasure μ] (h : Study μ o inds t c b R w res) :
    ∫ ω, (res ω).ioff t c ∂μ = b ∧ ∃ e, 0 ≤ e ∧ (∀ᵐ ω ∂μ, (res ω).ioffErr t c = e) ∧
      MemLp (fun ω => (res ω).ioff t c) 2 μ ∧ ∫ ω, ((res ω).ioff t c - b) ^ 2 ∂μ = e ^ 2 := by
  have hn := h.ok.mono fun ω hω => noisy_fit h.chosen h.distinct h.temp h.chan h.line hω
  obtain ⟨ω0, h0⟩ := hn.exists
  obtain ⟨hlt, hσ, hd, -⟩ := h0
  have hlt' : ∀ j ∈ (inds.map (place o.data.n2)).toFinset, j < o.data.n2 := fun j hj => hlt j (List.mem_toFinset.1 hj)
  obtain ⟨g1, g2⟩ := scatter_sum h.scatter hlt' (wb (inds.map (place o.data.n2)) (vbs fun k => o.data.get t c k) (ss fun k => o.data.get t c k))
  have g3 := scatter_mean h.scatter hlt' (wb (inds.map (place o.data.n2)) (vbs fun k => o.data.get t c k) (ss fun k => o.data.get t c k))
  have hv := (weights_variance h.distinct hσ hd).1
  have e1 : (fun ω => (res ω).ioff t c) =ᵐ[μ] fun ω => b + ∑ j ∈ (inds.map (place o.data.n2)).toFinset,
      wb (inds.map (place o.data.n2)) (vbs fun k => o.data.get t c k) (ss fun k => o.data.get t c k) j * w ω t c j :=
    hn.mono fun ω hω => hω.2.2.2.1
  refine ⟨?_, Real.sqrt _, Real.sqrt_nonneg _, hn.mono fun ω hω => hω.2.2.2.2.1, ?_, ?_⟩
  · rw [integral_congr_ae e1, integral_add (integrable_const b) (g1.integrable one_le_two), g3]
    simp
  · exact (memLp_congr_ae e1).2 ((memLp_const b).add g1)
  · rw [Real.sq_sqrt (by rw [← hv]; exact Finset.sum_nonneg fun j _ => sq_nonneg _), ← hv]
    have e2 : (fun ω => ((res ω).ioff t c - b) ^ 2) =ᵐ[μ] fun ω => (∑ j ∈ (inds.map (place o.data.n2)).toFinset,
        wb (inds.map (place o.data.n2)) (vbs fun k => o.data.get t c k) (ss fun k => o.data.get t c k) j * w ω t c j) ^ 2 :=
      e1.mono fun ω hω => by
        simp only at hω ⊢
        rw [hω]
        ring
    rw [integral_congr_ae e2, g2]
    rfl

/-- It applies to the example. -/
example : ∃ res, ∫ ω, (res ω : Result).ioff 0 0 ∂Device.throws 4 = 3 ∧ Study (Device.throws 4) bench [0, 1, 2] 0 0 3 1 shake res := by
  obtain ⟨res, h⟩ := bench_study
  exact ⟨res, (iv_offset h).1, h⟩

/-- **C148.**  The conductance of the normal state is right on average, and the stated error of the normal resistance is
the first-order error for the standard deviation of the conductance and the error of the load resistance. -/
theorem iv_resistance [IsProbabilityMeasure μ] (h : Study μ o inds t c b R w res) :
    ∫ ω, 1 / (res ω).rfit t c ∂μ = 1 / R ∧ ∃ rl, o.rload = some rl ∧ ∀ᵐ ω ∂μ,
      (res ω).rnorm t c = (res ω).rfit t c - (rl.get t c 0).val ∧
      (res ω).rnormErr t c ^ 2 = (res ω).rfit t c ^ 4 * ∫ ω', (1 / (res ω').rfit t c - 1 / R) ^ 2 ∂μ + (rl.get t c 0).err ^ 2 := by
  have hn := h.ok.mono fun ω hω => noisy_fit h.chosen h.distinct h.temp h.chan h.line hω
  obtain ⟨ω0, h0⟩ := hn.exists
  obtain ⟨hlt, hσ, hd, -, -, -, -, ⟨rl, hrl, -⟩, -⟩ := h0
  have hlt' : ∀ j ∈ (inds.map (place o.data.n2)).toFinset, j < o.data.n2 := fun j hj => hlt j (List.mem_toFinset.1 hj)
  obtain ⟨g1, g2⟩ := scatter_sum h.scatter hlt' (wm (inds.map (place o.data.n2)) (vbs fun k => o.data.get t c k) (ss fun k => o.data.get t c k))
  have g3 := scatter_mean h.scatter hlt' (wm (inds.map (place o.data.n2)) (vbs fun k => o.data.get t c k) (ss fun k => o.data.get t c k))
  have hv := (weights_variance h.distinct hσ hd).2
  have e1 : (fun ω => 1 / (res ω).rfit t c) =ᵐ[μ] fun ω => 1 / R + ∑ j ∈ (inds.map (place o.data.n2)).toFinset,
      wm (inds.map (place o.data.n2)) (vbs fun k => o.data.get t c k) (ss fun k => o.data.get t c k) j * w ω t c j :=
    hn.mono fun ω hω => hω.2.2.2.2.2.1
  refine ⟨?_, rl, hrl, hn.mono fun ω hω => ?_⟩
  · rw [integral_congr_ae e1, integral_add (integrable_const _) (g1.integrable one_le_two), g3]
    simp
  · obtain ⟨rl', hrl', q1, q2⟩ := hω.2.2.2.2.2.2.2.1
    rw [hrl] at hrl'
    cases hrl'
    refine ⟨q1, ?_⟩
    have e2 : (fun ω => (1 / (res ω).rfit t c - 1 / R) ^ 2) =ᵐ[μ] fun ω => (∑ j ∈ (inds.map (place o.data.n2)).toFinset,
        wm (inds.map (place o.data.n2)) (vbs fun k => o.data.get t c k) (ss fun k => o.data.get t c k) j * w ω t c j) ^ 2 :=
      e1.mono fun ω hω => by
        simp only at hω ⊢
        rw [hω]
        ring
    have hc0 : 0 ≤ (solve ((inds.map (place o.data.n2)).map (point (vbs fun k => o.data.get t c k) 0 (ss fun k => o.data.get t c k)))).cmm := by
      rw [← hv]
      exact Finset.sum_nonneg fun j _ => sq_nonneg _
    rw [q2, Real.sq_sqrt (by positivity), integral_congr_ae e2, g2, ← hv]
    rfl

/-- In the example the conductance is 1 on average. -/
example : ∃ res, ∫ ω, 1 / (res ω : Result).rfit 0 0 ∂Device.throws 4 = 1 ∧
    Study (Device.throws 4) bench [0, 1, 2] 0 0 3 1 shake res := by
  obtain ⟨res, h⟩ := bench_study
  exact ⟨res, by rw [(iv_resistance h).1]; norm_num, h⟩

/-- **C148.**  No other linear combination of the normal currents which gives the offset of every line has a smaller
variance than the stated one. -/
theorem iv_offset_best [IsProbabilityMeasure μ] (h : Study μ o inds t c b R w res) {d : ℤ → ℝ}
    (hd : ∀ b' m', (inds.map fun i => d i * (m' * (o.data.get t c (place o.data.n2 i)).elim 0 Reading.vb + b')).sum = b') :
    ∀ᵐ ω ∂μ, (res ω).ioffErr t c ^ 2 ≤ ∫ ω', ((inds.map fun i => d i *
      (((o.noisy (w ω')).data.get t c (place o.data.n2 i)).elim 0 Reading.dites)).sum - b) ^ 2 ∂μ := by
  have hn := h.ok.mono fun ω hω => noisy_fit h.chosen h.distinct h.temp h.chan h.line hω
  obtain ⟨ω0, h0, hok0⟩ := (hn.and h.ok).exists
  obtain ⟨hlt, hσ, hdet, -⟩ := h0
  have hlt' : ∀ j ∈ (inds.map (place o.data.n2)).toFinset, j < o.data.n2 := fun j hj => hlt j (List.mem_toFinset.1 hj)
  have hinj : ∀ i ∈ inds, ∀ i' ∈ inds, place o.data.n2 i = place o.data.n2 i' → i = i' :=
    fun i hi i' hi' e => List.inj_on_of_nodup_map h.distinct hi hi' e
  -- the coefficients by position
  let d' : ℕ → ℝ := fun j => ((inds.find? fun i => place o.data.n2 i = j).map d).getD 0
  have hd' : ∀ i ∈ inds, d' (place o.data.n2 i) = d i := by
    intro i hi
    have h1 : (inds.find? fun i' => decide (place o.data.n2 i' = place o.data.n2 i)).isSome := by
      rw [List.find?_isSome]
      exact ⟨i, hi, by simp⟩
    obtain ⟨i', hi'⟩ := Option.isSome_iff_exists.1 h1
    have h2 := List.find?_some hi'
    have h3 := List.mem_of_find?_eq_some hi'
    simp only [d', hi', Option.map_some, Option.getD_some]
    rw [hinj i' h3 i hi (by simpa using h2)]
  have hsum : ∀ f : ℕ → ℝ, (inds.map fun i => d i * f (place o.data.n2 i)).sum =
      ∑ j ∈ (inds.map (place o.data.n2)).toFinset, d' j * f j := by
    intro f
    rw [List.sum_toFinset _ h.distinct, List.map_map]
    congr 1
    refine List.map_congr_left fun i hi => ?_
    simp only [Function.comp]
    rw [hd' i hi]
  have hbest := (weights_best h.distinct hσ hdet (d := d')).1 fun b' m' => by
    rw [← hsum fun j => m' * (vbs fun k => o.data.get t c k) j + b']
    exact hd b' m'
  have hv := (weights_variance h.distinct hσ hdet).1
  obtain ⟨g1, g2⟩ := scatter_sum h.scatter hlt' d'
  have hsome : ∀ i ∈ inds, (o.data.get t c (place o.data.n2 i)).isSome := by
    intro i hi
    obtain ⟨fits, rl, hf, -⟩ := calcIv_iff.1 hok0
    have h1 := fits_row hf (t := t) (c := c) h.temp h.chan
    have h1' : rowFit ((List.range o.data.n2).map fun k => (o.noisy (w ω0)).data.get t c k) (some inds) = .ok (pick fits t c) := by
      rw [← h.chosen]
      exact h1
    have := (rowFit_iff.1 h1').2.1 _ (List.mem_map_of_mem hi)
    simpa [Obj.noisy] using this
  have e1 : ∀ ω', (inds.map fun i => d i *
      (((o.noisy (w ω')).data.get t c (place o.data.n2 i)).elim 0 Reading.dites)).sum - b =
      ∑ j ∈ (inds.map (place o.data.n2)).toFinset, d' j * w ω' t c j := by
    intro ω'
    have : (inds.map fun i => d i * (((o.noisy (w ω')).data.get t c (place o.data.n2 i)).elim 0 Reading.dites)) =
        inds.map fun i => d i * (1 / R * (o.data.get t c (place o.data.n2 i)).elim 0 Reading.vb + b) +
          d i * w ω' t c (place o.data.n2 i) := by
      refine List.map_congr_left fun i hi => ?_
      obtain ⟨r, hr⟩ := Option.isSome_iff_exists.1 (hsome i hi)
      have := h.line i hi r hr
      simp only [Obj.noisy, hr, Option.map_some, Option.elim]
      rw [this]
      ring
    rw [this, List.sum_map_add, hd, hsum fun j => w ω' t c j]
    ring
  simp only [e1, g2]
  refine hn.mono fun ω hω => ?_
  rw [hω.2.2.2.2.1, Real.sq_sqrt (by rw [← hv]; exact Finset.sum_nonneg fun j _ => sq_nonneg _)]
  exact hbest

/-- Another combination which gives the offset of every line: that of the first two points. -/
example (b' m' : ℝ) : (([0, 1, 2] : List ℤ).map fun i => (if i = 0 then 2 else if i = 1 then -1 else 0) *
    (m' * (bench.data.get 0 0 (place bench.data.n2 i)).elim 0 Reading.vb + b')).sum = b' := by
  have h : ∀ i : ℤ, (bench.data.get 0 0 (place bench.data.n2 i)).elim 0 Reading.vb =
      if place 4 i = 3 then 2 else 10 * (place 4 i : ℝ) + 10 := fun i => by
    simp only [bench]
    split_ifs <;> rfl
  simp only [h]
  norm_num [place]
  ring

/-- **C148**, partial: at a bias point which is not among the chosen normal points the TES current is right on average, and
its stated error is its standard deviation.  For the normal points themselves see `iv_current_violated`. -/
theorem iv_current_partial [IsProbabilityMeasure μ] (h : Study μ o inds t c b R w res) {k : ℕ} (hk : k < o.data.n2)
    (hout : k ∉ inds.map (place o.data.n2)) {r : Reading} (hr : o.data.get t c k = some r) :
    ∃ (I : Ω → ℝ) (e : ℝ), 0 ≤ e ∧ (∀ᵐ ω ∂μ, (res ω).ites t c k = some (I ω) ∧ (res ω).itesErr t c k = some e) ∧
      ∫ ω, I ω ∂μ = r.dites - b ∧ ∫ ω, (I ω - (r.dites - b)) ^ 2 ∂μ = e ^ 2 := by
  have hn := h.ok.mono fun ω hω => noisy_fit h.chosen h.distinct h.temp h.chan h.line hω
  obtain ⟨ω0, h0⟩ := hn.exists
  obtain ⟨hlt, hσ, hd, -⟩ := h0
  let J := inds.map (place o.data.n2)
  let x := vbs fun k => o.data.get t c k
  let σ := ss fun k => o.data.get t c k
  let S := insert k J.toFinset
  have hkS : k ∉ J.toFinset := fun hm => hout (List.mem_toFinset.1 hm)
  have hS : ∀ j ∈ S, j < o.data.n2 := fun j hj => by
    rcases Finset.mem_insert.1 hj with rfl | hj
    · exact hk
    · exact hlt j (List.mem_toFinset.1 hj)
  let a : ℕ → ℝ := fun j => if j = k then 1 else -wb J x σ j
  have hsum : ∀ f : ℕ → ℝ, ∑ j ∈ S, a j * f j = f k - ∑ j ∈ J.toFinset, wb J x σ j * f j := by
    intro f
    rw [Finset.sum_insert hkS]
    simp only [a, if_true, one_mul]
    rw [sub_eq_add_neg, ← Finset.sum_neg_distrib]
    congr 1
    refine Finset.sum_congr rfl fun j hj => ?_
    rw [if_neg (show ¬ j = k from fun e => hkS (e ▸ hj))]
    ring
  have hsq : ∑ j ∈ S, (a j * σ j) ^ 2 = σ k ^ 2 + ∑ j ∈ J.toFinset, (wb J x σ j * σ j) ^ 2 := by
    rw [Finset.sum_insert hkS]
    simp only [a, if_true, one_mul]
    congr 1
    refine Finset.sum_congr rfl fun j hj => ?_
    rw [if_neg (show ¬ j = k from fun e => hkS (e ▸ hj))]
    ring
  obtain ⟨g1, g2⟩ := scatter_sum h.scatter hS a
  have g3 := scatter_mean h.scatter hS a
  have hv := (weights_variance h.distinct hσ hd).1
  have hc0 : 0 ≤ (solve (J.map (point x 0 σ))).cbb := by
    rw [← hv]
    exact Finset.sum_nonneg fun j _ => sq_nonneg _
  refine ⟨fun ω => r.dites - b + ∑ j ∈ S, a j * w ω t c j, Real.sqrt (r.ditesErr ^ 2 + (solve (J.map (point x 0 σ))).cbb),
    Real.sqrt_nonneg _, hn.mono fun ω hω => ?_, ?_, ?_⟩
  · obtain ⟨q1, q2⟩ := hω.2.2.2.2.2.2.2.2 k r hr
    rw [q1, q2, hω.2.2.2.1, hω.2.2.2.2.1]
    simp only [hsum, J, x, σ] at hc0 ⊢
    rw [Real.sq_sqrt hc0]
    refine ⟨?_, rfl⟩
    congr 1
    ring
  · rw [integral_add (integrable_const _) (g1.integrable one_le_two), g3]
    simp
  · simp only [add_sub_cancel_left]
    rw [g2, Real.sq_sqrt (by positivity)]
    have : σ k = r.ditesErr := by simp [σ, ss, hr]
    have e : ∀ j, o.errs t c j = σ j := fun j => rfl
    simp only [e]
    rw [hsq, hv, this]

/-- The fourth point of the example is such a point. -/
example : ∃ res, Study (Device.throws 4) bench [0, 1, 2] 0 0 3 1 shake res ∧ 3 < bench.data.n2 ∧
    3 ∉ ([0, 1, 2] : List ℤ).map (place bench.data.n2) ∧ bench.data.get 0 0 3 = some ⟨2, 0, 7, 1⟩ := by
  obtain ⟨res, h⟩ := bench_study
  exact ⟨res, h, by decide, by decide, by simp [bench]⟩

/-- **C148.**  The stated error of the TES current is not its standard deviation at the normal points themselves, where the
errors of current and offset are correlated: its square may be five times too large at one point and less than three
quarters of the variance at another. -/
theorem iv_current_violated : ∃ (o : Obj) (inds : List ℤ) (w : Bool × ZMod 4 → ℕ → ℕ → ℕ → ℝ) (res : Bool × ZMod 4 → Result)
    (r0 r2 : Reading) (I0 I2 : Bool × ZMod 4 → ℝ) (e : ℝ), Study (Device.throws 4) o inds 0 0 3 1 w res ∧
      o.data.get 0 0 0 = some r0 ∧ o.data.get 0 0 2 = some r2 ∧
      (∀ᵐ ω ∂Device.throws 4, (res ω).ites 0 0 0 = some (I0 ω) ∧ (res ω).itesErr 0 0 0 = some e ∧
        (res ω).ites 0 0 2 = some (I2 ω) ∧ (res ω).itesErr 0 0 2 = some e) ∧
      e ^ 2 = 10 / 3 ∧ ∫ ω, (I0 ω - (r0.dites - 3)) ^ 2 ∂Device.throws 4 = 2 / 3 ∧
      ∫ ω, (I2 ω - (r2.dites - 3)) ^ 2 ∂Device.throws 4 = 14 / 3 := by
  obtain ⟨res, h⟩ := bench_study
  have hn := h.ok.mono fun ω hω => noisy_fit h.chosen h.distinct h.temp h.chan h.line hω
  obtain ⟨m1, m2⟩ := bench_nums
  rw [bench_place, m1, m2] at hn
  have e3 : ([0, 1, 2] : List ℕ).toFinset = {0, 1, 2} := rfl
  have hS : ∀ j ∈ ({0, 1, 2} : Finset ℕ), j < bench.data.n2 := by decide
  have herr : ∀ j, bench.errs 0 0 j = 1 := fun j => by
    simp only [Obj.errs, bench]
    split_ifs <;> rfl
  have hsum3 : ∀ f : ℕ → ℝ, ∑ j ∈ ({0, 1, 2} : Finset ℕ), f j = f 0 + (f 1 + f 2) := fun f => by
    rw [Finset.sum_insert (by decide), Finset.sum_insert (by decide), Finset.sum_singleton]
  obtain ⟨q1, q2, q3, q4⟩ := bench_sums
  have hcbb : (solve (([0, 1, 2] : List ℕ).map (point (fun k => if k = 3 then 2 else 10 * (k : ℝ) + 10) 0 fun _ => 1))).cbb = 7 / 3 := by
    unfold solve
    simp only [q3, q4]
    norm_num
  simp only [hcbb] at hn
  have var : ∀ a : ℕ → ℝ, ∫ ω, (∑ j ∈ ({0, 1, 2} : Finset ℕ), a j * shake ω 0 0 j) ^ 2 ∂Device.throws 4 = a 0 ^ 2 + (a 1 ^ 2 + a 2 ^ 2) := by
    intro a
    rw [(scatter_sum bench_scatter hS a).2, hsum3]
    simp only [herr, mul_one]
  refine ⟨bench, [0, 1, 2], shake, res, ⟨10, 0, 13, 1⟩, ⟨30, 0, 33, 1⟩,
    fun ω => 10 + ∑ j ∈ ({0, 1, 2} : Finset ℕ), (fun j => if j = 0 then -1 / 3 else if j = 1 then -1 / 3 else 2 / 3) j * shake ω 0 0 j,
    fun ω => 30 + ∑ j ∈ ({0, 1, 2} : Finset ℕ), (fun j => if j = 0 then -4 / 3 else if j = 1 then -1 / 3 else 5 / 3) j * shake ω 0 0 j,
    Real.sqrt (10 / 3), h, by norm_num [bench], by norm_num [bench], hn.mono fun ω hω => ?_, ?_, ?_, ?_⟩
  · obtain ⟨-, -, -, f1, f2, -, -, -, f3⟩ := hω
    obtain ⟨a1, a2⟩ := f3 0 ⟨10, 0, 13, 1⟩ (by norm_num [bench])
    obtain ⟨b1, b2⟩ := f3 2 ⟨30, 0, 33, 1⟩ (by norm_num [bench])
    rw [a1, a2, b1, b2, f1, f2, e3, Real.sq_sqrt (by norm_num)]
    simp only [hsum3, (bench_weights _).1]
    refine ⟨?_, ?_, ?_, ?_⟩ <;> congr 1
    · norm_num
      ring
    · congr 1
      norm_num
    · norm_num
      ring
    · congr 1
      norm_num
  · rw [Real.sq_sqrt (by norm_num)]
  · have := var fun j => if j = 0 then -1 / 3 else if j = 1 then -1 / 3 else 2 / 3
    norm_num at this ⊢
    exact this
  · have := var fun j => if j = 0 then -4 / 3 else if j = 1 then -1 / 3 else 5 / 3
    norm_num at this ⊢
    exact this

/-- **C148.**  The results of `calc_iv` with chosen normal points depend continuously on the readings, their errors and the
load resistances. -/
theorem iv_continuous {ι : Type*} {L : Filter ι} {O : ι → Obj} (hO : Approach L O o) (hi : o.normalinds = some inds)
    {res : Result} (h : calcIv o = .ok res) :
    ∃ Rs : ι → Result, (∀ᶠ i in L, calcIv (O i) = .ok (Rs i)) ∧ Settles L o Rs res :=
  calcIv_settles hO hi h

/-- **C148.**  With currents averaged over more and more repetitions, the results approach those for the true currents;
where the normal points lie on a line these are its offset and resistance. -/
theorem iv_consistent [IsProbabilityMeasure μ] (hi : o.normalinds = some inds) {res : Result} (h : calcIv o = .ok res)
    {w : ℕ → Ω → ℕ → ℕ → ℕ → ℝ} (hw : ∀ t c k, Repeats μ fun i ω => w i ω t c k) :
    ∀ᵐ ω ∂μ, ∃ Rs : ℕ → Result,
      (∀ᶠ m : ℕ in atTop, calcIv (o.noisy fun t c k => (∑ i ∈ Finset.range m, w i ω t c k) / m) = .ok (Rs m)) ∧
      Settles atTop o Rs res ∧
      ∀ t c b R, t < o.data.n0 → c < o.data.n1 → (inds.map (place o.data.n2)).Nodup →
        (∀ i ∈ inds, ∀ r, o.data.get t c (place o.data.n2 i) = some r → r.dites = r.vb / R + b) →
        Tendsto (fun m => (Rs m).ioff t c) atTop (𝓝 b) ∧ Tendsto (fun m => (Rs m).rfit t c) atTop (𝓝 R) := by
  have h1 : ∀ᵐ ω ∂μ, ∀ t c k, Tendsto (fun m : ℕ => (∑ i ∈ Finset.range m, w i ω t c k) / m) atTop (𝓝 0) := by
    rw [ae_all_iff]
    intro t
    rw [ae_all_iff]
    intro c
    rw [ae_all_iff]
    intro k
    exact repeats_average (hw t c k)
  filter_upwards [h1] with ω hω
  obtain ⟨Rs, hRs, hS⟩ := calcIv_settles (noisy_approach (o := o) (v := fun m t c k => (∑ i ∈ Finset.range m, w i ω t c k) / (m : ℝ)) hω) hi h
  refine ⟨Rs, hRs, hS, fun t c b R ht hc hJ hline => ?_⟩
  have h0 : o.noisy (fun _ _ _ => 0) = o := by
    unfold Obj.noisy
    simp
  have := noisy_fit hi hJ ht hc hline (w := fun _ _ _ => 0) (res := res) (by rw [h0]; exact h)
  obtain ⟨-, -, -, q1, -, q2, -⟩ := this
  simp only [mul_zero, Finset.sum_const_zero, add_zero] at q1 q2
  have q3 : res.rfit t c = R := by
    rw [one_div, one_div] at q2
    exact inv_injective q2
  obtain ⟨s1, -, s2, -⟩ := hS.fit t ht c hc
  rw [q1] at s1
  rw [q3] at s2
  exact ⟨s1, s2⟩

/-- The hypotheses of `iv_continuous` and `iv_consistent` hold for the example, measured again and again. -/
example : bench.normalinds = some [0, 1, 2] ∧ (∃ res, calcIv bench = .ok res) ∧
    ∀ t c k, Repeats (Device.rounds 4) fun i ω => shake (ω i) t c k := by
  refine ⟨rfl, ?_, fun t c k => ?_⟩
  · have := bench_ok (v := fun _ _ _ => 0) (by simp)
    rwa [show bench.noisy (fun _ _ _ => 0) = bench by unfold Obj.noisy; simp] at this
  · have h := Device.rounds_run 4 2
    refine ⟨(h.stationary.sq_int k).integrable one_le_two, h.stationary.mean k, fun i j hij => ?_, fun i => ?_⟩
    · exact (h.independent hij).comp (measurable_pi_apply (k : ZMod 4)) (measurable_pi_apply (k : ZMod 4))
    · exact (h.alike i).comp (measurable_pi_apply (k : ZMod 4))

end Verif.Iv
