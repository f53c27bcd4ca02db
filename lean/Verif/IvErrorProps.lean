import Verif.IvErrorEx

/-! Property C151: to first order, the errors stated by `calc_iv` are standard deviations. -/

namespace Verif.Iv
open Verif LineFit MeasureTheory ProbabilityTheory Filter Topology

variable {Ω : Type*} [MeasurableSpace Ω] {μ : Measure Ω} {o : Obj} {inds : List ℤ} {t c : ℕ} {b R : ℝ} {e : Ω → Errs} {res : Result}

/-- **C151.**  Let the chosen normal points lie on a line, and let all readings have random errors, a fraction `s` of those
stated.  For small `s` the analysis succeeds, and to first order in `s` current offset and normal resistance have no bias
and at least the stated error, times `s`, as standard deviation: exactly this error if the voltages of the normal points
are stated to be exact. -/
theorem iv_fit_errors [IsFiniteMeasure μ] (h : calcIv o = .ok res) (hi : o.normalinds = some inds)
    (hJ : (inds.map (place o.data.n2)).Nodup) (ht : t < o.data.n0) (hc : c < o.data.n1)
    (hline : ∀ i ∈ inds, ∀ r, o.data.get t c (place o.data.n2 i) = some r → r.dites = r.vb / R + b) (he : Stated μ o t c e) :
    ∃ Rs : Ω → ℝ → Result, (∀ ω, ∀ᶠ s in 𝓝 0, calcIv (o.off s (e ω)) = .ok (Rs ω s)) ∧
      Honest μ (∀ i ∈ inds, o.voltErrs t c (place o.data.n2 i) = 0) (fun ω s => some ((Rs ω s).ioff t c)) (res.ioffErr t c) ∧
      Honest μ (∀ i ∈ inds, o.voltErrs t c (place o.data.n2 i) = 0) (fun ω s => some ((Rs ω s).rnorm t c)) (res.rnormErr t c) := by
  choose Rs hRs hset using fun ω => calcIv_settles (off_approach o (e ω)) hi h
  obtain ⟨-, rl, -, hrl, -⟩ := calcIv_iff.1 h
  let z : Errs := ⟨0, 0, 0⟩
  obtain ⟨hlt, hsome, hσ, hd, hn2, -, q2, q3, q4, -, q6, -⟩ := off_fit hi hJ ht hc hline hrl (s := 0) (e := z) (res := res) (by rw [off_zero]; exact h)
  simp only [off_zero] at hd q2 q3 q6
  have hRR : res.rfit t c = R := by rw [q3]; simp
  have hR0 : R ≠ 0 := hRR ▸ q4
  have hx : ∀ ω, ∀ j ∈ inds.map (place o.data.n2), Tendsto (fun s => vbs (fun k => (o.off s (e ω)).data.get t c k) j) (𝓝 0)
      (𝓝 (vbs (fun k => o.data.get t c k) j)) := fun ω j hj => (toward_num ((off_approach o (e ω)).data t c j)).1
  have hw := fun ω => weights_tendsto hJ (hx ω) hσ hd fun j => (e ω).dites t c j - (e ω).vb t c j / R
  have hlt' : ∀ j ∈ (inds.map (place o.data.n2)).toFinset, j < o.data.n2 := fun j hj => hlt j (List.mem_toFinset.1 hj)
  obtain ⟨v1, v2⟩ := weights_variance hJ hσ hd
  have hex : ∀ (W : ℕ → ℝ), (∀ i ∈ inds, o.voltErrs t c (place o.data.n2 i) = 0) →
      ∑ j ∈ (inds.map (place o.data.n2)).toFinset, (W j / R * o.voltErrs t c j) ^ 2 = 0 := fun W hv =>
    Finset.sum_eq_zero fun j hj => by
      obtain ⟨i, hi', rfl⟩ := List.mem_map.1 (List.mem_toFinset.1 hj)
      rw [hv i hi']
      ring
  have herr : ∀ j, o.errs t c j = ss (fun k => o.data.get t c k) j := fun j => rfl
  have hev := fun ω => (hRs ω).mono fun s hs => off_fit hi hJ ht hc hline hrl hs
  refine ⟨Rs, hRs, ?_, ?_⟩
  · obtain ⟨m1, m2, m3⟩ := line_sum he hrl hlt' (Nat.pos_of_ne_zero hn2)
      (wb (inds.map (place o.data.n2)) (vbs fun k => o.data.get t c k) (ss fun k => o.data.get t c k)) R 1 0
    refine honest_of m1 m2 m3 (Finset.sum_nonneg fun j _ => sq_nonneg _) (hex _) ?_ fun ω => ?_
    · rw [q2, Real.sq_sqrt (by rw [← v1]; exact Finset.sum_nonneg fun j _ => sq_nonneg _), ← v1]
      simp only [herr]
      ring
    · rw [one_mul, zero_mul, add_zero]
      exact ioff_rate h hi hJ ht hc hline (hRs ω)
  · obtain ⟨m1, m2, m3⟩ := line_sum he hrl hlt' (Nat.pos_of_ne_zero hn2)
      (wm (inds.map (place o.data.n2)) (vbs fun k => o.data.get t c k) (ss fun k => o.data.get t c k)) R (-R ^ 2) (-1)
    refine honest_of m1 m2 m3 (Finset.sum_nonneg fun j _ => sq_nonneg _) (hex _) ?_ fun ω =>
      ⟨fun s => 1 / (1 / R + s * ∑ j ∈ (inds.map (place o.data.n2)).toFinset,
      wm (inds.map (place o.data.n2)) (vbs fun k => (o.off s (e ω)).data.get t c k) (ss fun k => o.data.get t c k) j *
        ((e ω).dites t c j - (e ω).vb t c j / R)) - ((rl.get t c 0).val + s * (e ω).rload t c 0), (hev ω).mono fun s hs => ?_, ?_⟩
    · rw [q6, hRR, Real.sq_sqrt, ← v2]
      · simp only [herr]
        ring
      · have : 0 ≤ (solve ((inds.map (place o.data.n2)).map (point (vbs fun k => o.data.get t c k) 0 (ss fun k => o.data.get t c k)))).cmm := by
          rw [← v2]; exact Finset.sum_nonneg fun j _ => sq_nonneg _
        positivity
    · simp only [hs.2.2.2.2.2.2.2.2.2.1, hs.2.2.2.2.2.2.2.1]
    · have h1 := deriv_lin (b := 1 / R) (g := fun s => ∑ j ∈ (inds.map (place o.data.n2)).toFinset,
        wm (inds.map (place o.data.n2)) (vbs fun k => (o.off s (e ω)).data.get t c k) (ss fun k => o.data.get t c k) j *
        ((e ω).dites t c j - (e ω).vb t c j / R)) (by simp only [off_zero]; exact (hw ω).2)
      have h2 := deriv_lin (b := (rl.get t c 0).val) (g := fun _ => (e ω).rload t c 0) tendsto_const_nhds
      have := ((hasDerivAt_const (0 : ℝ) (1 : ℝ)).fun_div h1 (by simpa using hR0)).fun_sub h2
      refine this.congr_deriv ?_
      simp only [off_zero, zero_mul, add_zero]
      generalize (∑ j ∈ (inds.map (place o.data.n2)).toFinset,
        wm (inds.map (place o.data.n2)) (vbs fun k => o.data.get t c k) (ss fun k => o.data.get t c k) j *
        ((e ω).dites t c j - (e ω).vb t c j / R)) = g
      field_simp
      ring

/-- The hypotheses hold for the example, with voltages of the normal points stated to be exact (`u = 0`) or not. -/
example (u : ℝ) : (∃ res, calcIv (probe u) = .ok res) ∧ (probe u).normalinds = some [0, 1, 2] ∧
    (([0, 1, 2] : List ℤ).map (place (probe u).data.n2)).Nodup ∧ 0 < (probe u).data.n0 ∧ 0 < (probe u).data.n1 ∧
    (∀ i ∈ ([0, 1, 2] : List ℤ), ∀ r, (probe u).data.get 0 0 (place (probe u).data.n2 i) = some r → r.dites = r.vb / 1 + 3) ∧
    Stated (Device.throws 9) (probe u) 0 0 (jitter u) :=
  ⟨probe_ok u, rfl, probe_nodup u, Nat.one_pos, Nat.one_pos, probe_line u, probe_stated u⟩

/-- **C151.**  Where the voltages of the normal points have errors, the stated error of the offset may be too small: it
leaves them out.  Here the variance is, to first order, twice the stated one. -/
theorem iv_fit_errors_more : ∃ (o : Obj) (inds : List ℤ) (e : Bool × ZMod 9 → Errs) (res : Result) (Rs : Bool × ZMod 9 → ℝ → Result)
    (D : Bool × ZMod 9 → ℝ), calcIv o = .ok res ∧ o.normalinds = some inds ∧ (inds.map (place o.data.n2)).Nodup ∧
      (∀ i ∈ inds, ∀ r, o.data.get 0 0 (place o.data.n2 i) = some r → r.dites = r.vb / 1 + 3) ∧ Stated (Device.throws 9) o 0 0 e ∧
      (∀ ω, ∀ᶠ s in 𝓝 0, calcIv (o.off s (e ω)) = .ok (Rs ω s)) ∧ (∀ ω, Rate (fun s => some ((Rs ω s).ioff 0 0)) (D ω)) ∧
      0 < res.ioffErr 0 0 ∧ ∫ ω, D ω ^ 2 ∂Device.throws 9 = 2 * res.ioffErr 0 0 ^ 2 := by
  obtain ⟨res, h⟩ := probe_ok 1
  choose Rs hRs hset using fun ω => calcIv_settles (off_approach (probe 1) (jitter 1 ω)) (inds := [0, 1, 2]) rfl h
  obtain ⟨-, rl, -, hrl, -⟩ := calcIv_iff.1 h
  have hJ : (([0, 1, 2] : List ℤ).map (place (probe 1).data.n2)).Nodup := probe_nodup 1
  obtain ⟨hlt, hsome, hσ, hd, hn2, -, q2, -⟩ := off_fit (o := probe 1) (inds := [0, 1, 2]) (t := 0) (c := 0) rfl hJ Nat.one_pos Nat.one_pos
    (probe_line 1) hrl (s := 0) (e := ⟨0, 0, 0⟩) (res := res) (by rw [off_zero]; exact h)
  simp only [off_zero] at hd q2
  have hlt' : ∀ j ∈ (([0, 1, 2] : List ℤ).map (place (probe 1).data.n2)).toFinset, j < (probe 1).data.n2 := fun j hj =>
    hlt j (List.mem_toFinset.1 hj)
  obtain ⟨-, -, m3⟩ := line_sum (probe_stated 1) hrl hlt' (Nat.pos_of_ne_zero hn2)
      (wb (([0, 1, 2] : List ℤ).map (place (probe 1).data.n2)) (vbs fun k => (probe 1).data.get 0 0 k) (ss fun k => (probe 1).data.get 0 0 k)) 1 1 0
  have hv := (weights_variance hJ hσ hd).1
  have e1 : ∀ j, (probe 1).errs 0 0 j = ss (fun k => (probe 1).data.get 0 0 k) j := fun j => rfl
  have e2 : ∀ j, (probe 1).voltErrs 0 0 j = ss (fun k => (probe 1).data.get 0 0 k) j := fun j => by
    simp only [Obj.voltErrs, ss, probe]
    split_ifs <;> rfl
  have e3 : (solve ((([0, 1, 2] : List ℤ).map (place (probe 1).data.n2)).map (point (vbs fun k => (probe 1).data.get 0 0 k) 0
      (ss fun k => (probe 1).data.get 0 0 k)))).cbb = 7 / 3 := by
    have : ([0, 1, 2] : List ℤ).map (place (probe 1).data.n2) = [0, 1, 2] := rfl
    rw [this, (probe_nums 1).1, (probe_nums 1).2.2, bench_nums.1, bench_nums.2]
    obtain ⟨-, -, s3, s4⟩ := bench_sums
    unfold solve
    simp only [s3, s4]
    norm_num
  refine ⟨probe 1, [0, 1, 2], jitter 1, res, Rs, _, h, rfl, hJ, probe_line 1, probe_stated 1, hRs, fun ω =>
    ioff_rate h rfl hJ Nat.one_pos Nat.one_pos (probe_line 1) (hRs ω), ?_, ?_⟩
  · rw [q2, e3]
    exact Real.sqrt_pos.2 (by norm_num)
  · simp only [one_mul, zero_mul, add_zero, e1, e2, div_one, one_pow, zero_pow two_ne_zero, hv] at m3
    simp only [div_one]
    rw [m3, q2, e3, Real.sq_sqrt (by norm_num)]
    norm_num

/-- **C151.**  The same holds for current, resistance and power at every bias point which is not among the chosen normal
points. -/
theorem iv_point_errors [IsFiniteMeasure μ] (h : calcIv o = .ok res) (hi : o.normalinds = some inds)
    (hJ : (inds.map (place o.data.n2)).Nodup) (ht : t < o.data.n0) (hc : c < o.data.n1)
    (hline : ∀ i ∈ inds, ∀ r, o.data.get t c (place o.data.n2 i) = some r → r.dites = r.vb / R + b) (he : Stated μ o t c e) :
    ∃ Rs : Ω → ℝ → Result, (∀ ω, ∀ᶠ s in 𝓝 0, calcIv (o.off s (e ω)) = .ok (Rs ω s)) ∧
      ∀ k < o.data.n2, k ∉ inds.map (place o.data.n2) →
        (∀ x, res.itesErr t c k = some x → Honest μ (∀ i ∈ inds, o.voltErrs t c (place o.data.n2 i) = 0) (fun ω s => (Rs ω s).ites t c k) x) ∧
        (∀ x, res.r0Err t c k = some x → Honest μ (∀ i ∈ inds, o.voltErrs t c (place o.data.n2 i) = 0) (fun ω s => (Rs ω s).r0 t c k) x) ∧
        (∀ x p, res.ptesErr t c k = some x → res.ptes t c k = some p →
          Honest μ (∀ i ∈ inds, o.voltErrs t c (place o.data.n2 i) = 0) (fun ω s => (Rs ω s).ptes t c k) x) := by
  choose Rs hRs hset using fun ω => calcIv_settles (off_approach o (e ω)) hi h
  obtain ⟨fits, rl, hfit, hrl, hn2, hres⟩ := calcIv_iff.1 h
  let z : Errs := ⟨0, 0, 0⟩
  obtain ⟨hlt, hsome, hσ, hd, -, q1, q2, -, -, -, -, q7⟩ := off_fit hi hJ ht hc hline hrl (s := 0) (e := z) (res := res) (by rw [off_zero]; exact h)
  simp only [off_zero, zero_mul, add_zero] at hd q1 q2 q7
  have hx : ∀ ω, ∀ j ∈ inds.map (place o.data.n2), Tendsto (fun s => vbs (fun k => (o.off s (e ω)).data.get t c k) j) (𝓝 0)
      (𝓝 (vbs (fun k => o.data.get t c k) j)) := fun ω j hj => (toward_num ((off_approach o (e ω)).data t c j)).1
  have hw := fun ω => weights_tendsto hJ (hx ω) hσ hd fun j => (e ω).dites t c j - (e ω).vb t c j / R
  have hlt' : ∀ j ∈ (inds.map (place o.data.n2)).toFinset, j < o.data.n2 := fun j hj => hlt j (List.mem_toFinset.1 hj)
  obtain ⟨v1, -⟩ := weights_variance hJ hσ hd
  have hex : ∀ (W : ℕ → ℝ), (∀ i ∈ inds, o.voltErrs t c (place o.data.n2 i) = 0) →
      ∑ j ∈ (inds.map (place o.data.n2)).toFinset, (W j / R * o.voltErrs t c j) ^ 2 = 0 := fun W hv =>
    Finset.sum_eq_zero fun j hj => by
      obtain ⟨i, hi', rfl⟩ := List.mem_map.1 (List.mem_toFinset.1 hj)
      rw [hv i hi']
      ring
  have herr : ∀ j, o.errs t c j = ss (fun k => o.data.get t c k) j := fun j => rfl
  have hev := fun ω => (hRs ω).mono fun s hs => off_fit hi hJ ht hc hline hrl hs
  have hcbb : res.ioffErr t c ^ 2 = ∑ j ∈ (inds.map (place o.data.n2)).toFinset,
      (wb (inds.map (place o.data.n2)) (vbs fun k => o.data.get t c k) (ss fun k => o.data.get t c k) j * o.errs t c j) ^ 2 := by
    rw [q2, Real.sq_sqrt (by rw [← v1]; exact Finset.sum_nonneg fun j _ => sq_nonneg _), ← v1]
    simp only [herr]
  refine ⟨Rs, hRs, fun k hk hout => ?_⟩
  have hkJ : k ∉ (inds.map (place o.data.n2)).toFinset := fun hm => hout (List.mem_toFinset.1 hm)
  -- a missing reading has no results
  cases hr : o.data.get t c k with
  | none =>
    have hn : res.itesErr t c k = none ∧ res.r0Err t c k = none ∧ res.ptesErr t c k = none := by
      rw [hres]
      simp only [assemble]
      rw [hr]
      exact ⟨rfl, rfl, rfl⟩
    exact ⟨fun x hx => (nomatch hn.1.symm.trans hx), fun x hx => (nomatch hn.2.1.symm.trans hx), fun x p hx => (nomatch hn.2.2.symm.trans hx)⟩
  | some r =>
    obtain ⟨a1, a2, -⟩ := q7 k r hr
    have hst : res.r0Err t c k = (if r.dites - b = 0 then none else some (Real.sqrt ((1 / (r.dites - b)) ^ 2 * r.vbErr ^ 2 +
          (r.vb / (r.dites - b) ^ 2) ^ 2 * Real.sqrt (r.ditesErr ^ 2 + res.ioffErr t c ^ 2) ^ 2 + (rl.get t c k).err ^ 2))) ∧
        res.ptes t c k = (if r.dites - b = 0 then none else some (r.vb / (r.dites - b) - (rl.get t c k).val)).map (fun x => (r.dites - b) ^ 2 * x) ∧
        res.ptesErr t c k = some (Real.sqrt ((r.vb - 2 * (r.dites - b) * (rl.get t c k).val) ^ 2 * Real.sqrt (r.ditesErr ^ 2 + res.ioffErr t c ^ 2) ^ 2 +
          (r.dites - b) ^ 2 * r.vbErr ^ 2 + ((r.dites - b) ^ 2) ^ 2 * (rl.get t c k).err ^ 2)) := by
      rw [← q1, hres]
      simp only [assemble]
      rw [hr]
      exact ⟨rfl, rfl, rfl⟩
    have hk1 : o.errs t c k = r.ditesErr := by simp [Obj.errs, hr]
    have hk2 : o.voltErrs t c k = r.vbErr := by simp [Obj.voltErrs, hr]
    -- the current as a function of the size of the errors
    let I : Ω → ℝ → ℝ := fun ω s => r.dites + s * (e ω).dites t c k - (b + s * ∑ j ∈ (inds.map (place o.data.n2)).toFinset,
      wb (inds.map (place o.data.n2)) (vbs fun k => (o.off s (e ω)).data.get t c k) (ss fun k => o.data.get t c k) j *
        ((e ω).dites t c j - (e ω).vb t c j / R))
    have hI : ∀ ω, HasDerivAt (I ω) ((e ω).dites t c k - ∑ j ∈ (inds.map (place o.data.n2)).toFinset,
        wb (inds.map (place o.data.n2)) (vbs fun k => o.data.get t c k) (ss fun k => o.data.get t c k) j *
        ((e ω).dites t c j - (e ω).vb t c j / R)) 0 := by
      intro ω
      have h1 := deriv_lin (b := b) (g := fun s => ∑ j ∈ (inds.map (place o.data.n2)).toFinset,
        wb (inds.map (place o.data.n2)) (vbs fun k => (o.off s (e ω)).data.get t c k) (ss fun k => o.data.get t c k) j *
        ((e ω).dites t c j - (e ω).vb t c j / R)) (by simp only [off_zero]; exact (hw ω).1)
      have h2 := deriv_lin (b := r.dites) (g := fun _ => (e ω).dites t c k) tendsto_const_nhds
      simpa only [off_zero] using h2.fun_sub h1
    have hI0 : ∀ ω, I ω 0 = r.dites - b := fun ω => by simp [I]
    have hV : ∀ ω, HasDerivAt (fun s => r.vb + s * (e ω).vb t c k) ((e ω).vb t c k) 0 := fun ω =>
      deriv_lin (b := r.vb) (g := fun _ => (e ω).vb t c k) tendsto_const_nhds
    have hL : ∀ ω, HasDerivAt (fun s => (rl.get t c k).val + s * (e ω).rload t c k) ((e ω).rload t c k) 0 := fun ω =>
      deriv_lin (b := (rl.get t c k).val) (g := fun _ => (e ω).rload t c k) tendsto_const_nhds
    have hevI : ∀ ω, ∀ᶠ s in 𝓝 0, (Rs ω s).ites t c k = some (I ω s) ∧ (I ω s ≠ 0 →
        (Rs ω s).r0 t c k = some ((r.vb + s * (e ω).vb t c k) / I ω s - ((rl.get t c k).val + s * (e ω).rload t c k)) ∧
        (Rs ω s).ptes t c k = some (I ω s ^ 2 * ((r.vb + s * (e ω).vb t c k) / I ω s - ((rl.get t c k).val + s * (e ω).rload t c k)))) := by
      intro ω
      refine (hev ω).mono fun s hs => ?_
      obtain ⟨b1, -, b2⟩ := hs.2.2.2.2.2.2.2.2.2.2.2 k r hr
      rw [hs.2.2.2.2.2.1] at b1 b2
      exact ⟨b1, b2⟩
    have hsum := fun α β γ => point_sum he hrl hlt' hk hkJ
      (wb (inds.map (place o.data.n2)) (vbs fun k => o.data.get t c k) (ss fun k => o.data.get t c k)) R α β γ
    have hsq : Real.sqrt (r.ditesErr ^ 2 + res.ioffErr t c ^ 2) ^ 2 = r.ditesErr ^ 2 + res.ioffErr t c ^ 2 := Real.sq_sqrt (by positivity)
    refine ⟨fun x hx => ?_, fun x hx => ?_, fun x p hx hp => ?_⟩
    · rw [a2] at hx
      cases hx
      obtain ⟨m1, m2, m3⟩ := hsum 1 0 0
      refine honest_of m1 m2 m3 (Finset.sum_nonneg fun j _ => sq_nonneg _) (hex _) ?_ fun ω =>
        ⟨I ω, (hevI ω).mono fun s hs => hs.1, (hI ω).congr_deriv ?_⟩
      · rw [hsq, hk1, hcbb]
        ring
      · ring
    · rw [hst.1] at hx
      by_cases h0 : r.dites - b = 0
      · rw [if_pos h0] at hx; cases hx
      · rw [if_neg h0] at hx
        cases hx
        obtain ⟨m1, m2, m3⟩ := hsum (-(r.vb / (r.dites - b) ^ 2)) (1 / (r.dites - b)) (-1)
        refine honest_of m1 m2 m3 (Finset.sum_nonneg fun j _ => sq_nonneg _) (hex _) ?_ fun ω =>
          ⟨_, ?_, (deriv_r0 (hI ω) (hV ω) (hL ω) (by rw [hI0]; exact h0)).congr_deriv ?_⟩
        · rw [Real.sq_sqrt (by positivity), hsq, hk1, hk2, hcbb]
          ring
        · filter_upwards [hevI ω, (hI ω).continuousAt.eventually_ne (by rw [hI0]; exact h0)] with s h1 h2
          exact (h1.2 h2).1
        · rw [hI0]
          simp
    · rw [hst.2.2] at hx
      cases hx
      rw [hst.2.1] at hp
      by_cases h0 : r.dites - b = 0
      · rw [if_pos h0] at hp; cases hp
      · obtain ⟨m1, m2, m3⟩ := hsum (r.vb - 2 * (r.dites - b) * (rl.get t c k).val) (r.dites - b) (-((r.dites - b) ^ 2))
        refine honest_of m1 m2 m3 (Finset.sum_nonneg fun j _ => sq_nonneg _) (hex _) ?_ fun ω =>
          ⟨_, ?_, (deriv_p (hI ω) (hV ω) (hL ω) (by rw [hI0]; exact h0)).congr_deriv ?_⟩
        · rw [Real.sq_sqrt (by positivity), hsq, hk1, hk2, hcbb]
          ring
        · filter_upwards [hevI ω, (hI ω).continuousAt.eventually_ne (by rw [hI0]; exact h0)] with s h1 h2
          exact (h1.2 h2).2
        · rw [hI0]
          simp

/-- The fourth point of the example is such a point, with a resistance and a power. -/
example (u : ℝ) : 3 < (probe u).data.n2 ∧ 3 ∉ ([0, 1, 2] : List ℤ).map (place (probe u).data.n2) ∧
    ∃ res x p, calcIv (probe u) = .ok res ∧ res.r0Err 0 0 3 = some x ∧ res.ptes 0 0 3 = some p := by
  refine ⟨(by decide : 3 < 4), (by decide : 3 ∉ ([0, 1, 2] : List ℤ).map (place 4)), ?_⟩
  obtain ⟨res, h⟩ := probe_ok u
  obtain ⟨fits, rl, -, hrl, -, hres⟩ := calcIv_iff.1 h
  have q := (off_fit (o := probe u) (inds := [0, 1, 2]) (t := 0) (c := 0) rfl (probe_nodup u) Nat.one_pos Nat.one_pos
    (probe_line u) hrl (s := 0) (e := ⟨0, 0, 0⟩) (res := res) (by rw [off_zero]; exact h)).2.2.2.2.2.1
  have hr : (probe u).data.get 0 0 3 = some ⟨2, 1, 7, 1⟩ := by simp [probe]
  have q' : (pick fits 0 0).ioff = 3 := by
    rw [zero_mul, add_zero, hres] at q
    exact q
  have hne : ¬ (7 : ℝ) - (pick fits 0 0).ioff = 0 := by rw [q']; norm_num
  have h1 : ∃ x, res.r0Err 0 0 3 = some x := by
    rw [hres]
    simp only [assemble]
    rw [hr]
    simp only [Option.bind_some]
    rw [if_neg hne]
    exact ⟨_, rfl⟩
  have h2 : ∃ x, res.ptes 0 0 3 = some x := by
    rw [hres]
    simp only [assemble]
    rw [hr]
    simp only [Option.bind_some]
    rw [if_neg hne]
    exact ⟨_, rfl⟩
  obtain ⟨x, hx⟩ := h1
  obtain ⟨p, hp⟩ := h2
  exact ⟨res, x, p, h, hx, hp⟩

end Verif.Iv
