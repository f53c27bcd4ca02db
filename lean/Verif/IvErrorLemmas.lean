import Verif.IvErrorSpec
import Verif.IvLimitLemmas
import Mathlib.Analysis.Calculus.Deriv.Inv
import Mathlib.Analysis.Calculus.Deriv.Pow
import Mathlib.Analysis.Calculus.Deriv.Slope

/-! Lemmas for property C151. -/

namespace Verif.Iv
open Verif LineFit MeasureTheory ProbabilityTheory Filter Topology

/-! ### Derivatives -/

theorem deriv_lin {g : ℝ → ℝ} (hg : Tendsto g (𝓝 0) (𝓝 (g 0))) (b : ℝ) : HasDerivAt (fun s => b + s * g s) (g 0) 0 := by
  rw [hasDerivAt_iff_tendsto_slope]
  refine (hg.mono_left nhdsWithin_le_nhds).congr' ?_
  filter_upwards [self_mem_nhdsWithin] with s hs
  have : s ≠ 0 := hs
  rw [slope_def_field]
  field_simp
  ring

theorem deriv_r0 {I V L : ℝ → ℝ} {i v l : ℝ} (hI : HasDerivAt I i 0) (hV : HasDerivAt V v 0) (hL : HasDerivAt L l 0) (h0 : I 0 ≠ 0) :
    HasDerivAt (fun s => V s / I s - L s) (-(V 0 / I 0 ^ 2) * i + 1 / I 0 * v + -1 * l) 0 := by
  refine ((hV.fun_div hI h0).fun_sub hL).congr_deriv ?_
  field_simp
  ring

theorem deriv_p {I V L : ℝ → ℝ} {i v l : ℝ} (hI : HasDerivAt I i 0) (hV : HasDerivAt V v 0) (hL : HasDerivAt L l 0) (h0 : I 0 ≠ 0) :
    HasDerivAt (fun s => I s ^ 2 * (V s / I s - L s)) ((V 0 - 2 * I 0 * L 0) * i + I 0 * v + -(I 0 ^ 2) * l) 0 := by
  refine ((hI.fun_pow 2).fun_mul ((hV.fun_div hI h0).fun_sub hL)).congr_deriv ?_
  field_simp
  ring

/-! ### The fit -/

theorem solve_weight {J : List ℕ} (hJ : J.Nodup) (x σ : ℕ → ℝ) {j : ℕ} (hj : j ∈ J) :
    wb J x σ j = (solve (J.map (point x (Pi.single j 1) σ))).b ∧ wm J x σ j = (solve (J.map (point x (Pi.single j 1) σ))).m := by
  obtain ⟨h1, h2⟩ := solve_weights hJ x (Pi.single j 1) σ
  have hj' : j ∈ J.toFinset := List.mem_toFinset.2 hj
  constructor
  · rw [h1, Finset.sum_eq_single j]
    · simp
    · intro k _ hk; simp [hk]
    · exact fun h => absurd hj' h
  · rw [h2, Finset.sum_eq_single j]
    · simp
    · intro k _ hk; simp [hk]
    · exact fun h => absurd hj' h

theorem weights_tendsto {ι : Type*} {L : Filter ι} {J : List ℕ} (hJ : J.Nodup) {x : ι → ℕ → ℝ} {x0 σ : ℕ → ℝ}
    (hx : ∀ j ∈ J, Tendsto (fun i => x i j) L (𝓝 (x0 j))) (h0 : ∀ j ∈ J, σ j ≠ 0) (hd : det (J.map (point x0 0 σ)) ≠ 0)
    (u : ℕ → ℝ) :
    Tendsto (fun i => ∑ j ∈ J.toFinset, wb J (x i) σ j * u j) L (𝓝 (∑ j ∈ J.toFinset, wb J x0 σ j * u j)) ∧
    Tendsto (fun i => ∑ j ∈ J.toFinset, wm J (x i) σ j * u j) L (𝓝 (∑ j ∈ J.toFinset, wm J x0 σ j * u j)) := by
  have hj : ∀ j ∈ J.toFinset, Tendsto (fun i => wb J (x i) σ j) L (𝓝 (wb J x0 σ j)) ∧
      Tendsto (fun i => wm J (x i) σ j) L (𝓝 (wm J x0 σ j)) := by
    intro j hj
    have hj' := List.mem_toFinset.1 hj
    obtain ⟨-, t1, t2, -⟩ := solve_tendsto (L := L) (x := x) (y := fun _ => Pi.single j 1) (σ := fun _ => σ) (y0 := Pi.single j 1)
      hx (fun j _ => tendsto_const_nhds) (fun j _ => tendsto_const_nhds) h0 (by rw [det_y J x0 _ 0]; exact hd)
    rw [(solve_weight hJ x0 σ hj').1, (solve_weight hJ x0 σ hj').2]
    simp only [fun i => (solve_weight hJ (x i) σ hj').1, fun i => (solve_weight hJ (x i) σ hj').2]
    exact ⟨t1, t2⟩
  exact ⟨tendsto_finsetSum _ fun j hj' => (hj j hj').1.mul_const _, tendsto_finsetSum _ fun j hj' => (hj j hj').2.mul_const _⟩

theorem off_zero (o : Obj) (e : Errs) : o.off 0 e = o := by
  unfold Obj.off
  simp

theorem off_approach (o : Obj) (e : Errs) : Approach (𝓝 (0 : ℝ)) (fun s => o.off s e) o := by
  have lin : ∀ a b : ℝ, Tendsto (fun s : ℝ => a + s * b) (𝓝 0) (𝓝 a) := fun a b => by
    have : Continuous fun s : ℝ => a + s * b := by fun_prop
    simpa using this.tendsto 0
  refine ⟨fun i => ⟨rfl, rfl, rfl⟩, fun i => rfl, fun t c k => ?_, fun rl hrl => ⟨fun s => { rl with
      get := fun t c k => { rl.get t c k with val := (rl.get t c k).val + s * e.rload t c k } }, fun i => by simp [Obj.off, hrl],
      fun t c k => ⟨lin _ _, tendsto_const_nhds⟩⟩⟩
  unfold Toward
  cases hd : o.data.get t c k with
  | none => exact fun i => by simp [Obj.off, hd]
  | some r =>
    exact ⟨fun s => { r with vb := r.vb + s * e.vb t c k, dites := r.dites + s * e.dites t c k }, fun i => by simp [Obj.off, hd],
      lin _ _, tendsto_const_nhds, lin _ _, tendsto_const_nhds⟩

theorem off_nums (o : Obj) (s : ℝ) (e : Errs) (t c : ℕ) :
    ss (fun k => (o.off s e).data.get t c k) = ss (fun k => o.data.get t c k) ∧
    ∀ j, (o.data.get t c j).isSome →
      vbs (fun k => (o.off s e).data.get t c k) j = vbs (fun k => o.data.get t c k) j + s * e.vb t c j ∧
      ys (fun k => (o.off s e).data.get t c k) j = ys (fun k => o.data.get t c k) j + s * e.dites t c j := by
  refine ⟨funext fun j => ?_, fun j hj => ?_⟩
  · simp only [ss, Obj.off]
    cases o.data.get t c j <;> rfl
  · unfold ys vbs Obj.off
    obtain ⟨r, hr⟩ := Option.isSome_iff_exists.1 hj
    simp [hr]

/-- The results of a measurement with small errors. -/
theorem off_fit {o : Obj} {inds : List ℤ} (hi : o.normalinds = some inds)
    (hJ : (inds.map (place o.data.n2)).Nodup) {t c : ℕ} (ht : t < o.data.n0) (hc : c < o.data.n1) {b R : ℝ}
    (hline : ∀ i ∈ inds, ∀ r, o.data.get t c (place o.data.n2 i) = some r → r.dites = r.vb / R + b)
    {rl : A3 ValErr} (hrl : o.rload = some rl) {s : ℝ} {e : Errs} {res : Result} (h : calcIv (o.off s e) = .ok res) :
    let J := inds.map (place o.data.n2)
    let x := vbs fun k => (o.off s e).data.get t c k
    let σ := ss fun k => o.data.get t c k
    (∀ j ∈ J, j < o.data.n2) ∧ (∀ j ∈ J, (o.data.get t c j).isSome) ∧ (∀ j ∈ J, σ j ≠ 0) ∧ det (J.map (point x 0 σ)) ≠ 0 ∧
    o.data.n2 ≠ 0 ∧
    res.ioff t c = b + s * ∑ j ∈ J.toFinset, wb J x σ j * (e.dites t c j - e.vb t c j / R) ∧
    res.ioffErr t c = Real.sqrt (solve (J.map (point x 0 σ))).cbb ∧
    res.rfit t c = 1 / (1 / R + s * ∑ j ∈ J.toFinset, wm J x σ j * (e.dites t c j - e.vb t c j / R)) ∧ res.rfit t c ≠ 0 ∧
    res.rnorm t c = res.rfit t c - ((rl.get t c 0).val + s * e.rload t c 0) ∧
    res.rnormErr t c = Real.sqrt (res.rfit t c ^ 4 * (solve (J.map (point x 0 σ))).cmm + (rl.get t c 0).err ^ 2) ∧
    (∀ k r, o.data.get t c k = some r → let I := r.dites + s * e.dites t c k - res.ioff t c
      res.ites t c k = some I ∧ res.itesErr t c k = some (Real.sqrt (r.ditesErr ^ 2 + res.ioffErr t c ^ 2)) ∧
      (I ≠ 0 → res.r0 t c k = some ((r.vb + s * e.vb t c k) / I - ((rl.get t c k).val + s * e.rload t c k)) ∧
        res.ptes t c k = some (I ^ 2 * ((r.vb + s * e.vb t c k) / I - ((rl.get t c k).val + s * e.rload t c k))))) := by
  intro J x σ
  obtain ⟨fits, rl', hf, hrl', hn2, rfl⟩ := calcIv_iff.1 h
  have hrl2 : rl' = { rl with get := fun t c k => { rl.get t c k with val := (rl.get t c k).val + s * e.rload t c k } } := by
    have : (o.off s e).rload = some { rl with get := fun t c k => { rl.get t c k with val := (rl.get t c k).val + s * e.rload t c k } } := by
      simp [Obj.off, hrl]
    rw [this] at hrl'
    cases hrl'
    rfl
  subst hrl2
  have h1 := fits_row hf (t := t) (c := c) ht hc
  have h1' : rowFit ((List.range o.data.n2).map fun k => (o.off s e).data.get t c k) (some inds) = .ok (pick fits t c) := by
    rw [← hi]
    exact h1
  obtain ⟨hr, hs, f, hf', hm, hp⟩ := rowFit_iff.1 h1'
  obtain ⟨e2, e3⟩ := off_nums o s e t c
  rw [e2] at hf'
  have hs' : ∀ j ∈ J, (o.data.get t c j).isSome := fun j hj => by
    have := hs j hj
    simpa [Obj.off] using this
  obtain ⟨g1, g2, g3, rfl⟩ := curveFit_points.1 hf'
  have hσ : ∀ j ∈ J, σ j ≠ 0 := fun j hj => g2 (point x _ σ j) (List.mem_map_of_mem hj)
  have hd : det (J.map (point x 0 σ)) ≠ 0 := by
    rw [det_y J x 0 (ys fun k => (o.off s e).data.get t c k)]
    exact g3
  have hy : ∀ j ∈ J, ys (fun k => (o.off s e).data.get t c k) j = (1 / R * x j + b) + s * (e.dites t c j - e.vb t c j / R) := by
    intro j hj
    rw [(e3 j (hs' j hj)).2]
    have hx : x j = _ := (e3 j (hs' j hj)).1
    rw [hx]
    obtain ⟨i, hi', rfl⟩ := List.mem_map.1 hj
    obtain ⟨r, hr'⟩ := Option.isSome_iff_exists.1 (hs' _ hj)
    have := hline i hi' r hr'
    simp only [ys, vbs, hr', Option.elim]
    rw [this]
    ring
  obtain ⟨u1, u2⟩ := weights_unbiased hJ hd b (1 / R)
  obtain ⟨s1, s2⟩ := solve_weights hJ x (ys fun k => (o.off s e).data.get t c k) σ
  have hb : (solve (J.map (point x (ys fun k => (o.off s e).data.get t c k) σ))).b =
      b + s * ∑ j ∈ J.toFinset, wb J x σ j * (e.dites t c j - e.vb t c j / R) := by
    rw [s1]
    conv_rhs => rw [← u1]
    rw [Finset.mul_sum, ← Finset.sum_add_distrib]
    refine Finset.sum_congr rfl fun j hj => ?_
    rw [hy j (List.mem_toFinset.1 hj)]
    ring
  have hm' : (solve (J.map (point x (ys fun k => (o.off s e).data.get t c k) σ))).m =
      1 / R + s * ∑ j ∈ J.toFinset, wm J x σ j * (e.dites t c j - e.vb t c j / R) := by
    rw [s2]
    conv_rhs => rw [← u2]
    rw [Finset.mul_sum, ← Finset.sum_add_distrib]
    refine Finset.sum_congr rfl fun j hj => ?_
    rw [hy j (List.mem_toFinset.1 hj)]
    ring
  have hcc : (solve (J.map (point x (ys fun k => (o.off s e).data.get t c k) σ))).cbb = (solve (J.map (point x 0 σ))).cbb ∧
      (solve (J.map (point x (ys fun k => (o.off s e).data.get t c k) σ))).cmm = (solve (J.map (point x 0 σ))).cmm := by
    unfold solve
    simp only [det_y J x (ys fun k => (o.off s e).data.get t c k) 0, wsum_map, point]
    exact ⟨trivial, trivial⟩
  refine ⟨fun j hj => ?_, hs', hσ, hd, hn2, ?_, ?_, ?_, ?_, rfl, ?_, fun k r hk => ?_⟩
  · obtain ⟨i, hi', rfl⟩ := List.mem_map.1 hj
    exact place_lt (hr i hi')
  · simp only [assemble, hp, rowOf]
    exact hb
  · simp only [assemble, hp, rowOf]
    rw [← hcc.1]
  · simp only [assemble, hp, rowOf]
    rw [← hm']
  · simp only [assemble, hp, rowOf]
    exact one_div_ne_zero hm
  · simp only [assemble, hp, rowOf]
    rw [← hcc.2, Real.sq_sqrt]
    · congr 2
      ring
    · have : 0 ≤ (solve (J.map (point x (ys fun k => (o.off s e).data.get t c k) σ))).cmm := by
        rw [hcc.2, ← (weights_variance hJ hσ hd).2]
        exact Finset.sum_nonneg fun j _ => sq_nonneg _
      have e : ∀ a b : ℝ, -1 / a * (b * (-1 / a)) = (1 / a) ^ 2 * b := fun a b => by ring
      rw [e]
      positivity
  · have : (o.off s e).data.get t c k = some { r with vb := r.vb + s * e.vb t c k, dites := r.dites + s * e.dites t c k } := by
      simp [Obj.off, hk]
    simp only [assemble]
    rw [this]
    refine ⟨rfl, rfl, fun hI => ⟨?_, ?_⟩⟩
    · simp only [Option.bind_some]
      rw [if_neg hI]
    · simp only [Option.bind_some]
      rw [if_neg hI]
      rfl

/-! ### Statistics -/

variable {Ω : Type*} [MeasurableSpace Ω] {μ : Measure Ω}

/-- A combination of all errors. -/
theorem stated_sum [IsFiniteMeasure μ] {o : Obj} {t c : ℕ} {e : Ω → Errs} (h : Stated μ o t c e) {rl : A3 ValErr} (hrl : o.rload = some rl)
    (a v : ℕ → ℝ) (l : ℝ) {k : ℕ} (hk : k < o.data.n2) {S T : Finset ℕ} (hS : ∀ j ∈ S, j < o.data.n2) (hT : ∀ j ∈ T, j < o.data.n2) :
    MemLp (fun ω => ∑ j ∈ S, a j * (e ω).dites t c j + ∑ j ∈ T, v j * (e ω).vb t c j + l * (e ω).rload t c k) 2 μ ∧
    ∫ ω, (∑ j ∈ S, a j * (e ω).dites t c j + ∑ j ∈ T, v j * (e ω).vb t c j + l * (e ω).rload t c k) ∂μ = 0 ∧
    ∫ ω, (∑ j ∈ S, a j * (e ω).dites t c j + ∑ j ∈ T, v j * (e ω).vb t c j + l * (e ω).rload t c k) ^ 2 ∂μ =
      ∑ j ∈ S, (a j * o.errs t c j) ^ 2 + ∑ j ∈ T, (v j * o.voltErrs t c j) ^ 2 + l ^ 2 * (rl.get t c k).err ^ 2 := by
  obtain ⟨A1, A2⟩ := scatter_sum h.curr hS a
  obtain ⟨V1, V2⟩ := scatter_sum h.volt hT v
  obtain ⟨L0, L1, L2⟩ := h.load rl hrl k hk
  have Lm : MemLp (fun ω => l * (e ω).rload t c k) 2 μ := L0.const_mul l
  refine ⟨(A1.add V1).add Lm, ?_, ?_⟩
  · have i1 : Integrable (fun ω => ∑ j ∈ S, a j * (e ω).dites t c j + ∑ j ∈ T, v j * (e ω).vb t c j) μ :=
      (A1.add V1).integrable one_le_two
    rw [integral_add i1 (Lm.integrable one_le_two),
      integral_add (A1.integrable one_le_two) (V1.integrable one_le_two), scatter_mean h.curr hS, scatter_mean h.volt hT,
      integral_const_mul, L1]
    ring
  · have c1 : ∫ ω, (∑ j ∈ S, a j * (e ω).dites t c j) * (∑ j ∈ T, v j * (e ω).vb t c j) ∂μ = 0 := by
      simp only [Finset.sum_mul_sum]
      have hi : ∀ j ∈ S, ∀ i ∈ T, Integrable (fun ω => a j * (e ω).dites t c j * (v i * (e ω).vb t c i)) μ := fun j hj i hi =>
        ((h.curr.sq_int j (hS j hj)).const_mul _).integrable_mul ((h.volt.sq_int i (hT i hi)).const_mul _)
      rw [integral_finsetSum _ fun j hj => integrable_finsetSum _ fun i hi' => hi j hj i hi']
      refine Finset.sum_eq_zero fun j hj => ?_
      rw [integral_finsetSum _ fun i hi' => hi j hj i hi']
      refine Finset.sum_eq_zero fun i hi' => ?_
      have : ∀ ω, a j * (e ω).dites t c j * (v i * (e ω).vb t c i) = (a j * v i) * ((e ω).dites t c j * (e ω).vb t c i) := fun ω => by ring
      simp only [this]
      rw [integral_const_mul, h.curr_volt j (hS j hj) i (hT i hi'), mul_zero]
    have c2 : ∫ ω, (∑ j ∈ S, a j * (e ω).dites t c j) * (l * (e ω).rload t c k) ∂μ = 0 := by
      simp only [Finset.sum_mul]
      have hi : ∀ j ∈ S, Integrable (fun ω => a j * (e ω).dites t c j * (l * (e ω).rload t c k)) μ := fun j hj =>
        ((h.curr.sq_int j (hS j hj)).const_mul _).integrable_mul Lm
      rw [integral_finsetSum _ hi]
      refine Finset.sum_eq_zero fun j hj => ?_
      have : ∀ ω, a j * (e ω).dites t c j * (l * (e ω).rload t c k) = (a j * l) * ((e ω).dites t c j * (e ω).rload t c k) := fun ω => by ring
      simp only [this]
      rw [integral_const_mul, h.curr_load j (hS j hj) k hk, mul_zero]
    have c3 : ∫ ω, (∑ j ∈ T, v j * (e ω).vb t c j) * (l * (e ω).rload t c k) ∂μ = 0 := by
      simp only [Finset.sum_mul]
      have hi : ∀ j ∈ T, Integrable (fun ω => v j * (e ω).vb t c j * (l * (e ω).rload t c k)) μ := fun j hj =>
        ((h.volt.sq_int j (hT j hj)).const_mul _).integrable_mul Lm
      rw [integral_finsetSum _ hi]
      refine Finset.sum_eq_zero fun j hj => ?_
      have : ∀ ω, v j * (e ω).vb t c j * (l * (e ω).rload t c k) = (v j * l) * ((e ω).vb t c j * (e ω).rload t c k) := fun ω => by ring
      simp only [this]
      rw [integral_const_mul, h.volt_load j (hT j hj) k hk, mul_zero]
    have key : ∀ X Y Z : Ω → ℝ, MemLp X 2 μ → MemLp Y 2 μ → MemLp Z 2 μ → ∫ ω, X ω * Y ω ∂μ = 0 → ∫ ω, X ω * Z ω ∂μ = 0 →
        ∫ ω, Y ω * Z ω ∂μ = 0 → ∫ ω, (X ω + Y ω + Z ω) ^ 2 ∂μ = ∫ ω, X ω ^ 2 ∂μ + ∫ ω, Y ω ^ 2 ∂μ + ∫ ω, Z ω ^ 2 ∂μ := by
      intro X Y Z hX hY hZ h1 h2 h3
      have e1 : ∀ ω, (X ω + Y ω + Z ω) ^ 2 = (X ω ^ 2 + Y ω ^ 2 + Z ω ^ 2) + (2 * (X ω * Y ω) + 2 * (X ω * Z ω) + 2 * (Y ω * Z ω)) := fun ω => by ring
      have ixy : Integrable (fun ω => 2 * (X ω * Y ω)) μ := (hX.integrable_mul hY).const_mul 2
      have ixz : Integrable (fun ω => 2 * (X ω * Z ω)) μ := (hX.integrable_mul hZ).const_mul 2
      have iyz : Integrable (fun ω => 2 * (Y ω * Z ω)) μ := (hY.integrable_mul hZ).const_mul 2
      have j1 : Integrable (fun ω => X ω ^ 2 + Y ω ^ 2) μ := hX.integrable_sq.add hY.integrable_sq
      have j2 : Integrable (fun ω => X ω ^ 2 + Y ω ^ 2 + Z ω ^ 2) μ := j1.add hZ.integrable_sq
      have j3 : Integrable (fun ω => 2 * (X ω * Y ω) + 2 * (X ω * Z ω)) μ := ixy.add ixz
      have j4 : Integrable (fun ω => 2 * (X ω * Y ω) + 2 * (X ω * Z ω) + 2 * (Y ω * Z ω)) μ := j3.add iyz
      simp only [e1]
      rw [integral_add j2 j4, integral_add j1 hZ.integrable_sq, integral_add hX.integrable_sq hY.integrable_sq,
        integral_add j3 iyz, integral_add ixy ixz, integral_const_mul, integral_const_mul, integral_const_mul, h1, h2, h3]
      ring
    rw [key _ _ _ A1 V1 Lm c1 c2 c3, A2, V2]
    simp only [mul_pow]
    rw [integral_const_mul, L2]

/-- The error of a point outside the normal points and of the fitted line. -/
theorem point_sum [IsFiniteMeasure μ] {o : Obj} {t c : ℕ} {e : Ω → Errs} (h : Stated μ o t c e) {rl : A3 ValErr} (hrl : o.rload = some rl)
    {J : Finset ℕ} (hJ : ∀ j ∈ J, j < o.data.n2) {k : ℕ} (hk : k < o.data.n2) (hkJ : k ∉ J) (W : ℕ → ℝ) (R α β γ : ℝ) :
    MemLp (fun ω => α * ((e ω).dites t c k - ∑ j ∈ J, W j * ((e ω).dites t c j - (e ω).vb t c j / R)) +
      β * (e ω).vb t c k + γ * (e ω).rload t c k) 2 μ ∧
    ∫ ω, (α * ((e ω).dites t c k - ∑ j ∈ J, W j * ((e ω).dites t c j - (e ω).vb t c j / R)) +
      β * (e ω).vb t c k + γ * (e ω).rload t c k) ∂μ = 0 ∧
    ∫ ω, (α * ((e ω).dites t c k - ∑ j ∈ J, W j * ((e ω).dites t c j - (e ω).vb t c j / R)) +
      β * (e ω).vb t c k + γ * (e ω).rload t c k) ^ 2 ∂μ =
      (α ^ 2 * (o.errs t c k ^ 2 + ∑ j ∈ J, (W j * o.errs t c j) ^ 2) + β ^ 2 * o.voltErrs t c k ^ 2 + γ ^ 2 * (rl.get t c k).err ^ 2) +
        α ^ 2 * ∑ j ∈ J, (W j / R * o.voltErrs t c j) ^ 2 := by
  have hS : ∀ j ∈ insert k J, j < o.data.n2 := fun j hj => by
    rcases Finset.mem_insert.1 hj with rfl | hj
    · exact hk
    · exact hJ j hj
  have split1 : ∀ (P : ℝ) (q f : ℕ → ℝ), ∑ j ∈ insert k J, (if j = k then P else q j) * f j = P * f k + ∑ j ∈ J, q j * f j := by
    intro P q f
    rw [Finset.sum_insert hkJ, if_pos rfl]
    congr 1
    exact Finset.sum_congr rfl fun j hj => by rw [if_neg (show ¬ j = k from fun e => hkJ (e ▸ hj))]
  have split2 : ∀ (P : ℝ) (q f : ℕ → ℝ), ∑ j ∈ insert k J, ((if j = k then P else q j) * f j) ^ 2 = (P * f k) ^ 2 + ∑ j ∈ J, (q j * f j) ^ 2 := by
    intro P q f
    rw [Finset.sum_insert hkJ, if_pos rfl]
    congr 1
    exact Finset.sum_congr rfl fun j hj => by rw [if_neg (show ¬ j = k from fun e => hkJ (e ▸ hj))]
  obtain ⟨m1, m2, m3⟩ := stated_sum h hrl (fun j => if j = k then α else -(α * W j)) (fun j => if j = k then β else α * (W j / R)) γ hk hS hS
  have e1 : ∀ ω, ∑ j ∈ insert k J, (if j = k then α else -(α * W j)) * (e ω).dites t c j +
      ∑ j ∈ insert k J, (if j = k then β else α * (W j / R)) * (e ω).vb t c j + γ * (e ω).rload t c k =
      α * ((e ω).dites t c k - ∑ j ∈ J, W j * ((e ω).dites t c j - (e ω).vb t c j / R)) + β * (e ω).vb t c k + γ * (e ω).rload t c k := by
    intro ω
    rw [split1, split1]
    have : ∑ j ∈ J, W j * ((e ω).dites t c j - (e ω).vb t c j / R) =
        ∑ j ∈ J, W j * (e ω).dites t c j - ∑ j ∈ J, W j / R * (e ω).vb t c j := by
      rw [← Finset.sum_sub_distrib]
      exact Finset.sum_congr rfl fun j _ => by ring
    rw [this]
    simp only [neg_mul, mul_assoc, Finset.sum_neg_distrib, ← Finset.mul_sum]
    ring
  simp only [e1] at m1 m2 m3
  refine ⟨m1, m2, m3.trans ?_⟩
  rw [split2, split2]
  simp only [neg_mul, mul_assoc, neg_sq, mul_pow, ← Finset.mul_sum]
  ring

/-- The error of the fitted line alone. -/
theorem line_sum [IsFiniteMeasure μ] {o : Obj} {t c : ℕ} {e : Ω → Errs} (h : Stated μ o t c e) {rl : A3 ValErr} (hrl : o.rload = some rl)
    {J : Finset ℕ} (hJ : ∀ j ∈ J, j < o.data.n2) {k : ℕ} (hk : k < o.data.n2) (W : ℕ → ℝ) (R α γ : ℝ) :
    MemLp (fun ω => α * (∑ j ∈ J, W j * ((e ω).dites t c j - (e ω).vb t c j / R)) + γ * (e ω).rload t c k) 2 μ ∧
    ∫ ω, (α * (∑ j ∈ J, W j * ((e ω).dites t c j - (e ω).vb t c j / R)) + γ * (e ω).rload t c k) ∂μ = 0 ∧
    ∫ ω, (α * (∑ j ∈ J, W j * ((e ω).dites t c j - (e ω).vb t c j / R)) + γ * (e ω).rload t c k) ^ 2 ∂μ =
      (α ^ 2 * ∑ j ∈ J, (W j * o.errs t c j) ^ 2 + γ ^ 2 * (rl.get t c k).err ^ 2) +
        α ^ 2 * ∑ j ∈ J, (W j / R * o.voltErrs t c j) ^ 2 := by
  obtain ⟨m1, m2, m3⟩ := stated_sum h hrl (fun j => α * W j) (fun j => -(α * (W j / R))) γ hk hJ hJ
  have e1 : ∀ ω, ∑ j ∈ J, α * W j * (e ω).dites t c j + ∑ j ∈ J, -(α * (W j / R)) * (e ω).vb t c j + γ * (e ω).rload t c k =
      α * (∑ j ∈ J, W j * ((e ω).dites t c j - (e ω).vb t c j / R)) + γ * (e ω).rload t c k := by
    intro ω
    rw [← Finset.sum_add_distrib, Finset.mul_sum]
    congr 1
    exact Finset.sum_congr rfl fun j _ => by ring
  simp only [e1] at m1 m2 m3
  refine ⟨m1, m2, m3.trans ?_⟩
  simp only [neg_mul, mul_assoc, neg_sq, mul_pow, ← Finset.mul_sum]
  ring

theorem honest_of {exact : Prop} {q : Ω → ℝ → Option ℝ} {D : Ω → ℝ} {stated v a X : ℝ} (m1 : MemLp D 2 μ) (m2 : ∫ ω, D ω ∂μ = 0)
    (m3 : ∫ ω, D ω ^ 2 ∂μ = v + a ^ 2 * X) (hX : 0 ≤ X) (hx : exact → X = 0) (hv : v = stated ^ 2) (hr : ∀ ω, Rate (q ω) (D ω)) :
    Honest μ exact q stated :=
  ⟨D, a ^ 2 * X, hr, m1, m2, by positivity, fun h => by rw [hx h, mul_zero], by rw [m3, hv]⟩

omit [MeasurableSpace Ω] in
/-- The current offset to first order. -/
theorem ioff_rate {o : Obj} {inds : List ℤ} {t c : ℕ} {b R : ℝ} {res : Result} (h : calcIv o = .ok res) (hi : o.normalinds = some inds)
    (hJ : (inds.map (place o.data.n2)).Nodup) (ht : t < o.data.n0) (hc : c < o.data.n1)
    (hline : ∀ i ∈ inds, ∀ r, o.data.get t c (place o.data.n2 i) = some r → r.dites = r.vb / R + b) {e : Errs} {Rs : ℝ → Result}
    (hRs : ∀ᶠ s in 𝓝 0, calcIv (o.off s e) = .ok (Rs s)) :
    Rate (fun s => some ((Rs s).ioff t c)) (∑ j ∈ (inds.map (place o.data.n2)).toFinset,
      wb (inds.map (place o.data.n2)) (vbs fun k => o.data.get t c k) (ss fun k => o.data.get t c k) j * (e.dites t c j - e.vb t c j / R)) := by
  obtain ⟨-, rl, -, hrl, -⟩ := calcIv_iff.1 h
  obtain ⟨-, -, hσ, hd, -⟩ := off_fit hi hJ ht hc hline hrl (s := 0) (e := e) (res := res) (by rw [off_zero]; exact h)
  simp only [off_zero] at hd
  have hx : ∀ j ∈ inds.map (place o.data.n2), Tendsto (fun s => vbs (fun k => (o.off s e).data.get t c k) j) (𝓝 0)
      (𝓝 (vbs (fun k => o.data.get t c k) j)) := fun j hj => (toward_num ((off_approach o e).data t c j)).1
  have hw := weights_tendsto hJ hx hσ hd fun j => e.dites t c j - e.vb t c j / R
  refine ⟨fun s => b + s * ∑ j ∈ (inds.map (place o.data.n2)).toFinset,
        wb (inds.map (place o.data.n2)) (vbs fun k => (o.off s e).data.get t c k) (ss fun k => o.data.get t c k) j *
        (e.dites t c j - e.vb t c j / R), hRs.mono fun s hs => ?_, ?_⟩
  · simp only [(off_fit hi hJ ht hc hline hrl hs).2.2.2.2.2.1]
  · have := deriv_lin (b := b) (g := fun s => ∑ j ∈ (inds.map (place o.data.n2)).toFinset,
        wb (inds.map (place o.data.n2)) (vbs fun k => (o.off s e).data.get t c k) (ss fun k => o.data.get t c k) j *
        (e.dites t c j - e.vb t c j / R)) (by simp only [off_zero]; exact hw.1)
    simpa only [off_zero] using this

end Verif.Iv
