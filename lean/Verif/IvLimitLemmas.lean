import Verif.IvLimitSpec
import Verif.LineLimitLemmas
import Mathlib.Probability.StrongLaw

/-! Lemmas for property C148: the IV curve of scattered readings. -/

namespace Verif.Iv
open Verif LineFit MeasureTheory ProbabilityTheory Filter Topology

/-! ### Success -/

/-- The numbers of the readings; missing ones count as zero. -/
def vbs (g : ℕ → Option Reading) (j : ℕ) : ℝ := (g j).elim 0 Reading.vb
def ys (g : ℕ → Option Reading) (j : ℕ) : ℝ := (g j).elim 0 Reading.dites
def ss (g : ℕ → Option Reading) (j : ℕ) : ℝ := (g j).elim 0 Reading.ditesErr

theorem pts_mk {g : ℕ → Option Reading} {J : List ℕ} (h : ∀ j ∈ J, (g j).isSome) :
    J.map (fun j => pt (g j)) = (J.map (point (vbs g) (ys g) (ss g))).map some := by
  rw [List.map_map]
  refine List.map_congr_left fun j hj => ?_
  obtain ⟨r, hr⟩ := Option.isSome_iff_exists.1 (h j hj)
  simp [pt, hr, point, vbs, ys, ss]

/-- What `rowFit` makes of a fit. -/
noncomputable def rowOf (f : Fit) : RowFit :=
  ⟨f.b, Real.sqrt f.cbb, 1 / f.m, Real.sqrt ((-1 / f.m ^ 2) * (f.cmm * (-1 / f.m ^ 2)))⟩

theorem rowFit_iff {n : ℕ} {g : ℕ → Option Reading} {inds : List ℤ} {r : RowFit} :
    rowFit ((List.range n).map g) (some inds) = .ok r ↔ (∀ i ∈ inds, -(n : ℤ) ≤ i ∧ i < n) ∧
      (∀ j ∈ inds.map (place n), (g j).isSome) ∧
      ∃ f, curveFit (((inds.map (place n)).map (point (vbs g) (ys g) (ss g))).map some) = .ok f ∧ f.m ≠ 0 ∧ r = rowOf f := by
  unfold rowFit
  have hpts : ((List.range n).map g).map pt = (List.range n).map (pt ∘ g) := List.map_map
  simp only [hpts]
  have hsel : ∀ l, fancy ((List.range n).map (pt ∘ g)) inds = .ok l ↔
      (∀ i ∈ inds, -(n : ℤ) ≤ i ∧ i < n) ∧ l = (inds.map (place n)).map fun j => pt (g j) := fun l => by
    rw [fancy_place, List.map_map]
    rfl
  constructor
  · intro h
    cases hs : fancy ((List.range n).map (pt ∘ g)) inds with
    | error e => rw [hs] at h; cases h
    | ok l =>
      rw [hs] at h
      simp only at h
      obtain ⟨h1, rfl⟩ := (hsel l).1 hs
      cases hf : curveFit ((inds.map (place n)).map fun j => pt (g j)) with
      | error e => rw [hf] at h; cases h
      | ok f =>
        rw [hf] at h
        simp only at h
        obtain ⟨l', e, -⟩ := curveFit_ok hf
        have hsome : ∀ j ∈ inds.map (place n), (g j).isSome := by
          intro j hj
          have : pt (g j) ∈ l'.map some := e ▸ List.mem_map_of_mem (f := fun j => pt (g j)) hj
          obtain ⟨p, -, hp⟩ := List.mem_map.1 this
          unfold pt at hp
          cases hg : g j with
          | none => rw [hg] at hp; cases hp
          | some r => rfl
        rw [pts_mk hsome] at hf
        refine ⟨h1, hsome, f, hf, ?_⟩
        by_cases hm : f.m = 0
        · rw [if_pos hm] at h; cases h
        · rw [if_neg hm] at h
          cases h
          exact ⟨hm, rfl⟩
  · rintro ⟨h1, h2, f, hf, hm, rfl⟩
    rw [(hsel _).2 ⟨h1, rfl⟩]
    simp only
    rw [pts_mk h2, hf]
    simp only [if_neg hm]
    rfl

/-- The record `calc_iv` stores for given fits. -/
noncomputable def assemble (o : Obj) (fit : ℕ → ℕ → RowFit) (rl : A3 ValErr) : Result :=
  let rload : ℕ → ℕ → ℕ → ℝ := fun t c i => (rl.get t c i).val
  let rloadErr : ℕ → ℕ → ℕ → ℝ := fun t c i => (rl.get t c i).err
  let ites : ℕ → ℕ → Reading → ℝ := fun t c r => r.dites - (fit t c).ioff
  let itesErr : ℕ → ℕ → Reading → ℝ := fun t c r =>
    Real.sqrt (r.ditesErr ^ 2 + (fit t c).ioffErr ^ 2)
  let r0 : ℕ → ℕ → ℕ → Reading → Option ℝ := fun t c i r =>
    if ites t c r = 0 then none else some (r.vb / ites t c r - rload t c i)
  { ioff := fun t c => (fit t c).ioff
    ioffErr := fun t c => (fit t c).ioffErr
    rfit := fun t c => (fit t c).rfit
    rfitErr := fun t c => (fit t c).rfit
    rnorm := fun t c => (fit t c).rfit - rload t c 0
    rnormErr := fun t c => Real.sqrt ((fit t c).rfitErr ^ 2 + rloadErr t c 0 ^ 2)
    ites := fun t c i => (o.data.get t c i).map fun r => ites t c r
    itesErr := fun t c i => (o.data.get t c i).map fun r => itesErr t c r
    r0 := fun t c i => (o.data.get t c i).bind fun r => r0 t c i r
    r0Err := fun t c i => (o.data.get t c i).bind fun r =>
      if ites t c r = 0 then none
      else some (Real.sqrt ((1 / ites t c r) ^ 2 * r.vbErr ^ 2 +
        (r.vb / ites t c r ^ 2) ^ 2 * itesErr t c r ^ 2 + rloadErr t c i ^ 2))
    ptes := fun t c i => (o.data.get t c i).bind fun r =>
      (r0 t c i r).map fun x => ites t c r ^ 2 * x
    ptesErr := fun t c i => (o.data.get t c i).map fun r =>
      Real.sqrt ((r.vb - 2 * ites t c r * rload t c i) ^ 2 * itesErr t c r ^ 2 +
        ites t c r ^ 2 * r.vbErr ^ 2 + (ites t c r ^ 2) ^ 2 * rloadErr t c i ^ 2) }

/-- The fit of a row among all fits. -/
noncomputable def pick (fits : List (List RowFit)) (t c : ℕ) : RowFit := (fits.getD t []).getD c ⟨0, 0, 0, 0⟩

theorem calcIv_iff {o : Obj} {res : Result} : calcIv o = .ok res ↔
    ∃ fits rl, o.fits = .ok fits ∧ o.rload = some rl ∧ o.data.n2 ≠ 0 ∧ res = assemble o (pick fits) rl := by
  constructor
  · intro h
    unfold calcIv at h
    cases hf : o.fits with
    | error e => rw [hf] at h; cases h
    | ok fits =>
      rw [hf] at h
      simp only at h
      cases hr : o.rload with
      | none => rw [hr] at h; cases h
      | some rl =>
        rw [hr] at h
        simp only at h
        by_cases h0 : o.data.n2 = 0
        · rw [if_pos h0] at h; cases h
        · rw [if_neg h0] at h
          cases h
          exact ⟨fits, rl, rfl, rfl, h0, rfl⟩
  · rintro ⟨fits, rl, h1, h2, h3, rfl⟩
    unfold calcIv
    rw [h1, h2]
    simp only [if_neg h3]
    rfl

theorem pick_map {n0 n1 : ℕ} (R : ℕ → ℕ → RowFit) {t c : ℕ} (ht : t < n0) (hc : c < n1) :
    pick ((List.range n0).map fun t => (List.range n1).map (R t)) t c = R t c := by
  unfold pick
  simp [List.getD_eq_getElem?_getD, ht, hc]

/-! ### Continuity -/

variable {ι : Type*} {L : Filter ι}

theorem toward_some {u : ι → Option Reading} {v : Option Reading} (h : Toward L u v) (i : ι) :
    (u i).isSome = v.isSome := by
  unfold Toward at h
  cases v with
  | none => simp only at h; rw [h i]
  | some r =>
    obtain ⟨s, hs, -⟩ := h
    rw [hs i]
    rfl

theorem toward_num {u : ι → Option Reading} {v : Option Reading} (h : Toward L u v) :
    Tendsto (fun i => (u i).elim 0 Reading.vb) L (𝓝 (v.elim 0 Reading.vb)) ∧
    Tendsto (fun i => (u i).elim 0 Reading.dites) L (𝓝 (v.elim 0 Reading.dites)) ∧
    Tendsto (fun i => (u i).elim 0 Reading.ditesErr) L (𝓝 (v.elim 0 Reading.ditesErr)) := by
  unfold Toward at h
  cases v with
  | none =>
    simp only at h
    simp only [h]
    exact ⟨tendsto_const_nhds, tendsto_const_nhds, tendsto_const_nhds⟩
  | some r =>
    obtain ⟨s, hs, h1, h2, h3, h4⟩ := h
    simp only [hs]
    exact ⟨h1, h3, h4⟩

theorem row_tendsto {n : ℕ} {G : ι → ℕ → Option Reading} {g : ℕ → Option Reading} {inds : List ℤ} {r : RowFit}
    (hG : ∀ j, Toward L (fun i => G i j) (g j)) (h : rowFit ((List.range n).map g) (some inds) = .ok r) :
    ∃ R : ι → RowFit, (∀ᶠ i in L, rowFit ((List.range n).map (G i)) (some inds) = .ok (R i)) ∧
      Tendsto (fun i => (R i).ioff) L (𝓝 r.ioff) ∧ Tendsto (fun i => (R i).ioffErr) L (𝓝 r.ioffErr) ∧
      Tendsto (fun i => (R i).rfit) L (𝓝 r.rfit) ∧ Tendsto (fun i => (R i).rfitErr) L (𝓝 r.rfitErr) := by
  obtain ⟨h1, h2, f, hf, hm, rfl⟩ := rowFit_iff.1 h
  obtain ⟨F, hF, tb, tm, tbb, tmm⟩ := fit_tendsto (L := L) (x := fun i => vbs (G i)) (y := fun i => ys (G i))
    (σ := fun i => ss (G i)) (fun j _ => (toward_num (hG j)).1) (fun j _ => (toward_num (hG j)).2.1)
    (fun j _ => (toward_num (hG j)).2.2) hf
  refine ⟨fun i => rowOf (F i), ?_, tb, tbb.sqrt, ?_, ?_⟩
  · filter_upwards [hF, tm.eventually_ne hm] with i hi hi'
    refine rowFit_iff.2 ⟨h1, fun j hj => ?_, F i, hi, hi', rfl⟩
    rw [toward_some (hG j) i]
    exact h2 j hj
  · exact tendsto_const_nhds.div tm hm
  · refine Tendsto.sqrt ?_
    have : Tendsto (fun i => -1 / (F i).m ^ 2) L (𝓝 (-1 / f.m ^ 2)) := tendsto_const_nhds.div (tm.pow 2) (pow_ne_zero 2 hm)
    exact this.mul (tmm.mul this)

theorem gets_map {u : ι → Option Reading} {v : Option Reading} {φ : ι → Reading → ℝ} {ψ : Reading → ℝ} (h : Toward L u v)
    (hφ : ∀ r (s : ι → Reading), Tendsto (fun i => (s i).vb) L (𝓝 r.vb) → Tendsto (fun i => (s i).vbErr) L (𝓝 r.vbErr) →
      Tendsto (fun i => (s i).dites) L (𝓝 r.dites) → Tendsto (fun i => (s i).ditesErr) L (𝓝 r.ditesErr) →
      Tendsto (fun i => φ i (s i)) L (𝓝 (ψ r))) :
    Gets L (fun i => (u i).map (φ i)) (v.map ψ) := by
  intro x hx
  cases v with
  | none => cases hx
  | some r =>
    cases hx
    obtain ⟨s, hs, h1, h2, h3, h4⟩ := h
    exact ⟨fun i => φ i (s i), Eventually.of_forall fun i => by simp [hs i], hφ r s h1 h2 h3 h4⟩

theorem gets_bind {u : ι → Option Reading} {v : Option Reading} {φ : ι → Reading → Option ℝ} {ψ : Reading → Option ℝ}
    (h : Toward L u v)
    (hφ : ∀ r (s : ι → Reading), Tendsto (fun i => (s i).vb) L (𝓝 r.vb) → Tendsto (fun i => (s i).vbErr) L (𝓝 r.vbErr) →
      Tendsto (fun i => (s i).dites) L (𝓝 r.dites) → Tendsto (fun i => (s i).ditesErr) L (𝓝 r.ditesErr) →
      Gets L (fun i => φ i (s i)) (ψ r)) :
    Gets L (fun i => (u i).bind (φ i)) (v.bind ψ) := by
  intro x hx
  cases v with
  | none => cases hx
  | some r =>
    obtain ⟨s, hs, h1, h2, h3, h4⟩ := h
    obtain ⟨z, hz, hz'⟩ := hφ r s h1 h2 h3 h4 x hx
    refine ⟨z, ?_, hz'⟩
    filter_upwards [hz] with i hi
    rw [hs i]
    exact hi

theorem gets_ite {a : ι → ℝ} {a0 : ℝ} {f : ι → ℝ} {f0 : ℝ} (ha : Tendsto a L (𝓝 a0)) (hf : a0 ≠ 0 → Tendsto f L (𝓝 f0)) :
    Gets L (fun i => if a i = 0 then none else some (f i)) (if a0 = 0 then none else some f0) := by
  intro x hx
  by_cases h : a0 = 0
  · rw [if_pos h] at hx; cases hx
  · rw [if_neg h] at hx
    cases hx
    refine ⟨f, ?_, hf h⟩
    filter_upwards [ha.eventually_ne h] with i hi
    rw [if_neg hi]

theorem calcIv_settles {O : ι → Obj} {o : Obj} (hO : Approach L O o) {inds : List ℤ} (hi : o.normalinds = some inds)
    {res : Result} (h : calcIv o = .ok res) :
    ∃ R : ι → Result, (∀ᶠ i in L, calcIv (O i) = .ok (R i)) ∧ Settles L o R res := by
  obtain ⟨fits, rl, hf, hrl, hn2, rfl⟩ := calcIv_iff.1 h
  obtain ⟨RL, hRL, hRt⟩ := hO.rload rl hrl
  have hrow : ∀ t c, ∃ R : ι → RowFit, t < o.data.n0 → c < o.data.n1 →
      (∀ᶠ i in L, rowFit ((O i).row t c) (O i).normalinds = .ok (R i)) ∧
      Tendsto (fun i => (R i).ioff) L (𝓝 (pick fits t c).ioff) ∧ Tendsto (fun i => (R i).ioffErr) L (𝓝 (pick fits t c).ioffErr) ∧
      Tendsto (fun i => (R i).rfit) L (𝓝 (pick fits t c).rfit) ∧ Tendsto (fun i => (R i).rfitErr) L (𝓝 (pick fits t c).rfitErr) := by
    intro t c
    by_cases ht : t < o.data.n0
    · by_cases hc : c < o.data.n1
      · have h1 := fits_row hf ht hc
        rw [hi] at h1
        obtain ⟨R, hR, h2⟩ := row_tendsto (L := L) (G := fun i k => (O i).data.get t c k) (fun k => hO.data t c k) h1
        refine ⟨R, fun _ _ => ⟨?_, h2⟩⟩
        filter_upwards [hR] with i hi'
        rw [hO.inds i, hi]
        unfold Obj.row
        rw [(hO.shape i).2.2]
        exact hi'
      · exact ⟨fun _ => ⟨0, 0, 0, 0⟩, fun _ h => absurd h hc⟩
    · exact ⟨fun _ => ⟨0, 0, 0, 0⟩, fun h => absurd h ht⟩
  choose R hR using hrow
  have hall : ∀ᶠ i in L, ∀ t ∈ Set.Iio o.data.n0, ∀ c ∈ Set.Iio o.data.n1, rowFit ((O i).row t c) (O i).normalinds = .ok (R t c i) :=
    (Set.finite_Iio _).eventually_all.2 fun t ht => (Set.finite_Iio _).eventually_all.2 fun c hc => (hR t c ht hc).1
  let fitsN : ι → List (List RowFit) := fun i =>
    (List.range o.data.n0).map fun t => (List.range o.data.n1).map fun c => R t c i
  have hpick : ∀ i, ∀ t < o.data.n0, ∀ c < o.data.n1, pick (fitsN i) t c = R t c i := fun i t ht c hc =>
    pick_map (fun t c => R t c i) ht hc
  refine ⟨fun i => assemble (O i) (pick (fitsN i)) (RL i), ?_, ⟨fun t ht c hc => ?_, fun t ht c hc k _ => ?_⟩⟩
  · filter_upwards [hall] with i hi'
    refine calcIv_iff.2 ⟨fitsN i, RL i, ?_, hRL i, by rw [(hO.shape i).2.2]; exact hn2, rfl⟩
    unfold Obj.fits
    rw [(hO.shape i).1, (hO.shape i).2.1]
    exact mapM_all fun t ht => mapM_all fun c hc => hi' t ht c hc
  · obtain ⟨-, t1, t2, t3, t4⟩ := hR t c ht hc
    have e := fun i => hpick i t ht c hc
    simp only [assemble, e]
    exact ⟨t1, t2, t3, t3, t3.sub (hRt t c 0).1, ((t4.pow 2).add ((hRt t c 0).2.pow 2)).sqrt⟩
  · obtain ⟨-, t1, t2, t3, t4⟩ := hR t c ht hc
    have e := fun i => hpick i t ht c hc
    simp only [assemble, e]
    obtain ⟨l1, l2⟩ := hRt t c k
    have hd := hO.data t c k
    refine ⟨gets_map hd fun r s a1 a2 a3 a4 => a3.sub t1, gets_map hd fun r s a1 a2 a3 a4 => ((a4.pow 2).add (t2.pow 2)).sqrt,
      gets_bind hd fun r s a1 a2 a3 a4 => ?_, gets_bind hd fun r s a1 a2 a3 a4 => ?_, gets_bind hd fun r s a1 a2 a3 a4 => ?_,
      gets_map hd fun r s a1 a2 a3 a4 => ?_⟩
    · have ti := a3.sub t1
      exact gets_ite ti fun h0 => (a1.div ti h0).sub l1
    · have ti := a3.sub t1
      refine gets_ite ti fun h0 => Tendsto.sqrt ?_
      have te : Tendsto (fun i => Real.sqrt ((s i).ditesErr ^ 2 + (R t c i).ioffErr ^ 2)) L
        (𝓝 (Real.sqrt (r.ditesErr ^ 2 + (pick fits t c).ioffErr ^ 2))) := ((a4.pow 2).add (t2.pow 2)).sqrt
      exact (((((tendsto_const_nhds.div ti h0).pow 2).mul (a2.pow 2))).add
        (((a1.div (ti.pow 2) (pow_ne_zero 2 h0)).pow 2).mul (te.pow 2))).add (l2.pow 2)
    · have ti := a3.sub t1
      have key := gets_ite (f := fun i => ((s i).dites - (R t c i).ioff) ^ 2 * ((s i).vb / ((s i).dites - (R t c i).ioff) - ((RL i).get t c k).val))
        (f0 := (r.dites - (pick fits t c).ioff) ^ 2 * (r.vb / (r.dites - (pick fits t c).ioff) - (rl.get t c k).val)) ti
        fun h0 => (ti.pow 2).mul ((a1.div ti h0).sub l1)
      have em : ∀ (p : Prop) [Decidable p] (a b : ℝ), Option.map (fun x => b * x) (if p then none else some a) =
          if p then none else some (b * a) := fun p _ a b => by split_ifs <;> rfl
      simp only [em]
      exact key
    · have ti := a3.sub t1
      have te : Tendsto (fun i => Real.sqrt ((s i).ditesErr ^ 2 + (R t c i).ioffErr ^ 2)) L
        (𝓝 (Real.sqrt (r.ditesErr ^ 2 + (pick fits t c).ioffErr ^ 2))) := ((a4.pow 2).add (t2.pow 2)).sqrt
      exact ((((((a1.sub ((tendsto_const_nhds.mul ti).mul l1)).pow 2).mul (te.pow 2))).add ((ti.pow 2).mul (a2.pow 2))).add
        (((ti.pow 2).pow 2).mul (l2.pow 2))).sqrt

/-! ### Averages -/

variable {Ω : Type*} [MeasurableSpace Ω] {μ : Measure Ω}

theorem repeats_average [IsFiniteMeasure μ] {w : ℕ → Ω → ℝ} (h : Repeats μ w) :
    ∀ᵐ ω ∂μ, Tendsto (fun m : ℕ => (∑ i ∈ Finset.range m, w i ω) / m) atTop (𝓝 0) := by
  have := strong_law_ae_real w h.int h.independent h.alike
  rw [h.mean] at this
  exact this

theorem noisy_approach {o : Obj} {v : ι → ℕ → ℕ → ℕ → ℝ} (h : ∀ t c k, Tendsto (fun i => v i t c k) L (𝓝 0)) :
    Approach L (fun i => o.noisy (v i)) o := by
  refine ⟨fun i => ⟨rfl, rfl, rfl⟩, fun i => rfl, fun t c k => ?_, fun rl hrl => ⟨fun _ => rl, fun i => hrl, fun t c k =>
    ⟨tendsto_const_nhds, tendsto_const_nhds⟩⟩⟩
  unfold Toward
  cases hd : o.data.get t c k with
  | none => exact fun i => by simp [Obj.noisy, hd]
  | some r =>
    refine ⟨fun i => { r with dites := r.dites + v i t c k }, fun i => by simp [Obj.noisy, hd], tendsto_const_nhds,
      tendsto_const_nhds, ?_, tendsto_const_nhds⟩
    simpa using tendsto_const_nhds.add (h t c k)

/-! ### Statistics -/

theorem noisy_nums (o : Obj) (w : ℕ → ℕ → ℕ → ℝ) (t c : ℕ) :
    vbs (fun k => (o.noisy w).data.get t c k) = vbs (fun k => o.data.get t c k) ∧
    ss (fun k => (o.noisy w).data.get t c k) = ss (fun k => o.data.get t c k) ∧
    ∀ j, (o.data.get t c j).isSome → ys (fun k => (o.noisy w).data.get t c k) j = ys (fun k => o.data.get t c k) j + w t c j := by
  refine ⟨funext fun j => ?_, funext fun j => ?_, fun j hj => ?_⟩
  · simp only [vbs, Obj.noisy]
    cases o.data.get t c j <;> rfl
  · simp only [ss, Obj.noisy]
    cases o.data.get t c j <;> rfl
  · unfold ys Obj.noisy
    obtain ⟨r, hr⟩ := Option.isSome_iff_exists.1 hj
    simp [hr]

/-- The fit of the readings with errors, in terms of the weights. -/
theorem noisy_fit {o : Obj} {inds : List ℤ} (hi : o.normalinds = some inds)
    (hJ : (inds.map (place o.data.n2)).Nodup) {t c : ℕ} (ht : t < o.data.n0) (hc : c < o.data.n1) {b R : ℝ}
    (hline : ∀ i ∈ inds, ∀ r, o.data.get t c (place o.data.n2 i) = some r → r.dites = r.vb / R + b)
    {w : ℕ → ℕ → ℕ → ℝ} {res : Result} (h : calcIv (o.noisy w) = .ok res) :
    let J := inds.map (place o.data.n2)
    let x := vbs fun k => o.data.get t c k
    let σ := ss fun k => o.data.get t c k
    (∀ j ∈ J, j < o.data.n2) ∧ (∀ j ∈ J, σ j ≠ 0) ∧ det (J.map (point x 0 σ)) ≠ 0 ∧
    res.ioff t c = b + ∑ j ∈ J.toFinset, wb J x σ j * w t c j ∧
    res.ioffErr t c = Real.sqrt (solve (J.map (point x 0 σ))).cbb ∧
    1 / res.rfit t c = 1 / R + ∑ j ∈ J.toFinset, wm J x σ j * w t c j ∧ res.rfit t c ≠ 0 ∧
    (∃ rl, o.rload = some rl ∧ res.rnorm t c = res.rfit t c - (rl.get t c 0).val ∧
      res.rnormErr t c = Real.sqrt (res.rfit t c ^ 4 * (solve (J.map (point x 0 σ))).cmm + (rl.get t c 0).err ^ 2)) ∧
    (∀ k r, o.data.get t c k = some r → res.ites t c k = some (r.dites + w t c k - res.ioff t c) ∧
      res.itesErr t c k = some (Real.sqrt (r.ditesErr ^ 2 + res.ioffErr t c ^ 2))) := by
  intro J x σ
  obtain ⟨fits, rl, hf, hrl, -, rfl⟩ := calcIv_iff.1 h
  have h1 := fits_row hf (t := t) (c := c) ht hc
  have h1' : rowFit ((List.range o.data.n2).map fun k => (o.noisy w).data.get t c k) (some inds) = .ok (pick fits t c) := by
    rw [← hi]
    exact h1
  obtain ⟨hr, hs, f, hf', hm, hp⟩ := rowFit_iff.1 h1'
  obtain ⟨e1, e2, e3⟩ := noisy_nums o w t c
  rw [e1, e2] at hf'
  have hs' : ∀ j ∈ J, (o.data.get t c j).isSome := fun j hj => by
    have := hs j hj
    simpa [Obj.noisy] using this
  obtain ⟨g1, g2, g3, rfl⟩ := curveFit_points.1 hf'
  have hσ : ∀ j ∈ J, σ j ≠ 0 := fun j hj => g2 (point x _ σ j) (List.mem_map_of_mem hj)
  have hd : det (J.map (point x 0 σ)) ≠ 0 := by
    rw [det_y J x 0 (ys fun k => (o.noisy w).data.get t c k)]
    exact g3
  have hy : ∀ j ∈ J, ys (fun k => (o.noisy w).data.get t c k) j = (1 / R * x j + b) + w t c j := by
    intro j hj
    rw [e3 j (hs' j hj)]
    obtain ⟨i, hi', rfl⟩ := List.mem_map.1 hj
    obtain ⟨r, hr'⟩ := Option.isSome_iff_exists.1 (hs' _ hj)
    have := hline i hi' r hr'
    simp only [ys, x, vbs, hr', Option.elim]
    rw [this]
    ring
  obtain ⟨u1, u2⟩ := weights_unbiased hJ hd b (1 / R)
  obtain ⟨s1, s2⟩ := solve_weights hJ x (ys fun k => (o.noisy w).data.get t c k) σ
  have hb : (solve (J.map (point x (ys fun k => (o.noisy w).data.get t c k) σ))).b = b + ∑ j ∈ J.toFinset, wb J x σ j * w t c j := by
    rw [s1, ← u1, ← Finset.sum_add_distrib]
    refine Finset.sum_congr rfl fun j hj => ?_
    rw [hy j (List.mem_toFinset.1 hj)]
    ring
  have hm' : (solve (J.map (point x (ys fun k => (o.noisy w).data.get t c k) σ))).m = 1 / R + ∑ j ∈ J.toFinset, wm J x σ j * w t c j := by
    rw [s2, ← u2, ← Finset.sum_add_distrib]
    refine Finset.sum_congr rfl fun j hj => ?_
    rw [hy j (List.mem_toFinset.1 hj)]
    ring
  have hcc : (solve (J.map (point x (ys fun k => (o.noisy w).data.get t c k) σ))).cbb = (solve (J.map (point x 0 σ))).cbb ∧
      (solve (J.map (point x (ys fun k => (o.noisy w).data.get t c k) σ))).cmm = (solve (J.map (point x 0 σ))).cmm := by
    unfold solve
    simp only [det_y J x (ys fun k => (o.noisy w).data.get t c k) 0, wsum_map, point]
    exact ⟨trivial, trivial⟩
  refine ⟨fun j hj => ?_, hσ, hd, ?_, ?_, ?_, ?_, ⟨rl, hrl, rfl, ?_⟩, fun k r hk => ?_⟩
  · obtain ⟨i, hi', rfl⟩ := List.mem_map.1 hj
    exact place_lt (hr i hi')
  · simp only [assemble, hp, rowOf]
    exact hb
  · simp only [assemble, hp, rowOf]
    rw [← hcc.1]
  · simp only [assemble, hp, rowOf, one_div_one_div]
    exact hm'
  · simp only [assemble, hp, rowOf]
    exact one_div_ne_zero hm
  · simp only [assemble, hp, rowOf]
    rw [← hcc.2, Real.sq_sqrt]
    · congr 2
      ring
    · have : 0 ≤ (solve (J.map (point x (ys fun k => (o.noisy w).data.get t c k) σ))).cmm := by
        rw [hcc.2, ← (weights_variance hJ hσ hd).2]
        exact Finset.sum_nonneg fun j _ => sq_nonneg _
      have e : ∀ a b : ℝ, -1 / a * (b * (-1 / a)) = (1 / a) ^ 2 * b := fun a b => by ring
      rw [e]
      positivity
  · simp only [assemble]
    have : (o.noisy w).data.get t c k = some { r with dites := r.dites + w t c k } := by simp [Obj.noisy, hk]
    rw [this]
    exact ⟨rfl, rfl⟩

end Verif.Iv
