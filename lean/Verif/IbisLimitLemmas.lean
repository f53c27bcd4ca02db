import Verif.IbisLimitSpec
import Verif.IbisLemmas
import Verif.IvLimitLemmas

/-! Lemmas for property C149. -/

namespace Verif.Ibis
open Verif LineFit MeasureTheory ProbabilityTheory Filter Topology
open Verif.Iv (A3 Nd ValErr fancy mapM_range)

/-! ### Fits -/

def xs (g : ℕ → Option Reading) (j : ℕ) : ℝ := (g j).elim 0 Reading.ibias
def ys (g : ℕ → Option Reading) (j : ℕ) : ℝ := (g j).elim 0 Reading.dites
def ss (g : ℕ → Option Reading) (j : ℕ) : ℝ := (g j).elim 0 Reading.ditesErr

theorem pts_mk {g : ℕ → Option Reading} {J : List ℕ} (h : ∀ j ∈ J, (g j).isSome) :
    J.map (fun j => pt (g j)) = (J.map (point (xs g) (ys g) (ss g))).map some := by
  rw [List.map_map]
  refine List.map_congr_left fun j hj => ?_
  obtain ⟨r, hr⟩ := Option.isSome_iff_exists.1 (h j hj)
  simp [pt, hr, point, xs, ys, ss]

/-- The fit of one row. -/
noncomputable def lineOf (row : List (Option Pt)) (inds : List ℤ) : Except Err Fit :=
  match fancy row inds with
  | .error e => .error e
  | .ok pts =>
    match curveFit pts with
    | .error e => .error e
    | .ok f => if f.m = 0 then .error .nan else .ok f

theorem fits_lineOf (o : Obj) (inds : List ℤ) : o.fits inds = (List.range o.data.n0).mapM fun t =>
    (List.range o.data.n1).mapM fun c => lineOf ((o.row t c).map pt) inds := rfl

theorem lineOf_iff {n : ℕ} {g : ℕ → Option Reading} {inds : List ℤ} {f : Fit} :
    lineOf (((List.range n).map g).map pt) inds = .ok f ↔ (∀ i ∈ inds, -(n : ℤ) ≤ i ∧ i < n) ∧
      (∀ j ∈ inds.map (place n), (g j).isSome) ∧
      curveFit (((inds.map (place n)).map (point (xs g) (ys g) (ss g))).map some) = .ok f ∧ f.m ≠ 0 := by
  unfold lineOf
  have hpts : ((List.range n).map g).map pt = (List.range n).map (pt ∘ g) := List.map_map
  rw [hpts]
  have hsel : ∀ l, fancy ((List.range n).map (pt ∘ g)) inds = .ok l ↔
      (∀ i ∈ inds, -(n : ℤ) ≤ i ∧ i < n) ∧ l = (inds.map (place n)).map fun j => pt (g j) := fun l => by
    rw [fancy_place, List.map_map]
    rfl
  constructor
  · intro h
    cases hs : fancy ((List.range n).map (pt ∘ g)) inds with
    | error e => rw [hs] at h; cases h
    | ok l =>
      rw [hs] at h
      simp only at h
      obtain ⟨h1, rfl⟩ := (hsel l).1 hs
      cases hf : curveFit ((inds.map (place n)).map fun j => pt (g j)) with
      | error e => rw [hf] at h; cases h
      | ok f' =>
        rw [hf] at h
        simp only at h
        obtain ⟨l', e, -⟩ := curveFit_ok hf
        have hsome : ∀ j ∈ inds.map (place n), (g j).isSome := by
          intro j hj
          have : pt (g j) ∈ l'.map some := e ▸ List.mem_map_of_mem (f := fun j => pt (g j)) hj
          obtain ⟨p, -, hp⟩ := List.mem_map.1 this
          unfold pt at hp
          cases hg : g j with
          | none => rw [hg] at hp; cases hp
          | some r => rfl
        rw [pts_mk hsome] at hf
        by_cases hm : f'.m = 0
        · rw [if_pos hm] at h; cases h
        · rw [if_neg hm] at h
          cases h
          exact ⟨h1, hsome, hf, hm⟩
  · rintro ⟨h1, h2, hf, hm⟩
    rw [(hsel _).2 ⟨h1, rfl⟩]
    simp only
    rw [pts_mk h2, hf]
    simp only [if_neg hm]

theorem fits_row {o : Obj} {inds : List ℤ} {l : List (List Fit)} (h : o.fits inds = .ok l) {t c : ℕ}
    (ht : t < o.data.n0) (hc : c < o.data.n1) :
    lineOf (((List.range o.data.n2).map fun k => o.data.get t c k).map pt) inds = .ok (fitAt l t c) := by
  rw [fits_lineOf] at h
  exact mapM_range (d := noFit) (mapM_range (d := []) h ht) hc

theorem fitAt_map {n0 n1 : ℕ} (R : ℕ → ℕ → Fit) {t c : ℕ} (ht : t < n0) (hc : c < n1) :
    fitAt ((List.range n0).map fun t => (List.range n1).map (R t)) t c = R t c := by
  unfold fitAt
  simp [List.getD_eq_getElem?_getD, ht, hc]

/-! ### Continuity -/

variable {ι : Type*} {L : Filter ι}

theorem toward_some {u : ι → Option Reading} {v : Option Reading} (h : Toward L u v) (i : ι) :
    (u i).isSome = v.isSome := by
  unfold Toward at h
  cases v with
  | none => simp only at h; rw [h i]
  | some r =>
    obtain ⟨s, hs, -⟩ := h
    rw [hs i]
    rfl

theorem toward_num {u : ι → Option Reading} {v : Option Reading} (h : Toward L u v) :
    Tendsto (fun i => (u i).elim 0 Reading.ibias) L (𝓝 (v.elim 0 Reading.ibias)) ∧
    Tendsto (fun i => (u i).elim 0 Reading.dites) L (𝓝 (v.elim 0 Reading.dites)) ∧
    Tendsto (fun i => (u i).elim 0 Reading.ditesErr) L (𝓝 (v.elim 0 Reading.ditesErr)) := by
  unfold Toward at h
  cases v with
  | none =>
    simp only at h
    simp only [h]
    exact ⟨tendsto_const_nhds, tendsto_const_nhds, tendsto_const_nhds⟩
  | some r =>
    obtain ⟨s, hs, h1, h2, h3, h4⟩ := h
    simp only [hs]
    exact ⟨h1, h3, h4⟩

/-- A fit which approaches a fit. -/
structure TowardF (L : Filter ι) (u : ι → Fit) (v : Fit) : Prop where
  b : Tendsto (fun i => (u i).b) L (𝓝 v.b)
  m : Tendsto (fun i => (u i).m) L (𝓝 v.m)
  cbb : Tendsto (fun i => (u i).cbb) L (𝓝 v.cbb)
  cmm : Tendsto (fun i => (u i).cmm) L (𝓝 v.cmm)

theorem fits_tendsto {O : ι → Obj} {o : Obj} (hO : Approach L O o) {inds : List ℤ} {l : List (List Fit)}
    (h : o.fits inds = .ok l) :
    ∃ F : ι → List (List Fit), (∀ᶠ i in L, (O i).fits inds = .ok (F i)) ∧
      ∀ t < o.data.n0, ∀ c < o.data.n1, TowardF L (fun i => fitAt (F i) t c) (fitAt l t c) := by
  have hrow : ∀ t c, ∃ R : ι → Fit, t < o.data.n0 → c < o.data.n1 →
      (∀ᶠ i in L, lineOf (((O i).row t c).map pt) inds = .ok (R i)) ∧ TowardF L R (fitAt l t c) := by
    intro t c
    by_cases ht : t < o.data.n0
    · by_cases hc : c < o.data.n1
      · obtain ⟨h1, h2, hf, hm⟩ := lineOf_iff.1 (fits_row h ht hc)
        obtain ⟨F, hF, tb, tm, tbb, tmm⟩ := fit_tendsto (L := L) (x := fun i => xs fun k => (O i).data.get t c k)
          (y := fun i => ys fun k => (O i).data.get t c k) (σ := fun i => ss fun k => (O i).data.get t c k)
          (fun j _ => (toward_num (hO.data t c j)).1) (fun j _ => (toward_num (hO.data t c j)).2.1)
          (fun j _ => (toward_num (hO.data t c j)).2.2) hf
        refine ⟨F, fun _ _ => ⟨?_, tb, tm, tbb, tmm⟩⟩
        filter_upwards [hF, tm.eventually_ne hm] with i hi hi'
        unfold Obj.row
        rw [(hO.shape i).2.2]
        refine lineOf_iff.2 ⟨h1, fun j hj => ?_, hi, hi'⟩
        rw [toward_some (hO.data t c j) i]
        exact h2 j hj
      · exact ⟨fun _ => noFit, fun _ h => absurd h hc⟩
    · exact ⟨fun _ => noFit, fun h => absurd h ht⟩
  choose R hR using hrow
  have hall : ∀ᶠ i in L, ∀ t ∈ Set.Iio o.data.n0, ∀ c ∈ Set.Iio o.data.n1, lineOf (((O i).row t c).map pt) inds = .ok (R t c i) :=
    (Set.finite_Iio _).eventually_all.2 fun t ht => (Set.finite_Iio _).eventually_all.2 fun c hc => (hR t c ht hc).1
  refine ⟨fun i => (List.range o.data.n0).map fun t => (List.range o.data.n1).map fun c => R t c i, ?_, fun t ht c hc => ?_⟩
  · filter_upwards [hall] with i hi
    rw [fits_lineOf, (hO.shape i).1, (hO.shape i).2.1]
    exact LineFit.mapM_all fun t ht => LineFit.mapM_all fun c hc => hi t ht c hc
  · have e : (fun i => fitAt ((List.range o.data.n0).map fun t => (List.range o.data.n1).map fun c => R t c i) t c) = R t c :=
      funext fun i => fitAt_map (fun t c => R t c i) ht hc
    rw [e]
    exact (hR t c ht hc).2

theorem propagate_tendsto {k : ℕ} {J V : ι → Fin k → ℝ} {J0 V0 : Fin k → ℝ} (hJ : ∀ j, Tendsto (fun i => J i j) L (𝓝 (J0 j)))
    (hV : ∀ j, Tendsto (fun i => V i j) L (𝓝 (V0 j))) :
    Tendsto (fun i => propagate (J i) (Matrix.diagonal (V i))) L (𝓝 (propagate J0 (Matrix.diagonal V0))) := by
  simp only [propagate_diag]
  exact tendsto_finsetSum _ fun j _ => ((hJ j).pow 2).mul (hV j)

theorem invVar_tendsto {u : ι → Fit} {v : Fit} (h : TowardF L u v) (hm : v.m ≠ 0) :
    Tendsto (fun i => invVar (u i)) L (𝓝 (invVar v)) := by
  have : Tendsto (fun i => -1 / (u i).m ^ 2) L (𝓝 (-1 / v.m ^ 2)) := tendsto_const_nhds.div (h.m.pow 2) (pow_ne_zero 2 hm)
  exact this.mul (h.cmm.mul this)

theorem intCov_tendsto {u u' : ι → Fit} {n s : Fit} (hn : TowardF L u n) (hs : TowardF L u' s) (j : Fin 4) :
    Tendsto (fun i => (![Real.sqrt (u i).cbb ^ 2, Real.sqrt (u i).cmm ^ 2, Real.sqrt (u' i).cbb ^ 2, Real.sqrt (u' i).cmm ^ 2] : Fin 4 → ℝ) j) L
      (𝓝 ((![Real.sqrt n.cbb ^ 2, Real.sqrt n.cmm ^ 2, Real.sqrt s.cbb ^ 2, Real.sqrt s.cmm ^ 2] : Fin 4 → ℝ) j)) := by
  fin_cases j
  · exact hn.cbb.sqrt.pow 2
  · exact hn.cmm.sqrt.pow 2
  · exact hs.cbb.sqrt.pow 2
  · exact hs.cmm.sqrt.pow 2

theorem intXErr_tendsto {u u' : ι → Fit} {n s : Fit} (hn : TowardF L u n) (hs : TowardF L u' s) (hd : s.m - n.m ≠ 0) :
    Tendsto (fun i => intXErr (u i) (u' i)) L (𝓝 (intXErr n s)) := by
  have d := hs.m.sub hn.m
  have b := hn.b.sub hs.b
  refine (propagate_tendsto (fun j => ?_) (intCov_tendsto hn hs)).sqrt
  fin_cases j
  · exact tendsto_const_nhds.div d hd
  · exact b.div (d.pow 2) (pow_ne_zero 2 hd)
  · exact tendsto_const_nhds.div d hd
  · exact b.neg.div (d.pow 2) (pow_ne_zero 2 hd)

theorem intYErr_tendsto {u u' : ι → Fit} {n s : Fit} (hn : TowardF L u n) (hs : TowardF L u' s) (hd : s.m - n.m ≠ 0) :
    Tendsto (fun i => intYErr (u i) (u' i)) L (𝓝 (intYErr n s)) := by
  have d := hs.m.sub hn.m
  have b := hn.b.sub hs.b
  refine (propagate_tendsto (fun j => ?_) (intCov_tendsto hn hs)).sqrt
  fin_cases j
  · exact (hn.m.div d hd).add tendsto_const_nhds
  · exact (b.div d hd).add (b.div (d.pow 2) (pow_ne_zero 2 hd))
  · exact hn.m.neg.div d hd
  · exact (hn.m.neg.mul b).div (d.pow 2) (pow_ne_zero 2 hd)

theorem getsV_map {u : ι → Option Reading} {v : Option Reading} {φ : ι → Reading → ValErr} {ψ : Reading → ValErr} (h : Toward L u v)
    (hφ : ∀ r (s : ι → Reading), Tendsto (fun i => (s i).ibias) L (𝓝 r.ibias) → Tendsto (fun i => (s i).ibiasErr) L (𝓝 r.ibiasErr) →
      Tendsto (fun i => (s i).dites) L (𝓝 r.dites) → Tendsto (fun i => (s i).ditesErr) L (𝓝 r.ditesErr) →
      TowardV L (fun i => φ i (s i)) (ψ r)) :
    GetsV L (fun i => (u i).map (φ i)) (v.map ψ) := by
  intro x hx
  cases v with
  | none => cases hx
  | some r =>
    cases hx
    obtain ⟨s, hs, h1, h2, h3, h4⟩ := h
    exact ⟨fun i => φ i (s i), Eventually.of_forall fun i => by simp [hs i], hφ r s h1 h2 h3 h4⟩

theorem getsV_bind {u : ι → Option Reading} {v : Option Reading} {φ : ι → Reading → Option ValErr} {ψ : Reading → Option ValErr}
    (h : Toward L u v)
    (hφ : ∀ r (s : ι → Reading), Tendsto (fun i => (s i).ibias) L (𝓝 r.ibias) → Tendsto (fun i => (s i).ibiasErr) L (𝓝 r.ibiasErr) →
      Tendsto (fun i => (s i).dites) L (𝓝 r.dites) → Tendsto (fun i => (s i).ditesErr) L (𝓝 r.ditesErr) →
      GetsV L (fun i => φ i (s i)) (ψ r)) :
    GetsV L (fun i => (u i).bind (φ i)) (v.bind ψ) := by
  intro x hx
  cases v with
  | none => cases hx
  | some r =>
    obtain ⟨s, hs, h1, h2, h3, h4⟩ := h
    obtain ⟨z, hz, hz'⟩ := hφ r s h1 h2 h3 h4 x hx
    refine ⟨z, ?_, hz'⟩
    filter_upwards [hz] with i hi
    rw [hs i]
    exact hi

theorem getsV_ite {a : ι → ℝ} {a0 : ℝ} {f : ι → ValErr} {f0 : ValErr} (ha : Tendsto a L (𝓝 a0)) (hf : a0 ≠ 0 → TowardV L f f0) :
    GetsV L (fun i => if a i = 0 then none else some (f i)) (if a0 = 0 then none else some f0) := by
  intro x hx
  by_cases h : a0 = 0
  · rw [if_pos h] at hx; cases hx
  · rw [if_neg h] at hx
    cases hx
    refine ⟨f, ?_, hf h⟩
    filter_upwards [ha.eventually_ne h] with i hi
    rw [if_neg hi]

theorem assemble_settles {O : ι → Obj} {o : Obj} (hO : Approach L O o) {n s : ℕ → ℕ → Fit} {N S : ι → ℕ → ℕ → Fit}
    {y x : ℕ → ℕ → ℕ → ValErr} {Y X : ι → ℕ → ℕ → ℕ → ValErr} {rp : ℕ → ℕ → ValErr} {RP : ι → ℕ → ℕ → ValErr}
    (hn : ∀ t < o.data.n0, ∀ c < o.data.n1, TowardF L (fun i => N i t c) (n t c) ∧ (n t c).m ≠ 0)
    (hs : ∀ t < o.data.n0, ∀ c < o.data.n1, TowardF L (fun i => S i t c) (s t c))
    (hy : ∀ t < o.data.n0, ∀ c < o.data.n1, ∀ k, TowardV L (fun i => Y i t c k) (y t c k))
    (hx : ∀ t < o.data.n0, ∀ c < o.data.n1, ∀ k, TowardV L (fun i => X i t c k) (x t c k))
    (hrp : ∀ t < o.data.n0, ∀ c < o.data.n1, TowardV L (fun i => RP i t c) (rp t c)) :
    Settles L o (fun i => assemble (O i) (N i) (S i) (Y i) (X i) (RP i)) (assemble o n s y x rp) := by
  have hfit : ∀ t < o.data.n0, ∀ c < o.data.n1, TowardV L (fun i => (assemble (O i) (N i) (S i) (Y i) (X i) (RP i)).rfit t c)
      ((assemble o n s y x rp).rfit t c) := by
    intro t ht c hc
    obtain ⟨h1, h2⟩ := hn t ht c hc
    have hi := invVar_tendsto h1 h2
    have hq : Tendsto (fun i => 1 / (N i t c).m) L (𝓝 (1 / (n t c).m)) := tendsto_const_nhds.div h1.m h2
    exact ⟨hq.mul hO.rsh, (((hO.rsh.mul hi).pow 2).add ((hq.mul hO.rshErr).pow 2)).sqrt⟩
  refine ⟨fun t ht c hc => ?_, fun t ht c hc k _ => ?_⟩
  · obtain ⟨h1, h2⟩ := hn t ht c hc
    have h3 := hs t ht c hc
    have h4 := hfit t ht c hc
    have h5 := hrp t ht c hc
    exact ⟨h1.m, h1.b, h3.m, h3.b, hy t ht c hc 0, hx t ht c hc 0, h4, h5, ⟨(h4.1.sub hO.rsh).sub h5.1,
      ((h4.2.pow 2).add (h5.2.pow 2)).sqrt⟩⟩
  · have hd := hO.data t c k
    obtain ⟨y1, y2⟩ := hy t ht c hc k
    obtain ⟨x1, x2⟩ := hx t ht c hc k
    obtain ⟨y3, y4⟩ := hy t ht c hc 0
    obtain ⟨x3, x4⟩ := hx t ht c hc 0
    obtain ⟨p1, p2⟩ := hrp t ht c hc
    have hcov : ∀ (r : Reading) (z : ι → Reading), Tendsto (fun i => (z i).ibiasErr) L (𝓝 r.ibiasErr) →
        Tendsto (fun i => (z i).ditesErr) L (𝓝 r.ditesErr) → ∀ j : Fin 6,
        Tendsto (fun i => (![(z i).ibiasErr ^ 2, (X i t c 0).err ^ 2, (z i).ditesErr ^ 2, (Y i t c 0).err ^ 2, (O i).rshErr ^ 2,
          (RP i t c).err ^ 2] : Fin 6 → ℝ) j) L
        (𝓝 ((![r.ibiasErr ^ 2, (x t c 0).err ^ 2, r.ditesErr ^ 2, (y t c 0).err ^ 2, o.rshErr ^ 2, (rp t c).err ^ 2] : Fin 6 → ℝ) j)) := by
      intro r z a2 a4 j
      fin_cases j
      · exact a2.pow 2
      · exact x4.pow 2
      · exact a4.pow 2
      · exact y4.pow 2
      · exact hO.rshErr.pow 2
      · exact p2.pow 2
    refine ⟨getsV_map hd fun r z a1 a2 a3 a4 => ?_, getsV_map hd fun r z a1 a2 a3 a4 => ?_, getsV_map hd fun r z a1 a2 a3 a4 => ?_,
      getsV_bind hd fun r z a1 a2 a3 a4 => ?_, getsV_map hd fun r z a1 a2 a3 a4 => ?_⟩
    · exact ⟨a3.sub y1, ((a4.pow 2).add (y2.pow 2)).sqrt⟩
    · exact ⟨a1.sub x1, ((a2.pow 2).add (x2.pow 2)).sqrt⟩
    · have e := ((a2.pow 2).add (x2.pow 2)).sqrt
      exact ⟨(a1.sub x1).mul hO.rsh, ((((a1.sub x1).mul hO.rshErr).pow 2).add ((hO.rsh.mul e).pow 2)).sqrt⟩
    · have ti := a3.sub y3
      have tb := a1.sub x3
      refine getsV_ite ti fun h0 => ⟨((tb.mul hO.rsh).div ti h0).sub (hO.rsh.add p1), ?_⟩
      refine (propagate_tendsto (fun j => ?_) (hcov r z a2 a4)).sqrt
      fin_cases j
      · exact hO.rsh.div ti h0
      · exact hO.rsh.neg.div ti h0
      · exact (tb.neg.mul hO.rsh).div (ti.pow 2) (pow_ne_zero 2 h0)
      · exact (tb.mul hO.rsh).div (ti.pow 2) (pow_ne_zero 2 h0)
      · exact (tb.div ti h0).sub tendsto_const_nhds
      · exact tendsto_const_nhds
    · have ti := a3.sub y3
      have tb := a1.sub x3
      refine ⟨((tb.mul hO.rsh).mul ti).sub ((hO.rsh.add p1).mul (ti.pow 2)), ?_⟩
      refine (propagate_tendsto (fun j => ?_) (hcov r z a2 a4)).sqrt
      fin_cases j
      · exact hO.rsh.mul ti
      · exact hO.rsh.neg.mul ti
      · exact (tb.mul hO.rsh).sub ((tendsto_const_nhds.mul (hO.rsh.add p1)).mul ti)
      · exact (tb.neg.mul hO.rsh).add ((tendsto_const_nhds.mul (hO.rsh.add p1)).mul ti)
      · exact (tb.mul ti).sub (ti.pow 2)
      · exact tendsto_const_nhds.mul (ti.pow 2)

/-- The default offsets. -/
theorem offsets_tendsto {o : Obj} {fitsc : Bool} {n s : ℕ → ℕ → Fit} {N S : ι → ℕ → ℕ → Fit}
    (hn : ∀ t < o.data.n0, ∀ c < o.data.n1, TowardF L (fun i => N i t c) (n t c))
    (hs : ∀ t < o.data.n0, ∀ c < o.data.n1, TowardF L (fun i => S i t c) (s t c))
    (hd : ∀ t < o.data.n0, ∀ c < o.data.n1, (s t c).m - (n t c).m ≠ 0) {y x : Off} {ioff ibo : ℕ → ℕ → ℕ → ValErr}
    (h : offsets fitsc n s y x = .ok (ioff, ibo)) :
    ∃ Y X : ι → ℕ → ℕ → ℕ → ValErr, (∀ i, offsets fitsc (N i) (S i) y x = .ok (Y i, X i)) ∧
      (∀ t < o.data.n0, ∀ c < o.data.n1, ∀ k, TowardV L (fun i => Y i t c k) (ioff t c k)) ∧
      (∀ t < o.data.n0, ∀ c < o.data.n1, ∀ k, TowardV L (fun i => X i t c k) (ibo t c k)) := by
  have hX : ∀ t < o.data.n0, ∀ c < o.data.n1, TowardV L (fun i => ⟨intX fitsc (N i t c) (S i t c), intXErr (N i t c) (S i t c)⟩)
      ⟨intX fitsc (n t c) (s t c), intXErr (n t c) (s t c)⟩ := by
    intro t ht c hc
    refine ⟨?_, intXErr_tendsto (hn t ht c hc) (hs t ht c hc) (hd t ht c hc)⟩
    unfold intX
    cases fitsc with
    | false => exact tendsto_const_nhds
    | true => exact ((hn t ht c hc).b.sub (hs t ht c hc).b).div ((hs t ht c hc).m.sub (hn t ht c hc).m) (hd t ht c hc)
  have hY : ∀ t < o.data.n0, ∀ c < o.data.n1, TowardV L (fun i => ⟨intY fitsc (N i t c) (S i t c), intYErr (N i t c) (S i t c)⟩)
      ⟨intY fitsc (n t c) (s t c), intYErr (n t c) (s t c)⟩ := by
    intro t ht c hc
    refine ⟨?_, intYErr_tendsto (hn t ht c hc) (hs t ht c hc) (hd t ht c hc)⟩
    unfold intY
    cases fitsc with
    | false => exact (hn t ht c hc).b
    | true => exact ((hn t ht c hc).m.mul (hX t ht c hc).1).add (hn t ht c hc).b
  unfold offsets at h
  match y, x, h with
  | .none, .none, h =>
    cases h
    exact ⟨_, _, fun i => rfl, fun t ht c hc k => hY t ht c hc, fun t ht c hc k => hX t ht c hc⟩
  | .array a, .none, h =>
    cases h
    exact ⟨fun _ => a.get, _, fun i => rfl, fun t ht c hc k => ⟨tendsto_const_nhds, tendsto_const_nhds⟩, fun t ht c hc k => hX t ht c hc⟩
  | .none, .array b, h =>
    cases h
    exact ⟨_, fun _ => b.get, fun i => rfl, fun t ht c hc k => hY t ht c hc, fun t ht c hc k => ⟨tendsto_const_nhds, tendsto_const_nhds⟩⟩
  | .array a, .array b, h =>
    cases h
    exact ⟨fun _ => a.get, fun _ => b.get, fun i => rfl, fun t ht c hc k => ⟨tendsto_const_nhds, tendsto_const_nhds⟩,
      fun t ht c hc k => ⟨tendsto_const_nhds, tendsto_const_nhds⟩⟩

theorem analyze_settles {O : ι → Obj} {o : Obj} (hO : Approach L O o) {y x : Off} {res : Result} (h : analyze o y x = .ok res) :
    ∃ R : ι → Result, (∀ᶠ i in L, analyze (O i) y x = .ok (R i)) ∧ Settles L o R res := by
  obtain ⟨nf, sf, src, ioff, ibo, rp, h1, h2, h3, h4, rfl⟩ := analyze_ok h
  obtain ⟨NF, hNF, tN⟩ := fits_tendsto hO h1
  have hm : ∀ t < o.data.n0, ∀ c < o.data.n1, (fitAt nf t c).m ≠ 0 := fun t ht c hc => by
    obtain ⟨_, _, _, _, _, _, h⟩ := fits_ok h1 ht hc
    exact h
  cases hsc : o.fitsc with
  | true =>
    obtain ⟨inds, hi, hf, hne, rfl⟩ := scFits_fit hsc h2
    obtain ⟨SF, hSF, tS⟩ := fits_tendsto hO hf
    have hms : ∀ t < o.data.n0, ∀ c < o.data.n1, (fitAt sf t c).m ≠ 0 := fun t ht c hc => by
      obtain ⟨_, _, _, _, _, _, h⟩ := fits_ok hf ht hc
      exact h
    have hd : ∀ t < o.data.n0, ∀ c < o.data.n1, (fitAt sf t c).m - (fitAt nf t c).m ≠ 0 := fun t ht c hc =>
      sub_ne_zero.2 (hne t ht c hc)
    obtain ⟨Y, X, hYX, tY, tX⟩ := offsets_tendsto (o := o) (N := fun i => fitAt (NF i)) (S := fun i => fitAt (SF i)) tN tS hd h3
    cases h4
    have hpos : ¬ (o.data.n0 = 0 ∨ o.data.n1 = 0) := by
      intro h0
      unfold Obj.scFits at h2
      rw [if_pos hsc, hi] at h2
      simp only [hf, if_pos h0] at h2
      cases h2
    refine ⟨fun i => assemble (O i) (fitAt (NF i)) (fitAt (SF i)) (Y i) (X i) fun t c =>
      ⟨1 / (fitAt (SF i) t c).m * (O i).rsh - (O i).rsh,
        Real.sqrt (((O i).rsh * invVar (fitAt (SF i) t c)) ^ 2 + ((1 / (fitAt (SF i) t c).m - 1) * (O i).rshErr) ^ 2)⟩, ?_,
      assemble_settles hO (fun t ht c hc => ⟨tN t ht c hc, hm t ht c hc⟩) tS tY tX fun t ht c hc => ?_⟩
    · have hne' : ∀ᶠ i in L, ∀ t ∈ Set.Iio o.data.n0, ∀ c ∈ Set.Iio o.data.n1, (fitAt (SF i) t c).m - (fitAt (NF i) t c).m ≠ 0 :=
        (Set.finite_Iio _).eventually_all.2 fun t ht => (Set.finite_Iio _).eventually_all.2 fun c hc =>
          ((tS t ht c hc).m.sub (tN t ht c hc).m).eventually_ne (hd t ht c hc)
      filter_upwards [hNF, hSF, hne'] with i i1 i2 i3
      obtain ⟨c1, c2, c3⟩ := hO.choices i
      obtain ⟨s1, s2, -⟩ := hO.shape i
      have hq : (O i).scFits (NF i) = .ok (SF i, .inr fun s => ⟨1 / s.m * (O i).rsh - (O i).rsh,
          Real.sqrt (((O i).rsh * invVar s) ^ 2 + ((1 / s.m - 1) * (O i).rshErr) ^ 2)⟩) := by
        unfold Obj.scFits
        rw [if_pos (c2.trans hsc), c3, hi]
        simp only [i2]
        rw [s1, s2, if_neg hpos, if_neg]
        rintro ⟨t, ht, c, hc, e⟩
        exact i3 t ht c hc (sub_eq_zero.2 e)
      unfold analyze
      rw [c1, i1]
      simp only [hq]
      rw [c2, hYX i]
      rfl
    · have hq : Tendsto (fun i => 1 / (fitAt (SF i) t c).m) L (𝓝 (1 / (fitAt sf t c).m)) :=
        tendsto_const_nhds.div (tS t ht c hc).m (hms t ht c hc)
      exact ⟨(hq.mul hO.rsh).sub hO.rsh, (((hO.rsh.mul (invVar_tendsto (tS t ht c hc) (hms t ht c hc))).pow 2).add
        (((hq.sub tendsto_const_nhds).mul hO.rshErr).pow 2)).sqrt⟩
  | false =>
    obtain ⟨a, ha, rfl, rfl⟩ := scFits_nofit hsc h2
    match a, h4 with
    | .d3 a, h4 =>
      cases h4
      obtain ⟨A, hA, tA⟩ := hO.rp a ha
      have h0 : ∀ t c, fitAt [] t c = noFit := fun t c => by simp [fitAt]
      have tS : ∀ t < o.data.n0, ∀ c < o.data.n1, TowardF L (fun _ => fitAt [] t c) (fitAt [] t c) := fun t _ c _ =>
        ⟨tendsto_const_nhds, tendsto_const_nhds, tendsto_const_nhds, tendsto_const_nhds⟩
      have hd : ∀ t < o.data.n0, ∀ c < o.data.n1, (fitAt [] t c).m - (fitAt nf t c).m ≠ 0 := fun t ht c hc => by
        rw [h0]
        simp only [noFit, zero_sub]
        exact neg_ne_zero.2 (hm t ht c hc)
      obtain ⟨Y, X, hYX, tY, tX⟩ := offsets_tendsto (o := o) (N := fun i => fitAt (NF i)) (S := fun _ => fitAt []) tN tS hd h3
      refine ⟨fun i => assemble (O i) (fitAt (NF i)) (fitAt []) (Y i) (X i) fun t c => (A i).get t c 0, ?_,
        assemble_settles hO (fun t ht c hc => ⟨tN t ht c hc, hm t ht c hc⟩) tS tY tX fun t ht c hc => tA t c 0⟩
      filter_upwards [hNF] with i i1
      obtain ⟨c1, c2, c3⟩ := hO.choices i
      have hq : (O i).scFits (NF i) = .ok ([], .inl (.d3 (A i))) := by
        unfold Obj.scFits
        rw [c2, hsc, if_neg (by simp), hA i]
      unfold analyze
      rw [c1, i1]
      simp only [hq]
      rw [c2, hYX i]
      rfl

/-! ### Errors of the currents -/

theorem noisy_approach {o : Obj} {v : ι → ℕ → ℕ → ℕ → ℝ} (h : ∀ t c k, Tendsto (fun i => v i t c k) L (𝓝 0)) :
    Approach L (fun i => o.noisy (v i)) o := by
  refine ⟨fun i => ⟨rfl, rfl, rfl⟩, fun i => ⟨rfl, rfl, rfl⟩, fun t c k => ?_, tendsto_const_nhds, tendsto_const_nhds,
    fun a ha => ⟨fun _ => a, fun i => ha, fun t c k => ⟨tendsto_const_nhds, tendsto_const_nhds⟩⟩⟩
  unfold Toward
  cases hd : o.data.get t c k with
  | none => exact fun i => by simp [Obj.noisy, hd]
  | some r =>
    refine ⟨fun i => { r with dites := r.dites + v i t c k }, fun i => by simp [Obj.noisy, hd], tendsto_const_nhds,
      tendsto_const_nhds, ?_, tendsto_const_nhds⟩
    simpa using tendsto_const_nhds.add (h t c k)

theorem noisy_nums (o : Obj) (w : ℕ → ℕ → ℕ → ℝ) (t c : ℕ) :
    xs (fun k => (o.noisy w).data.get t c k) = xs (fun k => o.data.get t c k) ∧
    ss (fun k => (o.noisy w).data.get t c k) = ss (fun k => o.data.get t c k) ∧
    ∀ j, (o.data.get t c j).isSome → ys (fun k => (o.noisy w).data.get t c k) j = ys (fun k => o.data.get t c k) j + w t c j := by
  refine ⟨funext fun j => ?_, funext fun j => ?_, fun j hj => ?_⟩
  · simp only [xs, Obj.noisy]
    cases o.data.get t c j <;> rfl
  · simp only [ss, Obj.noisy]
    cases o.data.get t c j <;> rfl
  · unfold ys Obj.noisy
    obtain ⟨r, hr⟩ := Option.isSome_iff_exists.1 hj
    simp [hr]

/-- The line through readings with errors, in terms of the weights. -/
theorem noisy_fits {o : Obj} {inds : List ℤ} (hJ : (inds.map (place o.data.n2)).Nodup) {t c : ℕ} (ht : t < o.data.n0)
    (hc : c < o.data.n1) {b m : ℝ}
    (hline : ∀ i ∈ inds, ∀ r, o.data.get t c (place o.data.n2 i) = some r → r.dites = m * r.ibias + b)
    {w : ℕ → ℕ → ℕ → ℝ} {l : List (List Fit)} (h : (o.noisy w).fits inds = .ok l) :
    let J := inds.map (place o.data.n2)
    let x := xs fun k => o.data.get t c k
    let σ := ss fun k => o.data.get t c k
    (∀ j ∈ J, j < o.data.n2) ∧ (∀ j ∈ J, σ j ≠ 0) ∧ det (J.map (point x 0 σ)) ≠ 0 ∧
    (fitAt l t c).b = b + ∑ j ∈ J.toFinset, wb J x σ j * w t c j ∧
    (fitAt l t c).m = m + ∑ j ∈ J.toFinset, wm J x σ j * w t c j := by
  intro J x σ
  obtain ⟨hr, hs, hf, -⟩ := lineOf_iff.1 (fits_row h (t := t) (c := c) ht hc)
  obtain ⟨e1, e2, e3⟩ := noisy_nums o w t c
  rw [e1, e2] at hf
  have hs' : ∀ j ∈ J, (o.data.get t c j).isSome := fun j hj => by
    have := hs j hj
    simpa [Obj.noisy] using this
  obtain ⟨g1, g2, g3, hsol⟩ := curveFit_points.1 hf
  have hσ : ∀ j ∈ J, σ j ≠ 0 := fun j hj => g2 (point x _ σ j) (List.mem_map_of_mem hj)
  have hd : det (J.map (point x 0 σ)) ≠ 0 := by
    rw [det_y J x 0 (ys fun k => (o.noisy w).data.get t c k)]
    exact g3
  have hy : ∀ j ∈ J, ys (fun k => (o.noisy w).data.get t c k) j = (m * x j + b) + w t c j := by
    intro j hj
    rw [e3 j (hs' j hj)]
    obtain ⟨i, hi', rfl⟩ := List.mem_map.1 hj
    obtain ⟨r, hr'⟩ := Option.isSome_iff_exists.1 (hs' _ hj)
    have := hline i hi' r hr'
    simp only [ys, x, xs, hr', Option.elim]
    rw [this]
  obtain ⟨u1, u2⟩ := weights_unbiased hJ hd b m
  obtain ⟨s1, s2⟩ := solve_weights hJ x (ys fun k => (o.noisy w).data.get t c k) σ
  refine ⟨fun j hj => ?_, hσ, hd, ?_, ?_⟩
  · obtain ⟨i, hi', rfl⟩ := List.mem_map.1 hj
    exact place_lt (hr i hi')
  · rw [hsol]
    refine s1.trans ?_
    rw [← u1, ← Finset.sum_add_distrib]
    refine Finset.sum_congr rfl fun j hj => ?_
    rw [hy j (List.mem_toFinset.1 hj)]
    ring
  · rw [hsol]
    refine s2.trans ?_
    rw [← u2, ← Finset.sum_add_distrib]
    refine Finset.sum_congr rfl fun j hj => ?_
    rw [hy j (List.mem_toFinset.1 hj)]
    ring

end Verif.Ibis
