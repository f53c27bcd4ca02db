import Verif.IvSpec
import Verif.LineFitLemmas
import Mathlib.Analysis.Calculus.Deriv.Inv
import Mathlib.Analysis.Calculus.Deriv.Pow
import Mathlib.Tactic.NormNum

/-! Lemmas about the IV curve. -/

namespace Verif.Iv
open Verif LineFit

theorem mapM_ok {α β : Type} {f : α → Except Err β} {l : List α} {r : List β}
    (h : l.mapM f = .ok r) : List.Forall₂ (fun a b => f a = .ok b) l r := by
  induction l generalizing r with
  | nil =>
    rw [List.mapM_nil] at h
    cases h
    exact .nil
  | cons a l ih =>
    rw [List.mapM_cons] at h
    cases ha : f a with
    | error e => rw [ha] at h; cases h
    | ok b =>
      rw [ha] at h
      cases hl : l.mapM f with
      | error e => rw [hl] at h; cases h
      | ok bs =>
        rw [hl] at h
        cases h
        exact .cons ha (ih hl)

theorem mapM_range {β : Type} {f : ℕ → Except Err β} {n : ℕ} {r : List β} {d : β}
    (h : (List.range n).mapM f = .ok r) {i : ℕ} (hi : i < n) : f i = .ok (r.getD i d) := by
  have h2 := mapM_ok h
  have hl := h2.length_eq
  rw [List.length_range] at hl
  have := List.forall₂_iff_get.1 h2
  have := this.2 i (by rwa [List.length_range]) (by omega)
  simp only [List.get_eq_getElem, List.getElem_range] at this
  rw [this, List.getD_eq_getElem?_getD, List.getElem?_eq_getElem (by omega), Option.getD_some]

/-- The row fits used by `calc_iv`. -/
theorem fits_row {o : Obj} {fits : List (List RowFit)} (h : o.fits = .ok fits) {t c : ℕ}
    (ht : t < o.data.n0) (hc : c < o.data.n1) :
    rowFit (o.row t c) o.normalinds = .ok ((fits.getD t []).getD c ⟨0, 0, 0, 0⟩) :=
  mapM_range (mapM_range h ht) hc

theorem fancy_ok {α : Type} {row : List α} {inds : List ℤ} {l : List α} (h : fancy row inds = .ok l) :
    List.Forall₂ (fun (i : ℤ) p => (0 ≤ i ∧ row[i.toNat]? = some p) ∨
      (i < 0 ∧ 0 ≤ i + row.length ∧ row[(i + row.length).toNat]? = some p)) inds l := by
  refine (mapM_ok h).imp fun i p hp => ?_
  by_cases hi : i < 0
  · rw [if_pos hi] at hp
    cases hr : row[(i + (row.length : ℤ)).toNat]? with
    | none => rw [hr] at hp; cases hp
    | some a =>
      rw [hr] at hp
      simp only at hp
      by_cases hi' : i < -(row.length : ℤ)
      · rw [if_pos hi'] at hp; cases hp
      · rw [if_neg hi'] at hp
        cases hp
        exact .inr ⟨hi, by omega, rfl⟩
  · rw [if_neg hi] at hp
    cases hr : row[i.toNat]? with
    | none => rw [hr] at hp; cases hp
    | some a =>
      rw [hr] at hp
      simp only at hp
      rw [if_neg (by omega)] at hp
      cases hp
      exact .inl ⟨by omega, rfl⟩

theorem fancy_range {α : Type} {row : List α} {k : ℕ} {l : List α}
    (h : fancy row ((List.range k).map fun (i : ℕ) => (i : ℤ)) = .ok l) : l = row.take k := by
  have h2 := fancy_ok h
  have hl := h2.length_eq
  rw [List.length_map, List.length_range] at hl
  have h3 := (List.forall₂_iff_get.1 h2).2
  refine List.ext_getElem? fun i => ?_
  by_cases hi : i < k
  · have := h3 i (by simpa using hi) (by omega)
    simp only [List.get_eq_getElem, List.getElem_map, List.getElem_range] at this
    rcases this with ⟨_, e⟩ | ⟨e, _⟩
    · rw [List.getElem?_take_of_lt hi, List.getElem?_eq_getElem (by omega)]
      exact e.symm
    · omega
  · rw [List.getElem?_eq_none (by omega), List.getElem?_eq_none]
    rw [List.length_take]
    omega

theorem filterMap_map_some {α : Type} (l : List α) : (l.map some).filterMap id = l := by
  rw [List.filterMap_map]
  exact List.filterMap_some

theorem chi2_eq {l : List Pt} (f : Fit) : chi2 f (l.map some) = Chi2 l f.b f.m := by
  unfold chi2 Chi2
  rw [filterMap_map_some]
  congr 1
  apply List.map_congr_left
  intro p _
  rw [div_pow, div_pow]
  congr 1
  ring

theorem isBestLine_unique {l : List Pt} {b m b' m' : ℝ} (h : IsBestLine l b m)
    (h' : IsBestLine l b' m') : b' = b ∧ m' = m := by
  by_contra hne
  have hne' : (b', m') ≠ (b, m) := fun e => hne (Prod.mk.injEq .. ▸ e)
  exact lt_asymm (h b' m' hne') (h' b m hne'.symm)

theorem map_some_inj {α : Type} {l l' : List α} (h : l.map some = l'.map some) : l = l' := by
  have := congrArg (List.filterMap id) h
  rwa [filterMap_map_some, filterMap_map_some] at this

/-- One more point: the fit decides whether the longer stretch is linear. -/
theorem linear_iff {pts : List (Option Pt)} {tol : ℝ} {j : ℕ} (hj : 3 ≤ j) {f : Fit}
    (h : curveFit (pts.take j) = .ok f) :
    Linear pts tol j ↔ ¬ chi2 f (pts.take j) / ((j : ℕ) - 2 : ℝ) > tol := by
  obtain ⟨l, el, _, hσ, hd, rfl⟩ := curveFit_ok h
  have hpos : (0 : ℝ) < (j : ℝ) - 2 := by
    have : (3 : ℝ) ≤ j := by exact_mod_cast hj
    linarith
  rw [el, chi2_eq, not_lt, div_le_iff₀ hpos]
  constructor
  · rintro ⟨l', b, m, e, hb, hc⟩
    rw [el] at e
    obtain rfl := map_some_inj e
    obtain ⟨rfl, rfl⟩ := isBestLine_unique (solve_best hd) hb
    exact hc
  · intro hc
    exact ⟨l, _, _, el, solve_best hd, hc⟩

theorem growLoop_spec {pts : List (Option Pt)} {tol : ℝ} (fuel : ℕ) :
    ∀ {s e : ℕ}, 2 ≤ s → pts.length ≤ s + fuel → growLoop pts tol fuel s = .ok e →
      s ≤ e ∧ (∀ j, s < j → j < e → Linear pts tol j) ∧ (s < e → e ≤ pts.length) ∧
      (s < e ∧ ¬ Linear pts tol e ∨
        (s < e → Linear pts tol e) ∧ (pts.length ≤ e ∨ pts[e]? = some none)) := by
  induction fuel with
  | zero =>
    intro s e hs hl h
    rw [growLoop] at h
    cases h
    exact ⟨le_rfl, fun j h1 h2 => by omega, fun h => by omega,
      .inr ⟨fun h => absurd h (lt_irrefl _), .inl (by omega)⟩⟩
  | succ fuel ih =>
    intro s e hs hl h
    rw [growLoop] at h
    by_cases hc : s < pts.length ∧ pts[s]? ≠ some none
    · rw [if_pos hc] at h
      cases hf : curveFit (pts.take (s + 1)) with
      | error er => rw [hf] at h; cases h
      | ok f =>
        rw [hf] at h
        simp only at h
        have hlin := linear_iff (tol := tol) (by omega : 3 ≤ s + 1) hf
        by_cases hx : chi2 f (pts.take (s + 1)) / ((s + 1 : ℕ) - 2 : ℝ) > tol
        · rw [if_pos hx] at h
          cases h
          exact ⟨by omega, fun j h1 h2 => by omega, fun _ => by omega,
            .inl ⟨by omega, fun h => hlin.1 h hx⟩⟩
        · rw [if_neg hx] at h
          obtain ⟨a, b, c, d⟩ := ih (by omega) (by omega) h
          refine ⟨by omega, fun j h1 h2 => ?_, fun _ => ?_, ?_⟩
          · rcases Nat.lt_or_ge (s + 1) j with h3 | h3
            · exact b j h3 h2
            · obtain rfl : j = s + 1 := by omega
              exact hlin.2 hx
          · rcases Nat.lt_or_ge (s + 1) e with h3 | h3
            · exact c h3
            · omega
          · rcases d with ⟨d1, d2⟩ | ⟨d1, d2⟩
            · exact .inl ⟨by omega, d2⟩
            · refine .inr ⟨fun _ => ?_, d2⟩
              rcases Nat.lt_or_ge (s + 1) e with h3 | h3
              · exact d1 h3
              · obtain rfl : e = s + 1 := by omega
                exact hlin.2 hx
    · rw [if_neg hc] at h
      cases h
      refine ⟨le_rfl, fun j h1 h2 => by omega, fun h => absurd h (lt_irrefl _),
        .inr ⟨fun h => absurd h (lt_irrefl _), ?_⟩⟩
      by_cases h1 : s < pts.length
      · exact .inr (by
          by_contra h2
          exact hc ⟨h1, h2⟩)
      · exact .inl (by omega)

/-- What a successful row fit means. -/
theorem rowFit_ok {row : List (Option Reading)} {ninds : Option (List ℤ)} {r : RowFit}
    (h : rowFit row ninds = .ok r) :
    ∃ l : List Pt, NormalPts (row.map pt) ninds l ∧ 2 ≤ l.length ∧ (∀ p ∈ l, p.σ ≠ 0) ∧ det l ≠ 0 ∧
      (solve l).m ≠ 0 ∧ r.ioff = (solve l).b ∧ r.ioffErr = Real.sqrt (solve l).cbb ∧
      r.rfit = 1 / (solve l).m ∧
      r.rfitErr = Real.sqrt ((1 / (solve l).m ^ 2) ^ 2 * (solve l).cmm) := by
  have key : ∀ npts : List (Option Pt),
      (match curveFit npts with
        | .error e => .error e
        | .ok f =>
          if f.m = 0 then .error .nan
          else .ok ⟨f.b, Real.sqrt f.cbb, 1 / f.m,
            Real.sqrt ((-1 / f.m ^ 2) * (f.cmm * (-1 / f.m ^ 2)))⟩ : Except Err RowFit) = .ok r →
      ∃ l : List Pt, npts = l.map some ∧ 2 ≤ l.length ∧ (∀ p ∈ l, p.σ ≠ 0) ∧ det l ≠ 0 ∧
        (solve l).m ≠ 0 ∧ r.ioff = (solve l).b ∧ r.ioffErr = Real.sqrt (solve l).cbb ∧
        r.rfit = 1 / (solve l).m ∧
        r.rfitErr = Real.sqrt ((1 / (solve l).m ^ 2) ^ 2 * (solve l).cmm) := by
    intro npts h
    cases hf : curveFit npts with
    | error e => rw [hf] at h; cases h
    | ok f =>
      rw [hf] at h
      simp only at h
      obtain ⟨l, el, h2, hσ, hd, rfl⟩ := curveFit_ok hf
      by_cases hm : (solve l).m = 0
      · rw [if_pos hm] at h; cases h
      · rw [if_neg hm] at h
        cases h
        refine ⟨l, el, h2, hσ, hd, hm, rfl, rfl, rfl, ?_⟩
        simp only
        congr 1
        ring
  unfold rowFit at h
  cases ninds with
  | none =>
    simp only at h
    cases hk : findnormalinds (row.map pt) 10 with
    | error e => rw [hk] at h; cases h
    | ok k =>
      rw [hk] at h
      simp only at h
      cases hs : fancy (row.map pt) ((List.range k).map fun (i : ℕ) => (i : ℤ)) with
      | error e => rw [hs] at h; cases h
      | ok npts =>
        rw [hs] at h
        obtain ⟨l, el, hrest⟩ := key npts h
        have e := fancy_range hs
        refine ⟨l, ⟨k, by rw [← el, e], fun j h1 h2 => ?_⟩, hrest⟩
        unfold findnormalinds at hk
        cases hg : growLoop (row.map pt) 10 (row.map pt).length 2 with
        | error e => rw [hg] at hk; cases hk
        | ok e =>
          rw [hg] at hk
          cases hk
          exact (growLoop_spec _ le_rfl (by omega) hg).2.1 j (by omega) (by omega)
  | some inds =>
    simp only at h
    cases hs : fancy (row.map pt) inds with
    | error e => rw [hs] at h; cases h
    | ok npts =>
      rw [hs] at h
      obtain ⟨l, el, hrest⟩ := key npts h
      refine ⟨l, ?_, hrest⟩
      have := fancy_ok hs
      rw [el, List.forall₂_map_right_iff] at this
      exact this

/-- One temperature, one channel, three normal bias points on the line `dites = vb`; the load resistance
is `1/2`. -/
noncomputable def demo (ninds : Option (List ℤ)) : Obj :=
  ⟨⟨1, 1, 3, fun _ _ i => some ⟨i + 1, 0, i + 1, 1⟩⟩,
    some ⟨1, 1, 3, fun _ _ _ => ⟨1 / 2, 1 / 10⟩⟩, ninds⟩

/-- The fit points of `demo`. -/
def demoPts : List Pt := [⟨1, 1, 1⟩, ⟨2, 2, 1⟩, ⟨3, 3, 1⟩]

theorem demo_solve : det demoPts = 6 ∧ (solve demoPts).b = 0 ∧ (solve demoPts).m = 1 ∧
    (solve demoPts).cmm = 1 / 2 := by
  have hd : det demoPts = 6 := by norm_num [det, wsum, demoPts]
  refine ⟨hd, ?_⟩
  obtain ⟨h1, h2⟩ := solve_exact (pts := demoPts) (b := 0) (m := 1) (by rw [hd]; norm_num) (by
    intro p hp
    simp only [demoPts, List.mem_cons, List.not_mem_nil, or_false] at hp
    rcases hp with rfl | rfl | rfl <;> norm_num)
  refine ⟨h1, h2, ?_⟩
  unfold solve
  rw [hd]
  norm_num [wsum, demoPts]

theorem demo_row (ninds : Option (List ℤ)) :
    ((demo ninds).row 0 0).map pt = demoPts.map some := by
  simp only [demo, Obj.row, demoPts, List.range_succ, List.range_zero]
  norm_num [pt]

theorem demo_rowFit : rowFit ((demo (some [0, 1, 2])).row 0 0) (some [0, 1, 2]) =
    .ok ⟨0, Real.sqrt (solve demoPts).cbb, 1, Real.sqrt (1 / 2)⟩ := by
  obtain ⟨hd, hb, hm, hc⟩ := demo_solve
  have hf : curveFit (demoPts.map some) = .ok (solve demoPts) := by
    unfold curveFit
    rw [if_neg (by simp [demoPts]), if_neg (by simp [demoPts]), filterMap_map_some, if_neg]
    rw [hd]
    simp [demoPts]
  have hsel : fancy (demoPts.map some) [0, 1, 2] = .ok (demoPts.map some) := rfl
  simp only [rowFit, demo_row, hsel, hf]
  rw [if_neg (by rw [hm]; norm_num), hb, hm, hc]
  norm_num

theorem demo_calcIv : ∃ res, calcIv (demo (some [0, 1, 2])) = .ok res ∧
    res.ioff 0 0 = 0 ∧ res.rfit 0 0 = 1 ∧ res.rfitErr 0 0 = 1 ∧
    res.rnormErr 0 0 = Real.sqrt (Real.sqrt (1 / 2) ^ 2 + (1 / 10) ^ 2) := by
  have hfits : (demo (some [0, 1, 2])).fits =
      .ok [[⟨0, Real.sqrt (solve demoPts).cbb, 1, Real.sqrt (1 / 2)⟩]] := by
    have := demo_rowFit
    simp only [Obj.fits]
    change (List.range 1).mapM (fun t => (List.range 1).mapM fun c =>
      rowFit ((demo (some [0, 1, 2])).row t c) (some [0, 1, 2])) = _
    rw [show List.range 1 = [0] from rfl, List.mapM_cons, List.mapM_cons, this]
    rfl
  simp only [calcIv, hfits]
  simp only [demo]
  exact ⟨_, rfl, rfl, rfl, rfl, rfl⟩

theorem reshape3_entry {α : Type} {d : Nd α} {a : A3 α} (h : d.reshape3 = some a) (t c i : ℕ) :
    a.entry t c i = d.entry t c i := by
  unfold Nd.reshape3 at h
  match d, h with
  | .d1 x, h => cases h; rfl
  | .d2 x, h => cases h; rfl
  | .d3 x, h => cases h; rfl

end Verif.Iv
