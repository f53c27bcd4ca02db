import Verif.IbisSpec
import Verif.IvLemmas
import Mathlib.Analysis.Calculus.Deriv.Add

/-! Lemmas about IBIS. -/

namespace Verif.Ibis
open Verif LineFit
open Verif.Iv (A3 Nd ValErr RLoad fancy mapM_range fancy_ok NormalPts)

theorem propagate_diag {k : ℕ} (jac v : Fin k → ℝ) :
    propagate jac (Matrix.diagonal v) = ∑ i, jac i ^ 2 * v i := by
  unfold propagate
  apply Finset.sum_congr rfl
  intro i _
  rw [Matrix.diagonal_transpose, Matrix.diagonal_mul_diagonal, Matrix.diagonal_mul_diagonal]
  rw [Finset.sum_eq_single i]
  · rw [Matrix.diagonal_apply_eq]
    ring
  · intro j _ hj
    exact Matrix.diagonal_apply_ne _ hj.symm
  · intro h
    exact absurd (Finset.mem_univ i) h

/-- What a successful table of fits means. -/
theorem fits_ok {o : Obj} {inds : List ℤ} {l : List (List Fit)} (h : o.fits inds = .ok l) {t c : ℕ}
    (ht : t < o.data.n0) (hc : c < o.data.n1) :
    ∃ pts : List Pt, NormalPts ((o.row t c).map pt) (some inds) pts ∧ 2 ≤ pts.length ∧
      (∀ p ∈ pts, p.σ ≠ 0) ∧ det pts ≠ 0 ∧ fitAt l t c = solve pts ∧ (fitAt l t c).m ≠ 0 := by
  have h1 := mapM_range (d := noFit) (mapM_range (d := []) h ht) hc
  change _ = Except.ok (fitAt l t c) at h1
  cases hf : fancy ((o.row t c).map pt) inds with
  | error e => rw [hf] at h1; cases h1
  | ok q =>
    rw [hf] at h1
    simp only at h1
    cases hq : curveFit q with
    | error e => rw [hq] at h1; cases h1
    | ok f =>
      rw [hq] at h1
      simp only at h1
      by_cases hm : f.m = 0
      · rw [if_pos hm] at h1; cases h1
      · rw [if_neg hm] at h1
        have e := Except.ok.inj h1
        obtain ⟨pts, eq, h2, hσ, hd, ef⟩ := curveFit_ok hq
        refine ⟨pts, ?_, h2, hσ, hd, by rw [← e, ef], by rw [← e]; exact hm⟩
        have := fancy_ok hf
        rw [eq, List.forall₂_map_right_iff] at this
        exact this

/-- What a successful `analyze` means. -/
theorem analyze_ok {o : Obj} {y x : Off} {res : Result} (h : analyze o y x = .ok res) :
    ∃ nf sf src ioff ibiasOff rp, o.fits o.normalinds = .ok nf ∧ o.scFits nf = .ok (sf, src) ∧
      offsets o.fitsc (fitAt nf) (fitAt sf) y x = .ok (ioff, ibiasOff) ∧
      rpValues (fitAt sf) src = .ok rp ∧
      res = assemble o (fitAt nf) (fitAt sf) ioff ibiasOff rp := by
  unfold analyze at h
  cases h1 : o.fits o.normalinds with
  | error e => rw [h1] at h; cases h
  | ok nf =>
    rw [h1] at h
    simp only at h
    cases h2 : o.scFits nf with
    | error e => rw [h2] at h; cases h
    | ok p =>
      obtain ⟨sf, src⟩ := p
      rw [h2] at h
      simp only at h
      cases h3 : offsets o.fitsc (fitAt nf) (fitAt sf) y x with
      | error e => rw [h3] at h; cases h
      | ok p =>
        obtain ⟨ioff, ibiasOff⟩ := p
        rw [h3] at h
        simp only at h
        cases h4 : rpValues (fitAt sf) src with
        | error e => rw [h4] at h; cases h
        | ok rp =>
          rw [h4] at h
          cases h
          exact ⟨nf, sf, src, ioff, ibiasOff, rp, rfl, h2, h3, h4, rfl⟩

/-- The superconducting branch. -/
theorem scFits_fit {o : Obj} {nf sf : List (List Fit)} {src : Nd ValErr ⊕ (Fit → ValErr)}
    (hsc : o.fitsc = true) (h : o.scFits nf = .ok (sf, src)) :
    ∃ inds, o.scinds = some inds ∧ o.fits inds = .ok sf ∧
      (∀ t < o.data.n0, ∀ c < o.data.n1, (fitAt sf t c).m ≠ (fitAt nf t c).m) ∧
      src = .inr fun s => ⟨1 / s.m * o.rsh - o.rsh,
        Real.sqrt ((o.rsh * invVar s) ^ 2 + ((1 / s.m - 1) * o.rshErr) ^ 2)⟩ := by
  unfold Obj.scFits at h
  rw [if_pos hsc] at h
  cases hi : o.scinds with
  | none => rw [hi] at h; cases h
  | some inds =>
    rw [hi] at h
    simp only at h
    cases hf : o.fits inds with
    | error e => rw [hf] at h; cases h
    | ok sf' =>
      rw [hf] at h
      simp only at h
      by_cases h1 : o.data.n0 = 0 ∨ o.data.n1 = 0
      · rw [if_pos h1] at h; cases h
      · rw [if_neg h1] at h
        by_cases h2 : ∃ t < o.data.n0, ∃ c < o.data.n1, (fitAt sf' t c).m = (fitAt nf t c).m
        · rw [if_pos h2] at h; cases h
        · rw [if_neg h2] at h
          cases h
          exact ⟨inds, rfl, hf, fun t ht c hc e => h2 ⟨t, ht, c, hc, e⟩, rfl⟩

/-- The branch without superconducting fit. -/
theorem scFits_nofit {o : Obj} {nf sf : List (List Fit)} {src : Nd ValErr ⊕ (Fit → ValErr)}
    (hsc : o.fitsc = false) (h : o.scFits nf = .ok (sf, src)) :
    ∃ a, o.rp = some a ∧ sf = [] ∧ src = .inl a := by
  unfold Obj.scFits at h
  rw [hsc, if_neg (by simp)] at h
  cases hr : o.rp with
  | none => rw [hr] at h; cases h
  | some a =>
    rw [hr] at h
    cases h
    exact ⟨a, rfl, rfl, rfl⟩

/-! ### Partial derivatives -/

theorem hasDerivAt_aff {f : ℝ → ℝ} (p q x : ℝ) (hf : ∀ u, f u = p * u + q) : HasDerivAt f p x := by
  rw [funext hf]
  exact (((hasDerivAt_id x).const_mul p).add_const q).congr_deriv (mul_one p)

theorem hasDerivAt_quad {f : ℝ → ℝ} (p q k : ℝ) {d x : ℝ} (hf : ∀ u, f u = p * u ^ 2 + q * u + k)
    (hd : d = 2 * p * x + q) : HasDerivAt f d x := by
  rw [funext hf]
  have := ((((hasDerivAt_id x).pow 2).const_mul p).add ((hasDerivAt_id x).const_mul q)).add_const k
  refine this.congr_deriv ?_
  rw [hd]
  simp
  ring

theorem hasDerivAt_recip {f : ℝ → ℝ} (K s a q : ℝ) {d x : ℝ} (hx : s * x + a ≠ 0)
    (hf : ∀ u, f u = K / (s * u + a) + q) (hd : d = -(K * s) / (s * x + a) ^ 2) : HasDerivAt f d x := by
  rw [funext hf]
  have h1 : HasDerivAt (fun u => s * u + a) s x := hasDerivAt_aff s a x fun _ => rfl
  have := ((h1.inv hx).const_mul K).add_const q
  simp only [div_eq_mul_inv]
  refine this.congr_deriv ?_
  rw [hd]
  ring

theorem resistance_partials {a b d f : ℝ} (s r : ℝ) (h : d - f ≠ 0) (j : Fin 6) :
    HasDerivAt (fun u => resistance (Function.update ![a, b, d, f, s, r] j u)) (rtesJac a b s d f j)
      ((![a, b, d, f, s, r] : Fin 6 → ℝ) j) := by
  fin_cases j
  · change HasDerivAt (fun u => (u - b) * s / (d - f) - (s + r)) (s / (d - f)) a
    exact hasDerivAt_aff _ (-b * s / (d - f) - (s + r)) _ fun u => by ring
  · change HasDerivAt (fun u => (a - u) * s / (d - f) - (s + r)) (-s / (d - f)) b
    exact hasDerivAt_aff _ (a * s / (d - f) - (s + r)) _ fun u => by ring
  · change HasDerivAt (fun u => (a - b) * s / (u - f) - (s + r)) (-(a - b) * s / (d - f) ^ 2) d
    exact hasDerivAt_recip ((a - b) * s) 1 (-f) (-(s + r)) (by
      rw [one_mul]; exact h) (fun u => by rw [one_mul, ← sub_eq_add_neg]; ring) (by
      rw [one_mul, ← sub_eq_add_neg]; ring)
  · change HasDerivAt (fun u => (a - b) * s / (d - u) - (s + r)) ((a - b) * s / (d - f) ^ 2) f
    have e : ∀ u, (-1 : ℝ) * u + d = d - u := fun u => by ring
    exact hasDerivAt_recip ((a - b) * s) (-1) d (-(s + r)) (by rw [e]; exact h)
      (fun u => by rw [e]; ring) (by rw [e]; ring)
  · change HasDerivAt (fun u => (a - b) * u / (d - f) - (u + r)) ((a - b) / (d - f) - 1) s
    exact hasDerivAt_aff _ (-r) _ fun u => by ring
  · change HasDerivAt (fun u => (a - b) * s / (d - f) - (s + u)) (-1) r
    exact hasDerivAt_aff _ ((a - b) * s / (d - f) - s) _ fun u => by ring

theorem power_partials (a b d f s r : ℝ) (j : Fin 6) :
    HasDerivAt (fun u => power (Function.update ![a, b, d, f, s, r] j u)) (ptesJac a b s d f r j)
      ((![a, b, d, f, s, r] : Fin 6 → ℝ) j) := by
  fin_cases j
  · change HasDerivAt (fun u => (u - b) * s * (d - f) - (s + r) * (d - f) ^ 2) (s * (d - f)) a
    exact hasDerivAt_aff _ (-b * s * (d - f) - (s + r) * (d - f) ^ 2) _ fun u => by ring
  · change HasDerivAt (fun u => (a - u) * s * (d - f) - (s + r) * (d - f) ^ 2) (-s * (d - f)) b
    exact hasDerivAt_aff _ (a * s * (d - f) - (s + r) * (d - f) ^ 2) _ fun u => by ring
  · change HasDerivAt (fun u => (a - b) * s * (u - f) - (s + r) * (u - f) ^ 2)
      ((a - b) * s - 2 * (s + r) * (d - f)) d
    exact hasDerivAt_quad (-(s + r)) ((a - b) * s + 2 * (s + r) * f)
      (-(a - b) * s * f - (s + r) * f ^ 2) (fun u => by ring) (by ring)
  · change HasDerivAt (fun u => (a - b) * s * (d - u) - (s + r) * (d - u) ^ 2)
      (-(a - b) * s + 2 * (s + r) * (d - f)) f
    exact hasDerivAt_quad (-(s + r)) (-(a - b) * s + 2 * (s + r) * d)
      ((a - b) * s * d - (s + r) * d ^ 2) (fun u => by ring) (by ring)
  · change HasDerivAt (fun u => (a - b) * u * (d - f) - (u + r) * (d - f) ^ 2)
      ((a - b) * (d - f) - (d - f) ^ 2) s
    exact hasDerivAt_aff _ (-r * (d - f) ^ 2) _ fun u => by ring
  · change HasDerivAt (fun u => (a - b) * s * (d - f) - (s + u) * (d - f) ^ 2) (-1 * (d - f) ^ 2) r
    exact hasDerivAt_aff _ ((a - b) * s * (d - f) - s * (d - f) ^ 2) _ fun u => by ring

theorem crossX_partials {n s : Fit} (h : s.m - n.m ≠ 0) (j : Fin 4) :
    HasDerivAt (fun u => crossX (Function.update ![n.b, n.m, s.b, s.m] j u)) (xJac n s j)
      ((![n.b, n.m, s.b, s.m] : Fin 4 → ℝ) j) := by
  fin_cases j
  · change HasDerivAt (fun u => (u - s.b) / (s.m - n.m)) (1 / (s.m - n.m)) n.b
    exact hasDerivAt_aff _ (-s.b / (s.m - n.m)) _ fun u => by ring
  · change HasDerivAt (fun u => (n.b - s.b) / (s.m - u)) ((n.b - s.b) / (s.m - n.m) ^ 2) n.m
    have e : ∀ u, (-1 : ℝ) * u + s.m = s.m - u := fun u => by ring
    exact hasDerivAt_recip (n.b - s.b) (-1) s.m 0 (by rw [e]; exact h)
      (fun u => by rw [e]; ring) (by rw [e]; ring)
  · change HasDerivAt (fun u => (n.b - u) / (s.m - n.m)) (-1 / (s.m - n.m)) s.b
    exact hasDerivAt_aff _ (n.b / (s.m - n.m)) _ fun u => by ring
  · change HasDerivAt (fun u => (n.b - s.b) / (u - n.m)) (-(n.b - s.b) / (s.m - n.m) ^ 2) s.m
    have e : ∀ u, (1 : ℝ) * u + -n.m = u - n.m := fun u => by ring
    exact hasDerivAt_recip (n.b - s.b) 1 (-n.m) 0 (by rw [e]; exact h)
      (fun u => by rw [e]; ring) (by rw [e]; ring)

/-- The true partial derivatives of the ordinate of the crossing. -/
noncomputable def yTrue (n s : Fit) : Fin 4 → ℝ :=
  ![n.m / (s.m - n.m) + 1, (n.b - s.b) / (s.m - n.m) + n.m * (n.b - s.b) / (s.m - n.m) ^ 2,
    -n.m / (s.m - n.m), -n.m * (n.b - s.b) / (s.m - n.m) ^ 2]

theorem crossY_partials {n s : Fit} (h : s.m - n.m ≠ 0) (j : Fin 4) :
    HasDerivAt (fun u => crossY (Function.update ![n.b, n.m, s.b, s.m] j u)) (yTrue n s j)
      ((![n.b, n.m, s.b, s.m] : Fin 4 → ℝ) j) := by
  fin_cases j
  · change HasDerivAt (fun u => n.m * ((u - s.b) / (s.m - n.m)) + u) (n.m / (s.m - n.m) + 1) n.b
    exact hasDerivAt_aff _ (-n.m * s.b / (s.m - n.m)) _ fun u => by ring
  · change HasDerivAt (fun u => u * ((n.b - s.b) / (s.m - u)) + n.b)
      ((n.b - s.b) / (s.m - n.m) + n.m * (n.b - s.b) / (s.m - n.m) ^ 2) n.m
    have e : ∀ u, (-1 : ℝ) * u + s.m = s.m - u := fun u => by ring
    have h1 : HasDerivAt (fun u => (n.b - s.b) / (s.m - u)) ((n.b - s.b) / (s.m - n.m) ^ 2) n.m :=
      hasDerivAt_recip (n.b - s.b) (-1) s.m 0 (by rw [e]; exact h)
        (fun u => by rw [e]; ring) (by rw [e]; ring)
    refine (((hasDerivAt_id n.m).mul h1).add_const n.b).congr_deriv ?_
    simp only [id]
    ring
  · change HasDerivAt (fun u => n.m * ((n.b - u) / (s.m - n.m)) + n.b) (-n.m / (s.m - n.m)) s.b
    exact hasDerivAt_aff _ (n.m * n.b / (s.m - n.m) + n.b) _ fun u => by ring
  · change HasDerivAt (fun u => n.m * ((n.b - s.b) / (u - n.m)) + n.b)
      (-n.m * (n.b - s.b) / (s.m - n.m) ^ 2) s.m
    have e : ∀ u, (1 : ℝ) * u + -n.m = u - n.m := fun u => by ring
    exact hasDerivAt_recip (n.m * (n.b - s.b)) 1 (-n.m) n.b (by rw [e]; exact h)
      (fun u => by rw [e]; ring) (by rw [e]; ring)

/-- The error formula with a diagonal covariance. -/
theorem propagates_sqrt {k : ℕ} {f : (Fin k → ℝ) → ℝ} {p σ g v : Fin k → ℝ}
    (hg : ∀ i, HasDerivAt (fun u => f (Function.update p i u)) (g i) (p i))
    (hv : ∀ i, v i = σ i ^ 2) : Propagates f p σ (Real.sqrt (propagate g (Matrix.diagonal v))) := by
  refine ⟨g, hg, Real.sqrt_nonneg _, ?_⟩
  rw [propagate_diag, Real.sq_sqrt]
  · apply Finset.sum_congr rfl
    intro i _
    rw [hv]
    ring
  · apply Finset.sum_nonneg
    intro i _
    rw [hv]
    positivity

/-- Partial derivatives are unique, so the propagated error is. -/
theorem propagates_unique {k : ℕ} {f : (Fin k → ℝ) → ℝ} {p σ g : Fin k → ℝ} {e : ℝ}
    (hg : ∀ i, HasDerivAt (fun u => f (Function.update p i u)) (g i) (p i))
    (h : Propagates f p σ e) : e ^ 2 = ∑ i, (g i * σ i) ^ 2 := by
  obtain ⟨g', hg', _, he⟩ := h
  rw [he]
  apply Finset.sum_congr rfl
  intro i _
  rw [(hg i).unique (hg' i)]

/-! ### When the fits succeed -/

theorem wsum_eq_zero {f : Pt → ℝ} (hf : ∀ p, 0 ≤ f p) {l : List Pt} (h : wsum f l = 0) {p : Pt}
    (hp : p ∈ l) (hσ : p.σ ≠ 0) : f p = 0 := by
  induction l with
  | nil => simp at hp
  | cons q l ih =>
    rw [wsum_cons] at h
    have h1 : 0 ≤ f q / q.σ ^ 2 := div_nonneg (hf q) (by positivity)
    have h2 := wsum_nonneg hf l
    rcases List.mem_cons.1 hp with rfl | hp
    · have : f p / p.σ ^ 2 = 0 := by linarith
      rcases div_eq_zero_iff.1 this with h | h
      · exact h
      · exact absurd (pow_eq_zero_iff (two_ne_zero)|>.1 h) hσ
    · exact ih (by linarith) hp

theorem det_ne {l : List Pt} (hσ : ∀ p ∈ l, p.σ ≠ 0) {p q : Pt} (hp : p ∈ l) (hq : q ∈ l)
    (hne : p.x ≠ q.x) : det l ≠ 0 := by
  intro hd
  have hS : wsum (fun _ => 1) l ≠ 0 := fun h =>
    one_ne_zero (wsum_eq_zero (f := fun _ => 1) (fun _ => zero_le_one) h hp (hσ p hp))
  have e : wsum (fun p => (-wsum (fun p => p.x) l + wsum (fun _ => 1) l * p.x) ^ 2) l = 0 := by
    rw [wsum_quad]
    unfold det at hd
    linear_combination wsum (fun _ => 1) l * hd
  have key : ∀ r ∈ l, wsum (fun _ => 1) l * r.x = wsum (fun p => p.x) l := by
    intro r hr
    have := wsum_eq_zero (f := fun p => (-wsum (fun p => p.x) l + wsum (fun _ => 1) l * p.x) ^ 2)
      (fun p => by positivity) e hr (hσ r hr)
    have := pow_eq_zero_iff (two_ne_zero) |>.1 this
    linarith
  exact hne (mul_left_cancel₀ hS ((key p hp).trans (key q hq).symm))

theorem mapM_all {α β : Type} {f : α → Except Err β} {l : List α} (h : ∀ a ∈ l, ∃ b, f a = .ok b) :
    ∃ r, l.mapM f = .ok r := by
  induction l with
  | nil => exact ⟨[], rfl⟩
  | cons a l ih =>
    obtain ⟨b, hb⟩ := h a (List.mem_cons_self ..)
    obtain ⟨r, hr⟩ := ih fun a' h' => h a' (List.mem_cons_of_mem _ h')
    exact ⟨b :: r, by rw [List.mapM_cons, hb, hr]; rfl⟩

theorem fancy_of {α : Type} {row : List α} {inds : List ℤ} {l : List α}
    (h : List.Forall₂ (fun (i : ℤ) p => (0 ≤ i ∧ row[i.toNat]? = some p) ∨
      (i < 0 ∧ 0 ≤ i + row.length ∧ row[(i + row.length).toNat]? = some p)) inds l) :
    fancy row inds = .ok l := by
  unfold fancy
  induction h with
  | nil => rfl
  | cons h _ ih =>
    rw [List.mapM_cons, ih]
    rcases h with ⟨h0, h1⟩ | ⟨h0, h1, h2⟩
    · rw [if_neg (not_lt.2 h0), h1]
      simp only
      rw [if_neg (by omega)]
      rfl
    · rw [if_pos h0, h2]
      simp only
      rw [if_neg (by omega)]
      rfl

theorem curveFit_of {l : List Pt} (hσ : ∀ p ∈ l, p.σ ≠ 0) (h2 : 2 ≤ l.length) (hd : det l ≠ 0) :
    curveFit (l.map some) = .ok (solve l) := by
  unfold curveFit
  rw [if_neg, if_neg (by rw [List.length_map]; omega), Iv.filterMap_map_some, if_neg]
  · rintro (⟨p, hp, h⟩ | h)
    · exact hσ p hp h
    · exact hd h
  · rintro (h | h)
    · rw [List.map_eq_nil_iff] at h
      rw [h] at h2
      simp at h2
    · simp at h

/-- The fits of fittable data succeed. -/
theorem fits_of {o : Obj} {inds : List ℤ} (h : Fittable o inds) : ∃ nf, o.fits inds = .ok nf := by
  unfold Obj.fits
  refine mapM_all fun t ht => mapM_all fun c hc => ?_
  obtain ⟨l, b, m, hn, hσ, ⟨p, hp, q, hq, hne⟩, hb, hm⟩ :=
    h t (List.mem_range.1 ht) c (List.mem_range.1 hc)
  have hd := det_ne hσ hp hq hne
  have hlen : 2 ≤ l.length := by
    match l, hp, hq with
    | [], hp, _ => simp at hp
    | [a], hp, hq =>
      rw [List.mem_singleton] at hp hq
      rw [hp, hq] at hne
      exact absurd rfl hne
    | _ :: _ :: _, _, _ => simp
  have hf : fancy ((o.row t c).map pt) inds = .ok (l.map some) :=
    fancy_of (by rw [List.forall₂_map_right_iff]; exact hn)
  rw [hf]
  simp only [curveFit_of hσ hlen hd]
  obtain ⟨-, e⟩ := Iv.isBestLine_unique hb (solve_best hd)
  rw [if_neg (by rw [e]; exact hm)]
  exact ⟨_, rfl⟩

/-! ### A concrete object -/

/-- One temperature, one channel; normal points on the line `dites = ibias/2 + 1/2` at bias currents 3, 4, 5
and superconducting points on `dites = ibias` at −1, 0, 1. -/
noncomputable def demo (fitsc : Bool) (rp : Option (Nd ValErr)) : Obj where
  data := ⟨1, 1, 6, fun _ _ i => some (if i < 3 then ⟨i + 3, 0, (i + 3) / 2 + 1 / 2, 1⟩
    else ⟨i - 4, 0, i - 4, 1⟩)⟩
  rsh := 1
  rshErr := 0
  normalinds := [0, 1, 2]
  fitsc := fitsc
  scinds := some [3, 4, 5]
  rp := rp

/-- The normal points. -/
noncomputable def normPts : List Pt := [⟨3, 2, 1⟩, ⟨4, 5 / 2, 1⟩, ⟨5, 3, 1⟩]

/-- The superconducting points. -/
def scPts : List Pt := [⟨-1, -1, 1⟩, ⟨0, 0, 1⟩, ⟨1, 1, 1⟩]

theorem demo_row (fitsc : Bool) (rp : Option (Nd ValErr)) :
    ((demo fitsc rp).row 0 0).map pt = (normPts ++ scPts).map some := by
  simp only [demo, Obj.row, normPts, scPts, List.range_succ, List.range_zero]
  norm_num [pt]

theorem normPts_solve : det normPts = 6 ∧ solve normPts = ⟨1 / 2, 1 / 2, 50 / 6, 1 / 2, -2⟩ := by
  have hd : det normPts = 6 := by norm_num [det, wsum, normPts]
  refine ⟨hd, ?_⟩
  unfold solve
  rw [hd]
  norm_num [wsum, normPts]

theorem scPts_solve : det scPts = 6 ∧ solve scPts = ⟨0, 1, 1 / 3, 1 / 2, 0⟩ := by
  have hd : det scPts = 6 := by norm_num [det, wsum, scPts]
  refine ⟨hd, ?_⟩
  unfold solve
  rw [hd]
  norm_num [wsum, scPts]

theorem demo_fits (fitsc : Bool) (rp : Option (Nd ValErr)) :
    (demo fitsc rp).fits [0, 1, 2] = .ok [[⟨1 / 2, 1 / 2, 50 / 6, 1 / 2, -2⟩]] ∧
    (demo fitsc rp).fits [3, 4, 5] = .ok [[⟨0, 1, 1 / 3, 1 / 2, 0⟩]] := by
  have h1 : fancy ((normPts ++ scPts).map some) [0, 1, 2] = .ok (normPts.map some) := rfl
  have h2 : fancy ((normPts ++ scPts).map some) [3, 4, 5] = .ok (scPts.map some) := rfl
  have c1 := curveFit_of (l := normPts) (by simp [normPts]) (by simp [normPts])
    (by rw [normPts_solve.1]; norm_num)
  have c2 := curveFit_of (l := scPts) (by simp [scPts]) (by simp [scPts])
    (by rw [scPts_solve.1]; norm_num)
  have hr := demo_row fitsc rp
  constructor
  · simp only [Obj.fits]
    change (List.range 1).mapM (fun t => (List.range 1).mapM fun c => _) = _
    rw [show List.range 1 = [0] from rfl, List.mapM_cons, List.mapM_cons, hr, h1]
    simp only [c1, normPts_solve.2]
    rw [if_neg (by norm_num)]
    rfl
  · simp only [Obj.fits]
    change (List.range 1).mapM (fun t => (List.range 1).mapM fun c => _) = _
    rw [show List.range 1 = [0] from rfl, List.mapM_cons, List.mapM_cons, hr, h2]
    simp only [c2, scPts_solve.2]
    rw [if_neg (by norm_num)]
    rfl

theorem demo_sc (rp : Option (Nd ValErr)) : ∃ res, analyze (demo true rp) .none .none = .ok res ∧
    res.intN 0 0 = 1 / 2 ∧ res.slopeN 0 0 = 1 / 2 ∧ res.intSc 0 0 = 0 ∧ res.slopeSc 0 0 = 1 ∧
    res.ibiasOff 0 0 = ⟨1, intXErr ⟨1 / 2, 1 / 2, 50 / 6, 1 / 2, -2⟩ ⟨0, 1, 1 / 3, 1 / 2, 0⟩⟩ ∧
    res.ioff 0 0 = ⟨1, intYErr ⟨1 / 2, 1 / 2, 50 / 6, 1 / 2, -2⟩ ⟨0, 1, 1 / 3, 1 / 2, 0⟩⟩ ∧
    res.rfit 0 0 = ⟨2, 8⟩ ∧ res.rp 0 0 = ⟨0, 1 / 2⟩ := by
  obtain ⟨f1, f2⟩ := demo_fits true rp
  have hs : ((demo true rp).scFits [[⟨1 / 2, 1 / 2, 50 / 6, 1 / 2, -2⟩]]) =
      .ok ([[⟨0, 1, 1 / 3, 1 / 2, 0⟩]], .inr fun s => ⟨1 / s.m * (demo true rp).rsh - (demo true rp).rsh,
        Real.sqrt (((demo true rp).rsh * invVar s) ^ 2 +
          ((1 / s.m - 1) * (demo true rp).rshErr) ^ 2)⟩) := by
    rw [Obj.scFits, if_pos (show (demo true rp).fitsc = true from rfl)]
    change (match (demo true rp).fits [3, 4, 5] with | .error e => _ | .ok sf => _) = _
    rw [f2]
    simp only
    rw [if_neg (by simp [demo]), if_neg]
    rintro ⟨t, ht, c, hc, e⟩
    have ht : t = 0 := by simpa [demo] using ht
    have hc : c = 0 := by simpa [demo] using hc
    subst ht hc
    norm_num [fitAt] at e
  unfold analyze
  rw [show (demo true rp).normalinds = [0, 1, 2] from rfl, f1]
  simp only [hs, offsets, rpValues]
  refine ⟨_, rfl, rfl, rfl, rfl, rfl, ?_, ?_, ?_, ?_⟩
  · norm_num [assemble, fitAt, intX, demo]
  · norm_num [assemble, fitAt, intX, intY, demo]
  · norm_num [assemble, fitAt, invVar, demo]
    rw [show (64 : ℝ) = 8 ^ 2 by norm_num, Real.sqrt_sq (by norm_num)]
  · norm_num [assemble, fitAt, invVar, demo]
    rw [show (4 : ℝ) = 2 ^ 2 by norm_num, Real.sqrt_sq (by norm_num)]
    norm_num

theorem demo_nosc (v : ValErr) :
    ∃ res, analyze (demo false (some (.d3 ⟨1, 1, 6, fun _ _ _ => v⟩))) .none .none = .ok res ∧
    res.slopeN 0 0 = 1 / 2 ∧
    res.ibiasOff 0 0 = ⟨0, intXErr ⟨1 / 2, 1 / 2, 50 / 6, 1 / 2, -2⟩ noFit⟩ ∧
    res.ioff 0 0 = ⟨1 / 2, intYErr ⟨1 / 2, 1 / 2, 50 / 6, 1 / 2, -2⟩ noFit⟩ := by
  obtain ⟨f1, -⟩ := demo_fits false (some (.d3 ⟨1, 1, 6, fun _ _ _ => v⟩))
  unfold analyze
  rw [show (demo false (some (.d3 ⟨1, 1, 6, fun _ _ _ => v⟩))).normalinds = [0, 1, 2] from rfl, f1]
  refine ⟨_, rfl, rfl, ?_, ?_⟩
  · norm_num [assemble, fitAt, intX, demo]
  · norm_num [assemble, fitAt, intX, intY, demo]

end Verif.Ibis
