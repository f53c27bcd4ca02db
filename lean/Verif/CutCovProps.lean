import Verif.CutProps
import Mathlib.LinearAlgebra.Matrix.PosDef
import Mathlib.Algebra.BigOperators.Field

/-! Property C12: `itercov`. -/

namespace Verif.Cut
open Verif

variable {d : ℕ}

theorem isMeanVec_vmean {l : List (Fin d → ℝ)} (h : l ≠ []) : IsMeanVec l (vmean l) := by
  refine ⟨h, fun i => ?_⟩
  have h' : l.map (fun x => x i) ≠ [] := by simpa using h
  have := sum_eq_avg h'
  rw [List.length_map] at this
  rw [this, mul_comm]
  rfl

theorem isCov_vcov {l : List (Fin d → ℝ)} (h : 2 ≤ l.length) : IsCov l (vcov l) := by
  refine ⟨h, vmean l, isMeanVec_vmean (by rintro rfl; simp at h), fun i j => ?_⟩
  have : (l.length : ℝ) - 1 ≠ 0 := by
    have : (2 : ℝ) ≤ l.length := by exact_mod_cast h
    linarith
  unfold vcov
  field_simp

/-- The loop returns within the cap, and what it returns. -/
theorem covLoop_spec (ev : List (Fin d → ℝ)) (hev : 2 ≤ ev.length) (mc thr : ℝ) (maxiter : ℤ)
    (em : Fin d → ℝ) (ec : ℝ) (fuel : ℕ) :
    ∀ (mean : Fin d → ℝ) (cov : Matrix (Fin d) (Fin d) ℝ) (ns jj : ℕ),
      (maxiter + 1 - jj).toNat + 1 ≤ fuel →
      covLoop ev mc thr maxiter em ec fuel mean cov ns jj = some (.error .linAlgError) ∨
      ∃ m c mask p, covLoop ev mc thr maxiter em ec fuel mean cov ns jj =
          some (.ok (⟨some m, some c, mask⟩, p)) ∧
        p ≤ jj + ((maxiter + 1 - jj).toNat + 1) ∧ mask.length = ev.length ∧
        IsMeanVec (Selected ev mask) m ∧ IsCov (Selected ev mask) c := by
  induction fuel with
  | zero => intro _ _ _ _ h; omega
  | succ fuel ih =>
    intro mean cov ns jj hf
    unfold covLoop
    by_cases hdet : cov.det = 0
    · exact .inl (if_pos hdet)
    rw [if_neg hdet]
    set mask := covMask ev mean cov mc thr with hmask
    have hsel : Selected ev mask = sel ev mask := (sel_eq_selected _ _).symm
    have hlen : mask.count true = (sel ev mask).length := by
      rw [hmask]
      unfold covMask
      rw [count_map, sel_map]
    simp only
    by_cases h1 : mask.count true ≤ 1
    · rw [if_pos h1]
      refine .inr ⟨_, _, _, _, rfl, by omega, List.length_replicate, ?_, ?_⟩
      all_goals rw [← sel_eq_selected, sel_replicate]
      · exact isMeanVec_vmean (by rintro rfl; simp at hev)
      · exact isCov_vcov hev
    · rw [if_neg h1]
      have h2 : 2 ≤ (sel ev mask).length := by omega
      have hret : ∀ p, p ≤ jj + ((maxiter + 1 - jj).toNat + 1) →
          (some (Except.ok (⟨some (vmean (sel ev mask)), some (vcov (sel ev mask)), mask⟩, p)) :
              Option (Except Err (CovStat d × ℕ))) = some (.error .linAlgError) ∨
          ∃ m c mask' p', (some (Except.ok (⟨some (vmean (sel ev mask)),
              some (vcov (sel ev mask)), mask⟩, p)) : Option (Except Err (CovStat d × ℕ))) =
              some (.ok (⟨some m, some c, mask'⟩, p')) ∧
            p' ≤ jj + ((maxiter + 1 - jj).toNat + 1) ∧ mask'.length = ev.length ∧
            IsMeanVec (Selected ev mask') m ∧ IsCov (Selected ev mask') c := by
        intro p hp
        refine .inr ⟨_, _, _, _, rfl, hp, List.length_map _, ?_, ?_⟩
        · rw [hsel]
          exact isMeanVec_vmean (by intro h; simp [h] at h2)
        · rw [hsel]
          exact isCov_vcov h2
      have hrec : ∀ ns', ¬ (jj : ℤ) > maxiter →
          covLoop ev mc thr maxiter em ec fuel (vmean (sel ev mask)) (vcov (sel ev mask)) ns'
              (jj + 1) = some (.error .linAlgError) ∨
          ∃ m c mask' p', covLoop ev mc thr maxiter em ec fuel (vmean (sel ev mask))
              (vcov (sel ev mask)) ns' (jj + 1) = some (.ok (⟨some m, some c, mask'⟩, p')) ∧
            p' ≤ jj + ((maxiter + 1 - jj).toNat + 1) ∧ mask'.length = ev.length ∧
            IsMeanVec (Selected ev mask') m ∧ IsCov (Selected ev mask') c := by
        intro ns' hj
        rcases ih (vmean (sel ev mask)) (vcov (sel ev mask)) ns' (jj + 1)
          (by push_cast; omega) with h | ⟨m, c, mk, p, e, hp, hr⟩
        · exact .inl h
        · exact .inr ⟨m, c, mk, p, e, by push_cast at hp; omega, hr⟩
      split_ifs with h3 h4 h5
      · exact hret _ (by omega)
      · exact hrec _ (fun h => h4 (.inr h))
      · exact hret _ (by omega)
      · exact hrec _ (fun h => h5 (.inr h))

/-- The number of events a user passed. -/
def CovArgs.events : CovArgs → ℕ
  | .scalars _ => 0
  | .vectors v => (v.headD []).length
  | .arrays v => ((v.head?.map fun a => a.2.length).getD 0)

/-- At least two variables: two or more vectors of one length, or arrays of one shape with a number
of columns other than one. -/
def CovArgs.WellFormed : CovArgs → Prop
  | .scalars _ => False
  | .vectors v => 2 ≤ v.length ∧ ∃ n, ∀ w ∈ v, w.length = n
  | .arrays v => v ≠ [] ∧ ∃ c r, c ≠ 1 ∧ ∀ a ∈ v, a.1 = c ∧ a.2.length = r

theorem covData_spec (a : CovArgs) :
    (a.WellFormed → ∃ d ev, covData a = .ok (d, ev) ∧ ev.length = a.events) ∧
    (¬ a.WellFormed → covData a = .error .valueError) := by
  rcases a with v | v | v
  · exact ⟨fun h => h.elim, fun _ => rfl⟩
  · rcases v with _ | ⟨v, vs⟩
    · exact ⟨fun h => by simp [CovArgs.WellFormed] at h, fun _ => rfl⟩
    · rw [covData]
      by_cases hall : ∀ w ∈ vs, w.length = v.length
      · have hd : (vs.all fun w => decide (w.length = v.length)) = true := by
          simpa using hall
        rw [if_pos hd]
        by_cases hn : vs = []
        · rw [if_pos hn]
          subst hn
          exact ⟨fun h => by simp [CovArgs.WellFormed] at h, fun _ => rfl⟩
        · rw [if_neg hn]
          refine ⟨fun _ => ⟨_, _, rfl, by simp [CovArgs.events]⟩, fun h => absurd ?_ h⟩
          refine ⟨?_, v.length, ?_⟩
          · have := List.length_pos_iff.2 hn
            simp
            omega
          · intro w hw
            rcases List.mem_cons.1 hw with rfl | hw
            · rfl
            · exact hall w hw
      · have hd : ¬ (vs.all fun w => decide (w.length = v.length)) = true := by
          simpa using hall
        rw [if_neg hd]
        refine ⟨?_, fun _ => rfl⟩
        rintro ⟨_, n, hn⟩
        exact absurd (fun w hw => (hn w (by simp [hw])).trans (hn v (by simp)).symm) hall
  · rcases v with _ | ⟨a, as⟩
    · exact ⟨fun h => by simp [CovArgs.WellFormed] at h, fun _ => rfl⟩
    · rw [covData]
      by_cases hall : ∀ b ∈ as, b.1 = a.1 ∧ b.2.length = a.2.length
      · have hd : (as.all fun b => decide (b.1 = a.1 ∧ b.2.length = a.2.length)) = true := by
          rw [List.all_eq_true]
          exact fun b hb => decide_eq_true (hall b hb)
        rw [if_pos hd]
        by_cases hn : a.1 = 1
        · rw [if_pos hn]
          refine ⟨?_, fun _ => rfl⟩
          rintro ⟨_, c, r, hc, h⟩
          exact absurd ((h a (by simp)).1.symm.trans hn) hc
        · rw [if_neg hn]
          refine ⟨fun _ => ⟨_, _, rfl, by simp [CovArgs.events]⟩, fun h => absurd ?_ h⟩
          refine ⟨by simp, a.1, a.2.length, hn, ?_⟩
          intro b hb
          rcases List.mem_cons.1 hb with rfl | hb
          · exact ⟨rfl, rfl⟩
          · exact hall b hb
      · have hd : ¬ (as.all fun b => decide (b.1 = a.1 ∧ b.2.length = a.2.length)) = true := by
          rw [List.all_eq_true]
          exact fun h => hall fun b hb => of_decide_eq_true (h b hb)
        rw [if_neg hd]
        refine ⟨?_, fun _ => rfl⟩
        rintro ⟨_, c, r, _, h⟩
        refine absurd (fun b hb => ?_) hall
        have h1 := h a (by simp)
        have h2 := h b (by simp [hb])
        exact ⟨h2.1.trans h1.1.symm, h2.2.trans h1.2.symm⟩

/-- `itercov` raises ValueError for data that is not at least two variables. -/
theorem itercov_malformed (ppf : ℕ → ℝ) (fuel : ℕ) (args : CovArgs) (nsigma : ℝ)
    (threshold : Option ℝ) (maxiter : ℤ) (fracerr : ℝ) (h : ¬ args.WellFormed) :
    itercov ppf fuel args nsigma threshold maxiter fracerr = some (.error .valueError) := by
  unfold itercov
  rw [(covData_spec args).2 h]

/-- On well-formed data `itercov` ends after at most `maxiter + 2` passes (one if `maxiter` is
smaller).  It either raises LinAlgError, because a covariance matrix is singular, or returns a mask
with one entry per event together with the mean and covariance of the selected events. -/
theorem itercov_terminates (ppf : ℕ → ℝ) (fuel : ℕ) (args : CovArgs) (nsigma : ℝ)
    (threshold : Option ℝ) (maxiter : ℤ) (fracerr : ℝ) (h : args.WellFormed)
    (hev : 2 ≤ args.events) (hf : (maxiter + 1).toNat + 1 ≤ fuel) :
    itercov ppf fuel args nsigma threshold maxiter fracerr = some (.error .linAlgError) ∨
    ∃ d rows m c mask p, covData args = .ok (d, rows) ∧
      itercov ppf fuel args nsigma threshold maxiter fracerr =
        some (.ok ⟨d, ⟨some m, some c, mask⟩, p⟩) ∧
      p ≤ (maxiter + 1).toNat + 1 ∧ mask.length = args.events ∧
      IsMeanVec (Selected (rows.map fun r (i : Fin d) => r.getD i 0) mask) m ∧
      IsCov (Selected (rows.map fun r (i : Fin d) => r.getD i 0) mask) c := by
  obtain ⟨d, rows, hd, hrows⟩ := (covData_spec args).1 h
  unfold itercov
  rw [hd]
  set ev := rows.map fun r (i : Fin d) => r.getD i 0 with hevd
  have hlen : ev.length = args.events := by rw [hevd, List.length_map, hrows]
  have h2 : 2 ≤ ev.length := by omega
  have hne : ev ≠ [] := by intro h; rw [h] at h2; simp at h2
  have hn1 : ev.length ≠ 1 := by omega
  have key := covLoop_spec ev h2 (d + nsigma * Real.sqrt (2 * d)) (threshold.getD (max 3 (ppf d)))
    maxiter (fun i => fracerr * Real.sqrt (vcov ev i i))
    (fracerr * ∑ i, Real.sqrt (vcov ev i i) ^ 2) fuel (vmean ev) (vcov ev) 0 0
    (by push_cast; rwa [sub_zero])
  have e : itercovEv ppf fuel ev nsigma threshold maxiter fracerr =
      covLoop ev (d + nsigma * Real.sqrt (2 * d)) (threshold.getD (max 3 (ppf d)))
        maxiter (fun i => fracerr * Real.sqrt (vcov ev i i))
        (fracerr * ∑ i, Real.sqrt (vcov ev i i) ^ 2) fuel (vmean ev) (vcov ev) 0 0 := by
    unfold itercovEv
    rw [if_neg hne, if_neg hn1]
  simp only [← hevd] at *
  rw [e]
  rcases key with hk | ⟨m, c, mask, p, hk, hp, hm, h3, h4⟩
  · rw [hk]
    exact .inl rfl
  · rw [hk]
    refine .inr ⟨d, rows, m, c, mask, p, rfl, rfl, ?_, by omega, h3, h4⟩
    push_cast at hp
    rw [sub_zero] at hp
    omega

/-- The events `(0,0), (1,0), (0,1)` meet the hypotheses. -/
example : (CovArgs.vectors [[0, 1, 0], [0, 0, 1]]).WellFormed ∧
    2 ≤ (CovArgs.vectors [[0, 1, 0], [0, 0, 1]]).events :=
  ⟨⟨by simp, 3, by simp⟩, by simp [CovArgs.events]⟩

/-- Fewer than two events, whose covariance is not a number, are all kept after one pass. -/
theorem itercov_few (ppf : ℕ → ℝ) (fuel : ℕ) (args : CovArgs) (nsigma : ℝ)
    (threshold : Option ℝ) (maxiter : ℤ) (fracerr : ℝ) (h : args.WellFormed) (hev : args.events < 2) :
    ∃ d m, itercov ppf fuel args nsigma threshold maxiter fracerr =
      some (.ok ⟨d, ⟨m, none, List.replicate args.events true⟩, 1⟩) ∧ (args.events = 1 → m ≠ none) := by
  obtain ⟨d, rows, hd, hrows⟩ := (covData_spec args).1 h
  unfold itercov
  rw [hd]
  set ev := rows.map fun r (i : Fin d) => r.getD i 0 with hevd
  have hlen : ev.length = args.events := by rw [hevd, List.length_map, hrows]
  simp only [← hevd]
  unfold itercovEv
  by_cases h0 : ev = []
  · rw [if_pos h0]
    rw [h0] at hlen
    refine ⟨d, none, by simp [← hlen]; rfl, fun h1 => ?_⟩
    rw [h1] at hlen
    cases hlen
  · have h1 : ev.length = 1 := by
      have := List.length_pos_iff.2 h0
      omega
    rw [if_neg h0, if_pos h1, ← hlen, h1]
    exact ⟨d, some (vmean ev), rfl, fun _ => by simp⟩

example : (CovArgs.vectors [[5], [7]]).WellFormed ∧ (CovArgs.vectors [[5], [7]]).events < 2 :=
  ⟨⟨by simp, 1, by simp⟩, by simp [CovArgs.events]⟩

/-- Singular data do occur: the same variable given twice raises LinAlgError. -/
theorem itercov_singular (ppf : ℕ → ℝ) (fuel : ℕ) (v : List ℝ) (hv : 2 ≤ v.length) (nsigma : ℝ)
    (threshold : Option ℝ) (maxiter : ℤ) (fracerr : ℝ) :
    itercov ppf (fuel + 1) (.vectors [v, v]) nsigma threshold maxiter fracerr =
      some (.error .linAlgError) := by
  unfold itercov
  rw [covData, if_pos (by simp), if_neg (by simp)]
  simp only [List.length_cons, List.length_nil]
  set ev : List (Fin 2 → ℝ) := List.map (fun r (i : Fin 2) => r.getD i 0)
    ((List.range v.length).map fun (i : ℕ) => [v, v].map fun w => w.getD i 0) with hev
  have hl : ev.length = v.length := by simp [hev]
  have hne : ev ≠ [] := by rintro h; rw [h] at hl; simp at hl; omega
  have hrow : ∀ x ∈ ev, x 0 = x 1 := by
    intro x hx
    simp only [hev, List.mem_map] at hx
    obtain ⟨_, ⟨i, _, rfl⟩, rfl⟩ := hx
    rfl
  have hm : vmean ev 0 = vmean ev 1 := by
    unfold vmean
    rw [List.map_congr_left hrow]
  have hdet : (vcov ev).det = 0 := by
    refine Matrix.det_zero_of_row_eq (i := 0) (j := 1) (by decide) ?_
    ext j
    unfold vcov
    congr 2
    refine List.map_congr_left fun x hx => ?_
    rw [hrow x hx, hm]
  have e : itercovEv ppf (fuel + 1) ev nsigma threshold maxiter fracerr =
      some (.error .linAlgError) := by
    unfold itercovEv
    rw [if_neg hne, if_neg (by omega)]
    unfold covLoop
    exact if_pos hdet
  simp only [Nat.reduceAdd]
  rw [e]
  rfl

/-- The covariance `itercov` returns is symmetric and positive semidefinite. -/
theorem cov_posSemidef {l : List (Fin d → ℝ)} {c : Matrix (Fin d) (Fin d) ℝ} (h : IsCov l c) :
    c.PosSemidef := by
  obtain ⟨h2, m, _, hc⟩ := h
  have hpos : (0 : ℝ) < (l.length : ℝ) - 1 := by
    have : (2 : ℝ) ≤ l.length := by exact_mod_cast h2
    linarith
  have hc' : ∀ i j, c i j = (l.map fun x => (x i - m i) * (x j - m j)).sum / (l.length - 1) :=
    fun i j => by rw [← hc i j]; field_simp
  refine Matrix.PosSemidef.of_dotProduct_mulVec_nonneg ?_ ?_
  · ext i j
    rw [Matrix.conjTranspose_apply, hc', hc', star_trivial]
    congr 3
    ext x
    ring
  · intro v
    have key : ∀ q : List (Fin d → ℝ),
        ∑ i, v i * ∑ j, (q.map fun x => (x i - m i) * (x j - m j)).sum * v j =
          (q.map fun x => (∑ i, v i * (x i - m i)) ^ 2).sum := by
      intro q
      induction q with
      | nil => simp
      | cons a q ih =>
        simp only [List.map_cons, List.sum_cons, add_mul, Finset.sum_add_distrib, mul_add]
        rw [ih, sq, Finset.sum_mul_sum]
        congr 1
        refine Finset.sum_congr rfl fun i _ => ?_
        rw [Finset.mul_sum]
        refine Finset.sum_congr rfl fun j _ => ?_
        ring
    have e : star v ⬝ᵥ c.mulVec v =
        (l.map fun x => (∑ i, v i * (x i - m i)) ^ 2).sum / (l.length - 1) := by
      rw [← key, dotProduct, Finset.sum_div]
      refine Finset.sum_congr rfl fun i _ => ?_
      rw [Pi.star_apply, star_trivial, mul_div_assoc, Finset.sum_div]
      congr 1
      rw [Matrix.mulVec, dotProduct]
      refine Finset.sum_congr rfl fun j _ => ?_
      rw [hc']
      ring
    rw [e]
    apply div_nonneg _ hpos.le
    apply List.sum_nonneg
    simp only [List.mem_map]
    rintro _ ⟨x, _, rfl⟩
    positivity

end Verif.Cut
