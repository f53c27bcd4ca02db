import Verif.DidvObjLemmas
import Verif.DidvProcSpec

/-! Helper lemmas for the averages that `processtraces` stores. -/

namespace Verif.Didv
open Verif

theorem kept_used (o : Obj) (nb : ℕ) : keptTraces o nb = (used o nb).map fun t i => t i / o.gain := by
  classical
  unfold keptTraces used
  rw [List.filter_map]
  congr 1
  refine List.filter_congr fun t _ => ?_
  simp [Usable]

theorem lmean_len {l : List ℝ} (h : l ≠ []) : (l.length : ℝ) * lmean l = l.sum := by
  have : (l.length : ℝ) ≠ 0 := by simpa using h
  unfold lmean
  field_simp

theorem lstd_stdErr {l : List ℝ} (h : l ≠ []) : IsStdErr l (lmean l) (lstd l / Real.sqrt l.length) := by
  have hl : (0 : ℝ) < l.length := by
    have : l.length ≠ 0 := by simpa using h
    exact_mod_cast Nat.pos_of_ne_zero this
  refine ⟨div_nonneg (Real.sqrt_nonneg _) (Real.sqrt_nonneg _), lmean_len h, ?_⟩
  have hs : (0 : ℝ) ≤ (l.map fun x => (x - lmean l) ^ 2).sum :=
    List.sum_nonneg fun y hy => by
      obtain ⟨x, -, rfl⟩ := List.mem_map.1 hy
      positivity
  unfold lstd
  rw [mul_pow, div_pow, Real.sq_sqrt hl.le, Real.sq_sqrt]
  · generalize hS : (l.map fun x => (x - lmean l) ^ 2) = q at *
    have hq : q.length = l.length := by rw [← hS]; simp
    unfold lmean
    rw [hq]
    field_simp
  · unfold lmean at hs ⊢
    positivity

theorem cmean_re (l : List ℂ) : (cmean l).re = lmean (l.map Complex.re) := by
  unfold cmean lmean
  rw [← Complex.ofReal_natCast, Complex.div_ofReal_re, List.length_map]
  congr 1
  induction l with
  | nil => simp
  | cons a l ih => simp [ih]

theorem cmean_im (l : List ℂ) : (cmean l).im = lmean (l.map Complex.im) := by
  unfold cmean lmean
  rw [← Complex.ofReal_natCast, Complex.div_ofReal_im, List.length_map]
  congr 1
  induction l with
  | nil => simp
  | cons a l ih => simp [ih]

/-- The sum over traces and bins in either order. -/
theorem sum_swap (l : List (ℕ → ℝ)) (nb : ℕ) :
    (l.map fun t => ((List.range nb).map t).sum).sum =
      ((List.range nb).map fun i => (l.map fun t => t i).sum).sum := by
  induction l with
  | nil => simp
  | cons t l ih =>
    simp only [List.map_cons, List.sum_cons, ih]
    rw [← List.sum_map_add]

theorem lmean_perm {l l' : List ℝ} (h : l.Perm l') : lmean l = lmean l' := by
  unfold lmean
  rw [h.sum_eq, h.length_eq]

theorem lstd_perm {l l' : List ℝ} (h : l.Perm l') : lstd l = lstd l' := by
  unfold lstd
  rw [lmean_perm h, lmean_perm (h.map _)]

theorem procOf_perm (o : Obj) (nb : ℕ) {l l' : List (ℕ → ℝ)} (h : l.Perm l') : procOf o nb l = procOf o nb l' := by
  have h1 : (fun i => lmean (l.map fun t => t i)) = fun i => lmean (l'.map fun t => t i) :=
    funext fun i => lmean_perm (h.map _)
  have h2 : ∀ k, cmean (l.map fun t => deconvVal nb (1 / o.fs) t o.rsh o.sgamp o.sgfreq o.duty k) =
      cmean (l'.map fun t => deconvVal nb (1 / o.fs) t o.rsh o.sgamp o.sgfreq o.duty k) := fun k => by
    unfold cmean
    rw [(h.map _).sum_eq, (h.map _).length_eq]
  have h3 : ∀ k, stdcomplex (l.map fun t => deconvVal nb (1 / o.fs) t o.rsh o.sgamp o.sgfreq o.duty k) =
      stdcomplex (l'.map fun t => deconvVal nb (1 / o.fs) t o.rsh o.sgamp o.sgfreq o.duty k) := fun k => by
    unfold stdcomplex
    rw [lstd_perm ((h.map _).map _), lstd_perm ((h.map _).map Complex.im)]
  unfold procOf
  simp only [h1, h2, h3, h.length_eq]
  rw [lmean_perm (h.map _), lstd_perm (h.map _)]

theorem kept_perm {o : Obj} {l : List (ℕ → ℝ)} (nb : ℕ) (h : o.raw.Perm l) :
    (keptTraces o nb).Perm (keptTraces { o with raw := l } nb) := by
  classical
  unfold keptTraces
  exact (h.map _).filter _

theorem kept_scale (o : Obj) (nb : ℕ) {c : ℝ} (hc : c ≠ 0) :
    keptTraces { o with raw := o.raw.map fun t i => c * t i, gain := c * o.gain } nb = keptTraces o nb := by
  unfold keptTraces
  simp only [List.map_map]
  congr 1
  refine List.map_congr_left fun t _ => funext fun i => ?_
  simp only [Function.comp]
  exact mul_div_mul_left _ _ hc

end Verif.Didv
