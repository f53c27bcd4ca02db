import Verif.CutCovUnitLemmas

/-! Property C104: which events `itercov` keeps, and the units of its variables. -/

namespace Verif.Cut
open Verif Matrix

/-- The mask `itercov` returns.  There is a selection (of all events, or of a pass before) whose
covariance is not singular, such that the returned mask keeps exactly the events that lie, with
respect to the mean and covariance of that selection, inside the ellipsoid of squared radius
`d + nsigma √(2d)` and within the threshold on both sides in every variable.  If not two events lie
there, all events are kept. -/
theorem itercov_selects (ppf : ℕ → ℝ) (fuel : ℕ) (args : CovArgs) (nsigma : ℝ)
    (threshold : Option ℝ) (maxiter : ℤ) (fracerr : ℝ) (h : args.WellFormed)
    (hev : 2 ≤ args.events) (d : ℕ) (s : CovStat d) (p : ℕ)
    (hr : itercov ppf fuel args nsigma threshold maxiter fracerr = some (.ok ⟨d, s, p⟩)) :
    ∃ rows, covData args = .ok (d, rows) ∧ s.mask.length = rows.length ∧
      ∃ mask' m c, mask'.length = rows.length ∧
        IsMeanVec (Selected (rows.map fun r (i : Fin d) => r.getD i 0) mask') m ∧
        IsCov (Selected (rows.map fun r (i : Fin d) => r.getD i 0) mask') c ∧ c.det ≠ 0 ∧
        ((2 ≤ s.mask.count true ∧ ∀ k (hk : k < rows.length), s.mask[k]? = some true ↔
            InEllipsoid m c (d + nsigma * Real.sqrt (2 * d)) (fun i => (rows[k]).getD i 0) ∧
            InBox m c (allowed threshold (ppf d)) (fun i => (rows[k]).getD i 0)) ∨
          ((∀ k, k < rows.length → s.mask[k]? = some true) ∧
            ∀ j k (hj : j < rows.length) (hk : k < rows.length), j ≠ k →
              ¬ ((InEllipsoid m c (d + nsigma * Real.sqrt (2 * d)) (fun i => (rows[j]).getD i 0) ∧
                InBox m c (allowed threshold (ppf d)) (fun i => (rows[j]).getD i 0)) ∧
                InEllipsoid m c (d + nsigma * Real.sqrt (2 * d)) (fun i => (rows[k]).getD i 0) ∧
                InBox m c (allowed threshold (ppf d)) (fun i => (rows[k]).getD i 0)))) := by
  obtain ⟨d', rows, hd, hrows⟩ := (covData_spec args).1 h
  unfold itercov at hr
  rw [hd] at hr
  simp only at hr
  have hthr : threshold.getD (max 3 (ppf d')) = allowed threshold (ppf d') := by
    rcases threshold with _ | t
    · simp only [Option.getD_none, allowed, max_def]
    · rfl
  set ev := rows.map fun r (i : Fin d') => r.getD i 0 with hevd
  have hlen : ev.length = rows.length := by rw [hevd, List.length_map]
  have h2 : 2 ≤ ev.length := by omega
  have hne : ev ≠ [] := by intro h; rw [h] at h2; simp at h2
  have hn1 : ev.length ≠ 1 := by omega
  unfold itercovEv at hr
  rw [if_neg hne, if_neg hn1] at hr
  simp only at hr
  rw [hthr] at hr
  rw [Option.map_eq_some_iff] at hr
  obtain ⟨r, hr, he⟩ := hr
  rcases r with e | ⟨s', p'⟩
  · cases he
  have he' : (⟨d', (s', p')⟩ : (d : ℕ) × CovStat d × ℕ) = ⟨d, (s, p)⟩ := by
    simpa [Except.map] using he
  obtain ⟨rfl, he''⟩ := Sigma.mk.inj he'
  have hss := eq_of_heq he''
  simp only [Prod.mk.injEq] at hss
  obtain ⟨rfl, rfl⟩ := hss
  have hall : Selected ev (List.replicate ev.length true) = ev := by
    rw [← sel_eq_selected, sel_replicate]
  obtain ⟨mask', m, c, hl, hm, hc, hdet, hcase⟩ := covLoop_selects ev _ _ _ _ _ fuel
    (List.replicate ev.length true) 0 0 s' p' List.length_replicate (by rw [hall]; exact h2)
    (by rw [hall]; exact hr)
  have hget : ∀ k (hk : k < rows.length), ev[k]'(by omega) =
      fun i : Fin d' => (rows[k]).getD i 0 := by
    intro k hk
    simp only [hevd, List.getElem_map]
  refine ⟨rows, hd, ?_, mask', m, c, by omega, hm, hc, hdet, ?_⟩
  · rcases hcase with ⟨e, _⟩ | ⟨e, _⟩
    · rw [e, List.length_replicate, hlen]
    · rw [e]
      unfold covMask
      rw [List.length_map, hlen]
  · rcases hcase with ⟨e, h1⟩ | ⟨e, h1⟩
    · right
      refine ⟨fun k hk => ?_, ?_⟩
      · rw [e, List.getElem?_replicate, if_pos (by omega)]
      · intro j k hj hk hjk ⟨ha, hb⟩
        rw [← hget j hj] at ha
        rw [← hget k hk] at hb
        have ha' := (covMask_iff hdet _ _ j (by omega)).2 ha
        have hb' := (covMask_iff hdet _ _ k (by omega)).2 hb
        exact absurd h1 (not_le.2 (two_le_count hjk ha' hb'))
    · left
      refine ⟨h1, fun k hk => ?_⟩
      rw [e, covMask_iff hdet _ _ k (by omega), hget k hk]

/-- Data meeting the hypotheses: three events, and `itercov` returns (with `nsigma = 100` nothing is
cut). -/
example : (CovArgs.vectors [[0, 1, 0], [0, 0, 1]]).WellFormed ∧
    2 ≤ (CovArgs.vectors [[0, 1, 0], [0, 0, 1]]).events :=
  ⟨⟨by simp, 3, by simp⟩, by simp [CovArgs.events]⟩

/-- One scale for all variables and any shift of each do not matter: the mask is the same, the mean
is shifted and scaled, the covariance scales with the square.  (A scale of its own for each
variable is missing: `itercov_units_violated`.) -/
theorem itercov_units_partial (ppf : ℕ → ℝ) (fuel : ℕ) {d : ℕ} (hd : d ≠ 1) (rows : List (List ℝ))
    (a : ℝ) (ha : a ≠ 0) (b : Fin d → ℝ) (nsigma : ℝ) (threshold : Option ℝ) (maxiter : ℤ)
    (fracerr : ℝ) :
    itercov ppf fuel (.arrays [(d, rows.map (affineRow a b))]) nsigma threshold maxiter fracerr =
      (itercov ppf fuel (.arrays [(d, rows)]) nsigma threshold maxiter fracerr).map fun r =>
        r.map fun q => ⟨q.1, ⟨q.2.1.mean.map fun m i => if h : i < d then a * m i + b ⟨i, h⟩ else 0,
          q.2.1.cov.map fun c => a ^ 2 • c, q.2.1.mask⟩, q.2.2⟩ := by
  have hcd : ∀ rws : List (List ℝ), covData (.arrays [(d, rws)]) = .ok (d, rws) := by
    intro rws
    simp [covData, hd]
  unfold itercov
  rw [hcd, hcd]
  simp only
  have e : (rows.map (affineRow a b)).map (fun r (i : Fin d) => r.getD i 0) =
      (rows.map fun r (i : Fin d) => r.getD i 0).map (aff a b) := by
    rw [List.map_map, List.map_map]
    apply List.map_congr_left
    intro r _
    funext i
    simp [Function.comp, affineRow, aff]
  rw [e, itercovEv_aff ppf ha b]
  generalize itercovEv ppf fuel (rows.map fun r (i : Fin d) => r.getD i 0) nsigma threshold maxiter
    fracerr = r
  rcases r with _ | _ | ⟨⟨m, c, k⟩, p⟩
  · rfl
  · rfl
  · simp only [Option.map_some, Except.map, CovStat.aff]
    congr 6
    funext m i
    simp [aff]

/-- The example: sixteen events in two variables. -/
def unitRows (s : ℝ) : List (List ℝ) :=
  ([1, 10, 100, 1000] : List ℝ).flatMap fun L => [[L, s], [-L, s], [L, -s], [-L, -s]]

/-- `unitRows s` is `unitRows 1` with the second variable in other units. -/
example (s : ℝ) : unitRows s = (unitRows 1).map fun r => [r.getD 0 0, s * r.getD 1 0] := by
  simp [unitRows]

/-- The units of a single variable do matter: the same sixteen events, with the second variable
given in units a thousand times smaller, keep eight events instead of four.  The tolerance on the
covariance adds up the variances of all variables. -/
theorem itercov_units_violated (ppf : ℕ → ℝ) :
    (∃ s p, itercov ppf 20 (.arrays [(2, unitRows 1)]) 100 (some (5 / 4)) 15 (1 / 2) =
      some (.ok ⟨2, s, p⟩) ∧ s.mask.count true = 4) ∧
    ∃ s p, itercov ppf 20 (.arrays [(2, unitRows 1000)]) 100 (some (5 / 4)) 15 (1 / 2) =
      some (.ok ⟨2, s, p⟩) ∧ s.mask.count true = 8 := by
  have hrows : ∀ s, (unitRows s).map (fun r (i : Fin 2) => r.getD i 0) =
      levels s [1, 10, 100, 1000] := by
    intro s
    have hp : ∀ x y : ℝ, (fun i : Fin 2 => [x, y].getD i 0) = ![x, y] := by
      intro x y
      funext i
      fin_cases i <;> rfl
    simp only [unitRows, levels, block, List.flatMap_cons, List.flatMap_nil, List.map_append,
      List.map_cons, List.map_nil, hp]
  have hcd : ∀ rws : List (List ℝ), covData (.arrays [(2, rws)]) = .ok (2, rws) := by
    intro rws
    simp [covData]
  have hC : ∀ s (n : ℕ) (L : List ℝ) (q : ℝ), L.length = n → (L.map fun L => L ^ 2).sum = q →
      levelCov s L = !![4 * q / (4 * n - 1), 0; 0, 4 * (n * s ^ 2) / (4 * n - 1)] := by
    rintro s n L q rfl rfl
    rfl
  have c4 := fun s => hC s 4 [1, 10, 100, 1000] 1010101 rfl (by norm_num)
  have c3 := fun s => hC s 3 [1, 10, 100] 10101 rfl (by norm_num)
  have c2 := fun s => hC s 2 [1, 10] 101 rfl (by norm_num)
  have c1 := fun s => hC s 1 [1] 1 rfl (by norm_num)
  have hmc : ((2 : ℕ) : ℝ) + 100 * Real.sqrt (2 * ((2 : ℕ) : ℝ)) = 202 := by
    rw [show (2 * ((2 : ℕ) : ℝ)) = 2 ^ 2 by norm_num, Real.sqrt_sq (by norm_num)]
    norm_num
  have start : ∀ s, itercovEv ppf 20 (levels s [1, 10, 100, 1000]) 100 (some (5 / 4)) 15 (1 / 2) =
      covLoop (levels s [1, 10, 100, 1000]) 202 (5 / 4) 15
        (fun i => 1 / 2 * Real.sqrt (levelCov s [1, 10, 100, 1000] i i))
        (1 / 2 * (4 * 1010101 / 15 + 16 * s ^ 2 / 15)) 20 (fun _ => 0)
        (levelCov s [1, 10, 100, 1000]) 0 0 := by
    intro s
    unfold itercovEv
    rw [if_neg (by simp [levels, block]), if_neg (by rw [levels_length]; simp)]
    simp only [Option.getD_some]
    rw [hmc, vmean_levels, vcov_levels]
    congr 2
    rw [Fin.sum_univ_two, c4]
    simp only [of_apply, cons_val', cons_val_zero, cons_val_one, cons_val_fin_one]
    rw [Real.sq_sqrt (by norm_num), Real.sq_sqrt (by norm_num; positivity)]
    norm_num
    ring
  have hem : ∀ s, ∀ i, 0 ≤ 1 / 2 * Real.sqrt (levelCov s [1, 10, 100, 1000] i i) :=
    fun s i => by positivity
  have hec : ∀ s : ℝ, 0 ≤ 1 / 2 * (4 * 1010101 / 15 + 16 * s ^ 2 / 15) := fun s => by positivity
  constructor
  · unfold itercov
    rw [hcd]
    simp only
    rw [hrows, start]
    rw [covLoop_levels 1 _ _ [1, 10, 100] _ _ _ _ (hem 1) (hec 1) 19 0 0 (by norm_num)
      (by norm_num) (c4 1) (by norm_num [List.filter, keepP]) (by simp) 0
      (by rw [c3]; norm_num [abs_of_neg, abs_of_pos])]
    rw [if_neg (by norm_num)]
    rw [covLoop_levels 1 _ _ [1, 10] _ _ _ _ (hem 1) (hec 1) 18 0 1 (by norm_num)
      (by norm_num) (c3 1) (by norm_num [List.filter, keepP]) (by simp) 1
      (by rw [c2]; norm_num [abs_of_neg, abs_of_pos])]
    rw [if_neg (by norm_num)]
    rw [covLoop_levels 1 _ _ [1] _ _ _ _ (hem 1) (hec 1) 17 1 2 (by norm_num)
      (by norm_num) (c2 1) (by norm_num [List.filter, keepP]) (by simp) 2
      (by rw [c1]; norm_num [abs_of_neg, abs_of_pos])]
    rw [if_pos (by norm_num)]
    refine ⟨_, _, rfl, ?_⟩
    norm_num [keepP, List.replicate]
  · unfold itercov
    rw [hcd]
    simp only
    rw [hrows, start]
    rw [covLoop_levels 1000 _ _ [1, 10, 100] _ _ _ _ (hem 1000) (hec 1000) 19 0 0 (by norm_num)
      (by norm_num) (c4 1000) (by norm_num [List.filter, keepP]) (by simp) 1
      (by rw [c3]; norm_num [abs_of_neg, abs_of_pos])]
    rw [if_neg (by norm_num)]
    rw [covLoop_levels 1000 _ _ [1, 10] _ _ _ _ (hem 1000) (hec 1000) 18 1 1 (by norm_num)
      (by norm_num) (c3 1000) (by norm_num [List.filter, keepP]) (by simp) 2
      (by rw [c2]; norm_num [abs_of_neg, abs_of_pos])]
    rw [if_pos (by norm_num)]
    refine ⟨_, _, rfl, ?_⟩
    norm_num [keepP, List.replicate]

end Verif.Cut
