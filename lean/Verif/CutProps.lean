import Verif.CutLemmas
import Verif.CutSpec

/-! Properties C10 and C11: `removeoutliers` and `iterstat`. -/

namespace Verif.Cut
open Verif

/-! ### C11: `iterstat` -/

/-- `iterstat` returns, for all data, every cut and every non-negative precision: the loop, which
the code does not cap, always ends.  (The result does not depend on the fuel once there is enough
of it.) -/
theorem iterstat_returns (data : List ℝ) (cut precision : ℝ) (hp : 0 ≤ precision) :
    ∃ F r, ∀ f ≥ F, iterstat f data cut precision = some r := by
  by_cases h : data = []
  · exact ⟨0, _, fun f _ => if_pos h⟩
  · obtain ⟨F, r, hr⟩ := isLoop_terminates data cut (stdcutoff_nonneg data hp)
    refine ⟨F, r, fun f hf => ?_⟩
    unfold iterstat
    rw [if_neg h]
    exact isLoop_mono _ _ _ hr hf

/-- With a negative precision it can loop for ever. -/
theorem iterstat_negative_precision (f : ℕ) : iterstat f [0, 1] 3 (-1) = none := by
  have ha : avg [0, 1] = 1 / 2 := by norm_num [avg]
  have hs : std [0, 1] = 1 / 2 := by
    unfold std
    rw [show moment 2 [0, 1] = (1 / 2) ^ 2 by norm_num [moment, ha, avg]]
    exact Real.sqrt_sq (by norm_num)
  have hk : keep [0, 1] 3 (1 / 2) (1 / 2) = [0, 1] := by
    unfold keep
    rw [List.filter_eq_self]
    intro x hx
    rw [decide_eq_true_iff]
    rcases List.mem_cons.1 hx with rfl | hx
    · norm_num [abs_lt]
    · rw [List.mem_singleton] at hx
      subst hx
      norm_num [abs_lt]
  unfold iterstat
  rw [if_neg (by simp), ha, hs]
  have hc : stdcutoff [0, 1] (-1) < ((0 : ℝ) : WithTop ℝ) := by
    unfold stdcutoff
    rw [if_neg (by norm_num), hs]
    exact_mod_cast (by norm_num : (1 / 2 : ℝ) / -1 < 0)
  induction f with
  | zero => rfl
  | succ f ih =>
    rw [isLoop_succ, hk, ha, hs, sub_self, abs_zero, if_neg (by simp)]
    simp only [hc, or_self, if_true]
    rw [if_neg (by omega)]
    exact ih

/-- Whenever `iterstat` returns: the mask has one entry per point, the mean and standard deviation
are those of the selected points, at least two points are selected or else all of them are, and
the selection has no holes. -/
theorem iterstat_stats (f : ℕ) (data : List ℝ) (cut precision : ℝ) (r : Stat)
    (h : iterstat f data cut precision = some r) :
    r.mask.length = data.length ∧
    (data ≠ [] → ∃ m s, r.mean = some m ∧ r.std = some s ∧ IsMean (Selected data r.mask) m ∧
      IsStd (Selected data r.mask) s) ∧
    (data = [] → r.mean = none ∧ r.std = none) ∧
    (2 ≤ (Selected data r.mask).length ∨ Selected data r.mask = data) ∧
    NoHoles data r.mask := by
  unfold iterstat at h
  by_cases hd : data = []
  · rw [if_pos hd] at h
    cases h
    subst hd
    exact ⟨rfl, fun h => absurd rfl h, fun _ => ⟨rfl, rfl⟩, .inr rfl,
      fun i j k a b c h => by simp at h⟩
  · rw [if_neg hd] at h
    rcases isLoop_result data cut _ h with rfl | ⟨μ, σ, hl, rfl⟩
    · have hsel : Selected data (List.replicate data.length true) = data := by
        rw [← sel_eq_selected, sel_replicate]
      refine ⟨List.length_replicate, fun _ => ⟨_, _, rfl, rfl, ?_, ?_⟩, fun h => absurd h hd,
        .inr hsel, ?_⟩
      · simpa only [hsel] using isMean_avg hd
      · simpa only [hsel] using isStd_std hd
      · intro i j k a b c _ hj _ _ _ _ _
        have := (List.getElem?_eq_some_iff.1 hj).1
        simp [this]
    · have hsel : Selected data (isMask data cut μ σ) = keep data cut μ σ := by
        rw [← sel_eq_selected, sel_isMask]
      have hne : keep data cut μ σ ≠ [] := by rintro h; simp [h] at hl
      refine ⟨List.length_map _, fun _ => ⟨_, _, rfl, rfl, ?_, ?_⟩, fun h => absurd h hd,
        .inl (by rw [hsel]; exact hl), ?_⟩
      · simpa only [hsel] using isMean_avg hne
      · simpa only [hsel] using isStd_std hne
      · intro i j k a b c hi hj hk hab hbc h1 h2
        simp only [isMask, List.getElem?_map, hi, hj, hk, Option.map_some, Option.some.injEq,
          decide_eq_true_iff] at h1 h2 ⊢
        rw [abs_lt] at h1 h2 ⊢
        constructor <;> linarith [h1.1, h2.2]

/-- A point is really cut: `[0, 0, 0, 10]` with one standard deviation keeps a strict subset in the
first pass. -/
example : keep [0, 0, 0, 10] 1 (avg [0, 0, 0, 10]) (std [0, 0, 0, 10]) = [0, 0, 0] := by
  have ha : avg [0, 0, 0, 10] = 5 / 2 := by norm_num [avg]
  have h2 : moment 2 [0, 0, 0, 10] = 75 / 4 := by norm_num [moment, ha, avg]
  have hs : 4 < std [0, 0, 0, 10] ∧ std [0, 0, 0, 10] < 5 := by
    unfold std
    rw [h2]
    constructor
    · rw [Real.lt_sqrt (by norm_num)]
      norm_num
    · rw [Real.sqrt_lt' (by norm_num)]
      norm_num
  rw [ha]
  have h0 : |0 - 5 / 2| < 1 * std [0, 0, 0, 10] := by
    rw [abs_lt]
    constructor <;> linarith [hs.1]
  have h10 : ¬ |10 - 5 / 2| < 1 * std [0, 0, 0, 10] := by
    rw [abs_lt]
    rintro ⟨_, h⟩
    linarith [hs.2]
  simp only [keep, List.filter_cons, h0, h10, decide_true, decide_false, if_true,
    List.filter_nil]
  simp

/-! ### C10: `removeoutliers` -/

/-- `removeoutliers` returns without raising after at most `maxiter + 1` passes (one pass if
`maxiter` is negative).  `masks` lists the selections it went through, the returned one first: each
has one entry per point, excludes infinite points, has no holes, and is contained in the one
before; another pass is made only while the skewness is above the target, and the last
selection meets the target unless the passes were used up. -/
theorem removeoutliers_spec (deg : Option ℝ) (x : List (WithTop ℝ)) (maxiter : ℤ) (target : ℝ)
    (fuel : ℕ) (hf : maxiter.toNat + 1 ≤ fuel) :
    ∃ (mask : List Bool) (old : List (List Bool)),
      removeoutliers deg fuel x maxiter target = some (.ok mask) ∧
      roMasks deg fuel x maxiter target = some (.ok (mask :: old)) ∧
      old.length ≤ maxiter.toNat + 1 ∧
      List.IsChain SubMask (mask :: old) ∧
      (∀ m ∈ mask :: old, m.length = x.length ∧ NoHoles x m ∧
        ∀ j : ℕ, m[j]? = some true → x[j]? ≠ some ⊤) ∧
      (∀ m ∈ old, above (skew deg (finite (Selected x m))) target) ∧
      (¬ above (skew deg (finite (Selected x mask))) target ∨ old.length = maxiter.toNat + 1) := by
  set init := x.map fun v => decide (v ≠ ⊤) with hinit
  have hl : init.length = x.length := List.length_map _
  obtain ⟨ms, e, hlen, hc, hend⟩ := roLoop_spec deg x maxiter target fuel 1 init []
    (by rwa [add_sub_cancel_right]) hl
  rw [add_sub_cancel_right] at hlen hend
  have hholes : NoHoles x init := by
    intro i j k a b c _ hj hk _ hbc _ h2
    simp only [hinit, List.getElem?_map, hj, hk, Option.map_some, Option.some.injEq,
      decide_eq_true_iff] at h2 ⊢
    exact fun h => h2 (top_le_iff.1 (h ▸ hbc))
  have hfin : ∀ j : ℕ, init[j]? = some true → x[j]? ≠ some ⊤ := by
    intro j hj hx
    simp [hinit, List.getElem?_map, hx] at hj
  have hall : ∀ L : List (List Bool), List.IsChain (fun new old => SubMask new old ∧
      (NoHoles x old → NoHoles x new) ∧ roPass x old = .ok new ∧
        above (skew deg (finite (sel x old))) target) (L ++ [init]) →
      (∀ m ∈ L ++ [init], m.length = x.length ∧ NoHoles x m ∧
        ∀ j : ℕ, m[j]? = some true → x[j]? ≠ some ⊤) ∧
      (∀ m ∈ (L ++ [init]).tail, above (skew deg (finite (Selected x m))) target) := by
    intro L
    induction L with
    | nil =>
      intro _
      refine ⟨?_, by simp⟩
      intro m hm
      rw [List.nil_append, List.mem_singleton] at hm
      subst hm
      exact ⟨hl, hholes, hfin⟩
    | cons a L ih =>
      intro hC
      rw [List.cons_append] at hC
      have hC' := hC.tail
      obtain ⟨h1, h2⟩ := ih (by simpa using hC')
      obtain ⟨b, L', hL⟩ : ∃ b L', L ++ [init] = b :: L' := by cases L <;> simp
      rw [hL, List.isChain_cons_cons] at hC
      have hb := h1 b (by rw [hL]; simp)
      refine ⟨?_, ?_⟩
      · intro m hm
        rw [List.cons_append, List.mem_cons] at hm
        rcases hm with rfl | hm
        · exact ⟨hC.1.1.1.trans hb.1, hC.1.2.1 hb.2.1, fun j hj => hb.2.2 j (hC.1.1.2 j hj)⟩
        · exact h1 m hm
      · intro m hm
        rw [List.cons_append, List.tail_cons, hL, List.mem_cons] at hm
        rcases hm with rfl | hm
        · rw [← sel_eq_selected]
          exact hC.1.2.2.2
        · exact h2 m (by rw [hL]; exact hm)
  obtain ⟨h1, h2⟩ := hall ms hc
  obtain ⟨mask, old, hmo⟩ : ∃ mask old, ms ++ [init] = mask :: old := by cases ms <;> simp
  have hlen' : old.length = ms.length := by
    have := congrArg List.length hmo
    simp at this
    omega
  rw [hmo] at h1 h2 hc hend
  have e' : roMasks deg fuel x maxiter target = some (.ok (mask :: old)) := by
    rw [← hmo]
    exact e
  refine ⟨mask, old, ?_, e', by omega, hc.imp fun a b h => h.1, h1, h2, ?_⟩
  · unfold removeoutliers
    rw [e']
    rfl
  · rw [hlen', ← sel_eq_selected]
    exact hend

/-- Points already symmetric enough are all kept. -/
theorem removeoutliers_symmetric (deg : Option ℝ) (x : List ℝ) (maxiter : ℤ) (target : ℝ)
    (fuel : ℕ) (hf : 0 < fuel) (h : ¬ above (skew deg x) target) :
    removeoutliers deg fuel (x.map fun v => ((v : ℝ) : WithTop ℝ)) maxiter target =
      some (.ok (List.replicate x.length true)) := by
  obtain ⟨fuel, rfl⟩ : ∃ f, fuel = f + 1 := ⟨fuel - 1, by omega⟩
  have e : (x.map fun v => ((v : ℝ) : WithTop ℝ)).map (fun v => decide (v ≠ ⊤)) =
      List.replicate x.length true := by
    rw [List.map_map, ← List.map_const']
    apply List.map_congr_left
    intro v _
    simp
  have e2 : finite (sel (x.map fun v => ((v : ℝ) : WithTop ℝ)) (List.replicate x.length true)) =
      x := by
    have := sel_replicate (x.map fun v => ((v : ℝ) : WithTop ℝ))
    rw [List.length_map] at this
    rw [this]
    unfold finite
    rw [List.filterMap_map]
    exact List.filterMap_some
  unfold removeoutliers roMasks roLoop
  rw [e, e2, if_neg h]
  rfl

/-- The loop is really entered: the skewness of `[0, 0, 3]` is above the default target
(what then happens to this example is `removeoutliers_empty_violated`). -/
example : above (skew none [0, 0, 3]) (1 / 20) := by
  have ha : avg [0, 0, 3] = 1 := by norm_num [avg]
  have h2 : moment 2 [0, 0, 3] = 2 := by norm_num [moment, ha, avg]
  have h3 : moment 3 [0, 0, 3] = 2 := by norm_num [moment, ha, avg]
  refine ⟨2 / Real.sqrt 2 ^ 3, ?_, ?_⟩
  · unfold skew
    rw [if_neg (by simp), h2, h3, if_neg (by norm_num)]
  · have hs : Real.sqrt 2 < 2 := by
      rw [Real.sqrt_lt' (by norm_num)]
      norm_num
    have hp : 0 < Real.sqrt 2 := Real.sqrt_pos.2 (by norm_num)
    rw [lt_div_iff₀ (by positivity)]
    have : Real.sqrt 2 ^ 3 < 2 ^ 3 := pow_lt_pow_left₀ hs hp.le (by norm_num)
    linarith

end Verif.Cut
