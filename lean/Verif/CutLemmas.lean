import Verif.Cut
import Verif.CutSpec
import Mathlib.Analysis.Convex.SpecificFunctions.Basic
import Mathlib.Data.List.Sublists

/-! Lemmas about the loops of `Cut.lean`. -/

namespace Verif.Cut
open Verif

/-! ### Boolean indexing -/

theorem sel_map {α : Type*} (data : List α) (p : α → Bool) :
    sel data (data.map p) = data.filter p := by
  induction data with
  | nil => rfl
  | cons a l ih =>
    unfold sel at ih ⊢
    rw [List.map_cons, List.zip_cons_cons, List.filterMap_cons, ih, List.filter_cons]
    by_cases h : p a = true
    · simp [h]
    · simp [h]

theorem count_map {α : Type*} (data : List α) (p : α → Bool) :
    (data.map p).count true = (data.filter p).length := by
  induction data with
  | nil => rfl
  | cons a l ih =>
    rw [List.map_cons, List.count_cons, ih, List.filter_cons]
    by_cases h : p a = true
    · simp [h]
    · simp [h]

/-- Selecting everything. -/
theorem sel_replicate {α : Type*} (data : List α) :
    sel data (List.replicate data.length true) = data := by
  have := sel_map data fun _ => true
  rwa [List.map_const', List.filter_true] at this

/-! ### Moments -/

/-- Sum of squared distances to `μ`. -/
noncomputable def ssq (l : List ℝ) (μ : ℝ) : ℝ := (l.map fun x => (x - μ) ^ 2).sum

theorem ssq_nonneg (l : List ℝ) (μ : ℝ) : 0 ≤ ssq l μ := by
  unfold ssq
  apply List.sum_nonneg
  simp only [List.mem_map]
  rintro _ ⟨y, _, rfl⟩
  positivity

theorem ssq_expand (l : List ℝ) (μ ν : ℝ) :
    ssq l μ = ssq l ν + 2 * (ν - μ) * (l.sum - l.length * ν) + l.length * (ν - μ) ^ 2 := by
  induction l with
  | nil => simp [ssq]
  | cons a l ih =>
    have e1 : ∀ t, ssq (a :: l) t = (a - t) ^ 2 + ssq l t := fun t => by simp [ssq]
    rw [e1, e1, ih, List.sum_cons, List.length_cons]
    push_cast
    ring

theorem length_pos' {l : List ℝ} (h : l ≠ []) : (0 : ℝ) < l.length := by
  exact_mod_cast List.length_pos_iff.2 h

theorem sum_eq_avg {l : List ℝ} (h : l ≠ []) : l.sum = l.length * avg l := by
  have := length_pos' h
  unfold avg
  field_simp

theorem ssq_avg {l : List ℝ} (h : l ≠ []) (μ : ℝ) :
    ssq l μ = ssq l (avg l) + l.length * (avg l - μ) ^ 2 := by
  rw [ssq_expand l μ (avg l), sum_eq_avg h]
  ring

theorem moment_two (l : List ℝ) : moment 2 l = ssq l (avg l) / l.length := by
  simp [moment, avg, ssq]

theorem moment_two_nonneg (l : List ℝ) : 0 ≤ moment 2 l := by
  rw [moment_two]
  exact div_nonneg (ssq_nonneg _ _) (Nat.cast_nonneg _)

theorem ssq_eq {l : List ℝ} (h : l ≠ []) : ssq l (avg l) = l.length * moment 2 l := by
  have := length_pos' h
  rw [moment_two]
  field_simp

theorem std_sq (l : List ℝ) : std l ^ 2 = moment 2 l := Real.sq_sqrt (moment_two_nonneg l)

theorem std_nonneg (l : List ℝ) : 0 ≤ std l := Real.sqrt_nonneg _

/-! ### The potential of `iterstat` -/

/-- The points that one pass keeps. -/
noncomputable def keep (data : List ℝ) (cut mean std : ℝ) : List ℝ :=
  data.filter fun x => decide (|x - mean| < cut * std)

theorem sel_isMask (data : List ℝ) (cut mean std : ℝ) :
    sel data (isMask data cut mean std) = keep data cut mean std := sel_map _ _

theorem count_isMask (data : List ℝ) (cut mean std : ℝ) :
    (isMask data cut mean std).count true = (keep data cut mean std).length := count_map _ _

theorem ssq_sub (l : List ℝ) (μ c : ℝ) :
    ssq l μ - c * l.length = (l.map fun x => (x - μ) ^ 2 - c).sum := by
  induction l with
  | nil => simp [ssq]
  | cons a l ih =>
    have e1 : ssq (a :: l) μ = (a - μ) ^ 2 + ssq l μ := by simp [ssq]
    rw [e1, List.map_cons, List.sum_cons, ← ih, List.length_cons]
    push_cast
    ring

/-- Among all sublists, the kept points minimise the sum of `d² - c`. -/
theorem keep_min {data l : List ℝ} (hl : l.Sublist data) (f : ℝ → ℝ) (p : ℝ → Bool)
    (hp : ∀ x, p x = true ↔ f x < 0) :
    ((data.filter p).map f).sum ≤ (l.map f).sum := by
  induction hl with
  | slnil => simp
  | @cons l₁ l₂ a _ ih =>
    rw [List.filter_cons]
    split_ifs with h
    · rw [List.map_cons, List.sum_cons]
      have := (hp a).1 h
      linarith
    · exact ih
  | @cons_cons l₁ l₂ a _ ih =>
    rw [List.filter_cons, List.map_cons, List.sum_cons]
    split_ifs with h
    · rw [List.map_cons, List.sum_cons]
      linarith
    · have : ¬ f a < 0 := fun h' => h ((hp a).2 h')
      linarith

theorem mem_keep_iff {cut σ : ℝ} (hc : 0 < cut) (hσ : 0 < σ) (x μ : ℝ) :
    |x - μ| < cut * σ ↔ (x - μ) ^ 2 - cut ^ 2 * σ ^ 2 < 0 := by
  rw [sub_neg, ← mul_pow, sq_lt_sq, abs_of_pos (mul_pos hc hσ)]

/-- The inequality behind the potential: Bernoulli. -/
theorem potential_ineq {p a b : ℝ} (hp : 1 < p) (ha : 0 < a) (hb : 0 < b) (hab : a ≠ b) :
    b ^ (-p) * (b - p / (p - 1) * b) < a ^ (-p) * (b - p / (p - 1) * a) := by
  have hp1 : 0 < p - 1 := by linarith
  have hB := one_add_mul_self_lt_rpow_one_add (s := a / b - 1)
    (by have := div_pos ha hb; linarith)
    (by
      intro h
      apply hab
      have : a / b = 1 := by linarith
      exact (div_eq_one_iff_eq hb.ne').1 this) hp
  rw [show 1 + (a / b - 1) = a / b by ring, Real.div_rpow ha.le hb.le] at hB
  have hap := Real.rpow_pos_of_pos ha p
  have hbp := Real.rpow_pos_of_pos hb p
  rw [Real.rpow_neg ha.le, Real.rpow_neg hb.le]
  rw [lt_div_iff₀ hbp] at hB
  have e1 : (b ^ p)⁻¹ * (b - p / (p - 1) * b) = -(b / (p - 1)) / b ^ p := by
    field_simp
    ring
  have e2 : (a ^ p)⁻¹ * (b - p / (p - 1) * a) = ((b * (p - 1) - p * a) / (p - 1)) / a ^ p := by
    field_simp
  rw [e1, e2, div_lt_div_iff₀ hbp hap]
  have e3 : (1 + p * (a / b - 1)) * b ^ p = (b + p * (a - b)) / b * b ^ p := by
    field_simp
  rw [e3] at hB
  have h4 : (b + p * (a - b)) * b ^ p < b * a ^ p := by
    have := mul_lt_mul_of_pos_left hB hb
    rwa [show b * ((b + p * (a - b)) / b * b ^ p) = (b + p * (a - b)) * b ^ p by field_simp] at this
  have e5 : -(b / (p - 1)) * a ^ p = -(b * a ^ p) / (p - 1) := by ring
  have e6 : (b * (p - 1) - p * a) / (p - 1) * b ^ p = -((b + p * (a - b)) * b ^ p) / (p - 1) := by
    ring
  rw [e5, e6]
  exact div_lt_div_of_pos_right (by linarith) hp1

/-- The potential for a cut above one standard deviation. -/
noncomputable def pot (k : ℝ) (l : List ℝ) : ℝ :=
  moment 2 l ^ (-(k ^ 2 / (k ^ 2 - 1))) * (ssq l (avg l) - k ^ 2 * moment 2 l * l.length)

theorem pot_step {data l : List ℝ} (hl : l.Sublist data) {k : ℝ} (hk : 1 < k)
    (h0 : 0 < moment 2 l) (hne : keep data k (avg l) (std l) ≠ [])
    (h1 : 0 < moment 2 (keep data k (avg l) (std l))) :
    (avg (keep data k (avg l) (std l)) = avg l ∧ std (keep data k (avg l) (std l)) = std l) ∨
      pot k (keep data k (avg l) (std l)) < pot k l := by
  set m := keep data k (avg l) (std l) with hm
  have hσ : 0 < std l := Real.sqrt_pos.2 h0
  have hk2 : 1 < k ^ 2 := by nlinarith
  have hk21 : k ^ 2 - 1 ≠ 0 := by linarith
  set p := k ^ 2 / (k ^ 2 - 1) with hp
  have hp1 : 1 < p := by
    rw [hp, lt_div_iff₀ (by linarith)]
    linarith
  have hpk : p / (p - 1) = k ^ 2 := by
    have : p - 1 = 1 / (k ^ 2 - 1) := by
      rw [hp]
      field_simp
      ring
    rw [this, hp]
    field_simp
  have hlen := length_pos' hne
  -- the mask step
  have s1 : ssq m (avg l) - k ^ 2 * moment 2 l * m.length ≤
      ssq l (avg l) - k ^ 2 * moment 2 l * l.length := by
    rw [ssq_sub, ssq_sub, hm]
    refine keep_min hl _ _ fun x => ?_
    rw [decide_eq_true_iff, mem_keep_iff (by linarith) hσ, std_sq]
  have hap := Real.rpow_pos_of_pos h0 (-p)
  have s2 : moment 2 l ^ (-p) * (ssq m (avg l) - k ^ 2 * moment 2 l * m.length) ≤ pot k l :=
    mul_le_mul_of_nonneg_left s1 hap.le
  -- the mean and width step
  by_cases hμ : avg m = avg l
  · by_cases ha : moment 2 l = moment 2 m
    · left
      exact ⟨hμ, by unfold std; rw [ha]⟩
    · right
      refine lt_of_lt_of_le ?_ s2
      have := potential_ineq hp1 h0 h1 ha
      rw [hpk] at this
      unfold pot
      rw [← hμ, ssq_eq hne, ← hp]
      calc moment 2 m ^ (-p) * (m.length * moment 2 m - k ^ 2 * moment 2 m * m.length)
          = m.length * (moment 2 m ^ (-p) * (moment 2 m - k ^ 2 * moment 2 m)) := by ring
        _ < m.length * (moment 2 l ^ (-p) * (moment 2 m - k ^ 2 * moment 2 l)) :=
            mul_lt_mul_of_pos_left this hlen
        _ = _ := by ring
  · right
    refine lt_of_lt_of_le ?_ s2
    have hle : moment 2 m ^ (-p) * (moment 2 m - k ^ 2 * moment 2 m) ≤
        moment 2 l ^ (-p) * (moment 2 m - k ^ 2 * moment 2 l) := by
      by_cases ha : moment 2 l = moment 2 m
      · rw [ha]
      · have := potential_ineq hp1 h0 h1 ha
        rw [hpk] at this
        exact this.le
    have hd : 0 < (avg m - avg l) ^ 2 := by
      have : avg m - avg l ≠ 0 := sub_ne_zero.2 hμ
      positivity
    unfold pot
    rw [ssq_avg hne (avg l), ssq_eq hne, ← hp]
    calc moment 2 m ^ (-p) * (m.length * moment 2 m - k ^ 2 * moment 2 m * m.length)
        = m.length * (moment 2 m ^ (-p) * (moment 2 m - k ^ 2 * moment 2 m)) := by ring
      _ ≤ m.length * (moment 2 l ^ (-p) * (moment 2 m - k ^ 2 * moment 2 l)) :=
          mul_le_mul_of_nonneg_left hle hlen.le
      _ < m.length * (moment 2 l ^ (-p) * (moment 2 m - k ^ 2 * moment 2 l)) +
            moment 2 l ^ (-p) * (m.length * (avg m - avg l) ^ 2) := by
          have := mul_pos hap (mul_pos hlen hd)
          linarith
      _ = _ := by ring

/-- For a cut of at most one standard deviation the width shrinks in every pass. -/
theorem small_step {data l : List ℝ} {k : ℝ} (hk : k ≤ 1)
    (hne : keep data k (avg l) (std l) ≠ []) :
    moment 2 (keep data k (avg l) (std l)) < moment 2 l := by
  set m := keep data k (avg l) (std l) with hm
  have hmem : ∀ x ∈ m, (x - avg l) ^ 2 < moment 2 l := by
    intro x hx
    rw [hm] at hx
    have h := of_decide_eq_true (List.mem_filter.1 hx).2
    have h2 : k * std l ≤ std l := by
      have := std_nonneg l
      nlinarith
    rw [← std_sq, sq_lt_sq, abs_of_nonneg (std_nonneg l)]
    linarith
  have hlt : ssq m (avg l) < m.length * moment 2 l := by
    have : ∀ q : List ℝ, q ≠ [] → (∀ x ∈ q, (x - avg l) ^ 2 < moment 2 l) →
        ssq q (avg l) < q.length * moment 2 l := by
      intro q
      induction q with
      | nil => intro h; exact absurd rfl h
      | cons a q ih =>
        intro _ hq
        have ha := hq a (by simp)
        have e1 : ssq (a :: q) (avg l) = (a - avg l) ^ 2 + ssq q (avg l) := by simp [ssq]
        rw [e1, List.length_cons]
        push_cast
        rcases eq_or_ne q [] with rfl | hq'
        · simp [ssq]
          exact ha
        · have := ih hq' fun x hx => hq x (by simp [hx])
          linarith
    exact this m hne hmem
  have h1 := ssq_avg hne (avg l)
  rw [ssq_eq hne] at h1
  have hlen := length_pos' hne
  have hd : 0 ≤ (m.length : ℝ) * (avg m - avg l) ^ 2 := by positivity
  by_contra hcon
  rw [not_lt] at hcon
  have := mul_le_mul_of_nonneg_left hcon hlen.le
  linarith

/-! ### Termination of `iterstat` -/

theorem isLoop_succ (data : List ℝ) (cut : ℝ) (c : WithTop ℝ) (fuel : ℕ) (μ σ : ℝ) (ns : ℕ) :
    isLoop data cut c (fuel + 1) μ σ ns =
      if (keep data cut μ σ).length ≤ 1 then
        some ⟨some (avg data), some (std data), List.replicate data.length true⟩
      else
        let ns' := if c < ((|avg (keep data cut μ σ) - μ| : ℝ) : WithTop ℝ) ∨
            c < ((|std (keep data cut μ σ) - σ| : ℝ) : WithTop ℝ) then 0 else ns + 1
        if ns' ≥ 3 then
          some ⟨some (avg (keep data cut μ σ)), some (std (keep data cut μ σ)),
            isMask data cut μ σ⟩
        else isLoop data cut c fuel (avg (keep data cut μ σ)) (std (keep data cut μ σ)) ns' := by
  rw [isLoop, count_isMask, sel_isMask]

/-- More fuel does not change the result. -/
theorem isLoop_mono (data : List ℝ) (cut : ℝ) (c : WithTop ℝ) {f : ℕ} {μ σ : ℝ} {ns : ℕ} {r : Stat}
    (h : isLoop data cut c f μ σ ns = some r) {g : ℕ} (hg : f ≤ g) :
    isLoop data cut c g μ σ ns = some r := by
  induction f generalizing g μ σ ns with
  | zero => simp [isLoop] at h
  | succ f ih =>
    obtain ⟨g, rfl⟩ : ∃ g', g = g' + 1 := ⟨g - 1, by omega⟩
    rw [isLoop_succ] at h ⊢
    split_ifs at h ⊢ with h1
    · exact h
    all_goals
      simp only at h ⊢
      split_ifs at h ⊢
      all_goals first | exact h | exact ih h (by omega)

/-- A state that maps to itself is left after at most three passes. -/
theorem isLoop_fix (data : List ℝ) (cut : ℝ) {c : WithTop ℝ} (hc : 0 ≤ c) {μ σ : ℝ}
    (h1 : avg (keep data cut μ σ) = μ) (h2 : std (keep data cut μ σ) = σ) (j : ℕ) :
    ∀ ns, 3 ≤ ns + j → 0 < j → ∃ r, isLoop data cut c j μ σ ns = some r := by
  induction j with
  | zero => intro _ _ h; omega
  | succ j ih =>
    intro ns hns _
    rw [isLoop_succ, h1, h2, sub_self, sub_self, abs_zero]
    have : ¬ (c < ((0 : ℝ) : WithTop ℝ) ∨ c < ((0 : ℝ) : WithTop ℝ)) := by
      rw [or_self, not_lt]
      exact_mod_cast hc
    rw [if_neg this]
    by_cases h : (keep data cut μ σ).length ≤ 1
    · exact ⟨_, if_pos h⟩
    · rw [if_neg h]
      by_cases h3 : ns + 1 ≥ 3
      · exact ⟨_, if_pos h3⟩
      · simp only [if_neg h3]
        exact ih _ (by omega) (by omega)

theorem keep_zero (data : List ℝ) (cut μ : ℝ) : keep data cut μ 0 = [] := by
  unfold keep
  rw [List.filter_eq_nil_iff]
  intro x _
  rw [decide_eq_true_iff, mul_zero, not_lt]
  exact abs_nonneg _

/-- One pass either returns, for every fuel, or hands the new statistics to the next one. -/
theorem isLoop_step (data : List ℝ) (cut : ℝ) (c : WithTop ℝ) (μ σ : ℝ) (ns : ℕ) :
    (∃ r, ∀ f, isLoop data cut c (f + 1) μ σ ns = some r) ∨
    (1 < (keep data cut μ σ).length ∧ ∃ ns', ∀ f, isLoop data cut c (f + 1) μ σ ns =
      isLoop data cut c f (avg (keep data cut μ σ)) (std (keep data cut μ σ)) ns') := by
  by_cases hlen : (keep data cut μ σ).length ≤ 1
  · exact .inl ⟨_, fun f => by rw [isLoop_succ, if_pos hlen]⟩
  · simp only [isLoop_succ, if_neg hlen]
    split_ifs
    · omega
    · exact .inr ⟨by omega, 0, fun f => rfl⟩
    · exact .inl ⟨_, fun f => rfl⟩
    · exact .inr ⟨by omega, ns + 1, fun f => rfl⟩

/-- Termination from a potential that decreases unless the statistics stay the same. -/
theorem isLoop_returns (data : List ℝ) (cut : ℝ) {c : WithTop ℝ} (hc : 0 ≤ c) (pot : List ℝ → ℝ)
    (hpot : ∀ l : List ℝ, l.Sublist data → 0 < moment 2 l →
      keep data cut (avg l) (std l) ≠ [] → 0 < moment 2 (keep data cut (avg l) (std l)) →
      (avg (keep data cut (avg l) (std l)) = avg l ∧ std (keep data cut (avg l) (std l)) = std l) ∨
        pot (keep data cut (avg l) (std l)) < pot l) (N : ℕ) :
    ∀ l : List ℝ, l.Sublist data →
      (data.sublists.toFinset.filter fun m => pot m < pot l).card < N →
      ∀ ns, ∃ f r, isLoop data cut c f (avg l) (std l) ns = some r := by
  classical
  induction N with
  | zero => intro l _ h; omega
  | succ N ih =>
    intro l hl hN ns
    rcases (moment_two_nonneg l).eq_or_lt with hz0 | h0
    · have hs : std l = 0 := by unfold std; rw [← hz0, Real.sqrt_zero]
      refine ⟨1, ⟨some (avg data), some (std data), List.replicate data.length true⟩, ?_⟩
      rw [isLoop_succ, hs, keep_zero]
      exact if_pos (by simp)
    set m := keep data cut (avg l) (std l) with hm
    have hsub : m.Sublist data := List.filter_sublist
    rcases isLoop_step data cut c (avg l) (std l) ns with ⟨r, hr⟩ | ⟨hlen, ns', hs⟩
    · exact ⟨1, r, hr 0⟩
    rw [← hm] at hlen hs
    have hne : m ≠ [] := by rintro h; simp [h] at hlen
    rcases (moment_two_nonneg m).eq_or_lt with hz | hz
    · -- zero width: the next pass returns
      have hs0 : std m = 0 := by unfold std; rw [← hz, Real.sqrt_zero]
      refine ⟨2, ⟨some (avg data), some (std data), List.replicate data.length true⟩, ?_⟩
      rw [hs 1, isLoop_succ, hs0, keep_zero]
      exact if_pos (by simp)
    · rcases hpot l hl h0 hne hz with ⟨e1, e2⟩ | hlt
      · obtain ⟨r, hr⟩ := isLoop_fix data cut hc e1 e2 3 ns (by omega) (by omega)
        exact ⟨3, r, hr⟩
      · have hcard : (data.sublists.toFinset.filter fun q => pot q < pot m).card < N := by
          have hss : (data.sublists.toFinset.filter fun q => pot q < pot m) ⊂
              data.sublists.toFinset.filter fun q => pot q < pot l := by
            rw [Finset.ssubset_iff_of_subset
              (Finset.monotone_filter_right _ fun q _ h => lt_trans h hlt)]
            refine ⟨m, ?_, ?_⟩
            · rw [Finset.mem_filter, List.mem_toFinset, List.mem_sublists]
              exact ⟨hsub, hlt⟩
            · rw [Finset.mem_filter]
              exact fun h => lt_irrefl _ h.2
          have := Finset.card_lt_card hss
          omega
        obtain ⟨f, r, hf⟩ := ih m hsub hcard ns'
        exact ⟨f + 1, r, by rw [hs f, hf]⟩

theorem isLoop_terminates (data : List ℝ) (cut : ℝ) {c : WithTop ℝ} (hc : 0 ≤ c) :
    ∃ f r, isLoop data cut c f (avg data) (std data) 0 = some r := by
  by_cases hk : 1 < cut
  · exact isLoop_returns data cut hc (pot cut)
      (fun l hl h0 hne h1 => pot_step hl hk h0 hne h1) _ data (List.Sublist.refl _)
      (Nat.lt_succ_self _) 0
  · exact isLoop_returns data cut hc (moment 2)
      (fun l _ _ hne _ => .inr (small_step (not_lt.1 hk) hne)) _ data (List.Sublist.refl _)
      (Nat.lt_succ_self _) 0

/-- What the loop returns. -/
theorem isLoop_result (data : List ℝ) (cut : ℝ) (c : WithTop ℝ) {f : ℕ} {μ σ : ℝ} {ns : ℕ}
    {r : Stat} (h : isLoop data cut c f μ σ ns = some r) :
    r = ⟨some (avg data), some (std data), List.replicate data.length true⟩ ∨
      ∃ μ' σ', 1 < (keep data cut μ' σ').length ∧
        r = ⟨some (avg (keep data cut μ' σ')), some (std (keep data cut μ' σ')),
          isMask data cut μ' σ'⟩ := by
  induction f generalizing μ σ ns with
  | zero => simp [isLoop] at h
  | succ f ih =>
    rw [isLoop_succ] at h
    by_cases h1 : (keep data cut μ σ).length ≤ 1
    · rw [if_pos h1] at h
      exact .inl (Option.some.inj h).symm
    · rw [if_neg h1] at h
      simp only at h
      split_ifs at h
      · omega
      · exact ih h
      · exact .inr ⟨μ, σ, by omega, (Option.some.inj h).symm⟩
      · exact ih h

theorem sel_eq_selected {α : Type*} (l : List α) (m : List Bool) : sel l m = Selected l m := by
  induction l generalizing m with
  | nil => rfl
  | cons a l ih =>
    rcases m with _ | ⟨_ | _, m⟩
    · rfl
    · exact ih m
    · exact congrArg (a :: ·) (ih m)

theorem isMean_avg {l : List ℝ} (h : l ≠ []) : IsMean l (avg l) :=
  ⟨h, by rw [sum_eq_avg h, mul_comm]⟩

theorem isStd_std {l : List ℝ} (h : l ≠ []) : IsStd l (std l) :=
  ⟨std_nonneg l, avg l, isMean_avg h, by
    rw [std_sq, mul_comm, ← ssq_eq h]
    rfl⟩

theorem stdcutoff_nonneg (data : List ℝ) {precision : ℝ} (hp : 0 ≤ precision) :
    0 ≤ stdcutoff data precision := by
  unfold stdcutoff
  split_ifs
  · exact le_top
  · exact_mod_cast div_nonneg (std_nonneg data) hp

theorem roPass_ok {x : List (WithTop ℝ)} (hx : x ≠ []) (inds : List Bool) :
    ∃ (med : ℝ) (dist : WithTop ℝ), roPass x inds = .ok (List.zipWith (fun b d => b &&
        decide (WithTop.map (fun v : ℝ => |v|) d < dist)) inds
        (x.map (WithTop.map fun v => v - med))) := by
  unfold roPass
  simp only
  set med := median (finite (sel x inds))
  have hne : x.map (WithTop.map fun v => v - med) ≠ [] := by simpa using hx
  obtain ⟨lo, hlo⟩ := Option.ne_none_iff_exists'.1 (mt List.min?_eq_none_iff.1 hne)
  obtain ⟨hi, hhi⟩ := Option.ne_none_iff_exists'.1 (mt List.max?_eq_none_iff.1 hne)
  rw [hlo, hhi]
  exact ⟨med, _, rfl⟩

theorem roPass_sub {x : List (WithTop ℝ)} {inds inds' : List Bool} (hl : inds.length = x.length)
    (h : roPass x inds = .ok inds') (hne : x ≠ []) :
    SubMask inds' inds ∧ (NoHoles x inds → NoHoles x inds') := by
  obtain ⟨med, dist, e⟩ := roPass_ok hne inds
  rw [h] at e
  cases e
  have hget : ∀ j : ℕ, ∀ v, x[j]? = some v →
      ((List.zipWith (fun b d => b && decide (WithTop.map (fun v : ℝ => |v|) d < dist)) inds
        (x.map (WithTop.map fun v => v - med)))[j]? = some true ↔
        inds[j]? = some true ∧ WithTop.map (fun w : ℝ => |w - med|) v < dist) := by
    intro j v hv
    have hj : j < x.length := (List.getElem?_eq_some_iff.1 hv).1
    rw [List.getElem?_zipWith, List.getElem?_map, hv, List.getElem?_eq_getElem (hl ▸ hj)]
    simp [WithTop.map_map, Function.comp_def]
  refine ⟨⟨by simp [hl], fun j hj => ?_⟩, fun hh i j k a b c hi hj hk hab hbc h1 h2 => ?_⟩
  · have hlt : j < x.length := by
      have := (List.getElem?_eq_some_iff.1 hj).1
      simp [hl] at this
      exact this
    exact ((hget j _ (List.getElem?_eq_getElem hlt)).1 hj).1
  · rw [hget _ _ hi] at h1
    rw [hget _ _ hk] at h2
    rw [hget _ _ hj]
    refine ⟨hh i j k a b c hi hj hk hab hbc h1.1 h2.1, ?_⟩
    induction c with
    | top => simp at h2
    | coe c =>
      induction b with
      | top => simp at hbc
      | coe b =>
        induction a with
        | top => simp at hab
        | coe a =>
          have hab := WithTop.coe_le_coe.1 hab
          have hbc := WithTop.coe_le_coe.1 hbc
          simp only [WithTop.map_coe] at h1 h2 ⊢
          have hle : |b - med| ≤ max |a - med| |c - med| := by
            rw [le_max_iff]
            rcases le_total b med with h | h
            · left
              rw [abs_of_nonpos (by linarith), abs_of_nonpos (by linarith)]
              linarith
            · right
              rw [abs_of_nonneg (by linarith), abs_of_nonneg (by linarith)]
              linarith
          refine lt_of_le_of_lt (WithTop.coe_le_coe.2 hle) ?_
          rw [WithTop.coe_max]
          exact max_lt h1.2 h2.2

theorem above_ne_nil {deg : Option ℝ} {x : List (WithTop ℝ)} {m : List Bool} {target : ℝ}
    (h : above (skew deg (finite (sel x m))) target) : x ≠ [] := by
  rintro rfl
  obtain ⟨s, hs, _⟩ := h
  rw [show finite (sel ([] : List (WithTop ℝ)) m) = [] from rfl] at hs
  simp [skew] at hs

/-- The loop from counter `i`: the new masks `ms` (latest first). -/
theorem roLoop_spec (deg : Option ℝ) (x : List (WithTop ℝ)) (maxiter : ℤ) (target : ℝ) (fuel : ℕ) :
    ∀ (i : ℤ) (inds : List Bool) (hist : List (List Bool)),
      (maxiter + 1 - i).toNat + 1 ≤ fuel → inds.length = x.length →
      ∃ ms : List (List Bool),
        roLoop deg x maxiter target fuel i inds hist = some (.ok (ms ++ inds :: hist)) ∧
        ms.length ≤ (maxiter + 1 - i).toNat + 1 ∧
        List.IsChain (fun new old => SubMask new old ∧ (NoHoles x old → NoHoles x new) ∧
          roPass x old = .ok new ∧ above (skew deg (finite (sel x old))) target) (ms ++ [inds]) ∧
        (¬ above (skew deg (finite (sel x ((ms ++ [inds]).headD [])))) target ∨
          ms.length = (maxiter + 1 - i).toNat + 1) := by
  induction fuel with
  | zero => intro i inds hist h; omega
  | succ fuel ih =>
    intro i inds hist hf hl
    unfold roLoop
    by_cases ha : above (skew deg (finite (sel x inds))) target
    · have hx := above_ne_nil ha
      obtain ⟨med, dist, hp⟩ := roPass_ok hx inds
      set inds' := List.zipWith (fun b d => b && decide (WithTop.map (fun v : ℝ => |v|) d < dist))
        inds (x.map (WithTop.map fun v => v - med))
      have hl' : inds'.length = x.length := by simp [inds', hl]
      have hsub := roPass_sub hl hp hx
      rw [if_pos ha, hp]
      by_cases hi : i > maxiter
      · refine ⟨[inds'], if_pos hi, by simp, ?_, .inr (by simp; omega)⟩
        simp only [List.singleton_append, List.isChain_cons_cons, List.isChain_singleton, and_true]
        exact ⟨hsub.1, hsub.2, hp, ha⟩
      · obtain ⟨ms, e, hlen, hc, hend⟩ := ih (i + 1) inds' (inds :: hist) (by omega) hl'
        refine ⟨ms ++ [inds'], ?_, ?_, ?_, ?_⟩
        · simp only [if_neg hi, e]
          simp
        · simp; omega
        · rw [List.append_assoc, List.singleton_append]
          rw [List.isChain_append] at hc ⊢
          refine ⟨hc.1, ?_, ?_⟩
          · simp only [List.isChain_cons_cons, List.isChain_singleton, and_true]
            exact ⟨hsub.1, hsub.2, hp, ha⟩
          · simpa using hc.2.2
        · rcases hend with h | h
          · left
            rwa [show ((ms ++ [inds']) ++ [inds]).headD [] = (ms ++ [inds']).headD [] by
              cases ms <;> rfl]
          · right
            simp; omega
    · exact ⟨[], if_neg ha, by simp, by simp, .inl (by simpa using ha)⟩

end Verif.Cut
