import Verif.CutProps

/-! Property C16: `symmetrizedist`. -/

namespace Verif.Cut
open Verif

/-! ### Lemmas -/

theorem foldl_or {F : ℕ → List Bool} {n : ℕ} (hF : ∀ k, (F k).length = n) (L : List ℕ) :
    ∀ init : List Bool, init.length = n →
      (L.foldl (fun m k => List.zipWith (· || ·) m (F k)) init).length = n ∧
      ∀ i, i < n → (L.foldl (fun m k => List.zipWith (· || ·) m (F k)) init).getD i false =
        (init.getD i false || L.any fun k => (F k).getD i false) := by
  induction L with
  | nil => intro init h; exact ⟨h, fun i _ => by simp⟩
  | cons a L ih =>
    intro init h
    have hl : (List.zipWith (· || ·) init (F a)).length = n := by simp [h, hF]
    obtain ⟨h1, h2⟩ := ih _ hl
    refine ⟨h1, fun i hi => ?_⟩
    rw [List.foldl_cons, h2 i hi, List.any_cons, ← Bool.or_assoc]
    congr 1
    have e1 : i < init.length := by omega
    have e2 : i < (F a).length := by rw [hF]; exact hi
    simp [List.getD_eq_getElem?_getD, e1, e2]

/-- Counting over the selected points is counting over positions. -/
theorem selected_countP (P : ℝ → Bool) (vals : List ℝ) :
    ∀ mask : List Bool, mask.length = vals.length →
      (Selected vals mask).countP P =
        (List.range vals.length).countP fun i => mask.getD i false && P (vals.getD i 0) := by
  induction vals with
  | nil => intro mask _; cases mask <;> rfl
  | cons a l ih =>
    intro mask hm
    rcases mask with _ | ⟨b, m⟩
    · simp at hm
    · have := ih m (by simpa using hm)
      rw [List.length_cons, List.range_succ_eq_map, List.countP_cons, List.countP_map]
      cases b
      · rw [Selected, this]
        simp [Function.comp_def]
      · rw [Selected, List.countP_cons, this]
        simp [Function.comp_def]

theorem countP_range (P : ℝ → Bool) (vals : List ℝ) :
    vals.countP P = (List.range vals.length).countP fun i => P (vals.getD i 0) := by
  induction vals with
  | nil => rfl
  | cons a l ih =>
    rw [List.length_cons, List.range_succ_eq_map, List.countP_cons, List.countP_cons,
      List.countP_map, ih]
    simp [Function.comp_def]

theorem whereTrue_nodup (m : List Bool) : (whereTrue m).Nodup :=
  List.Nodup.filter _ List.nodup_range

theorem clear_getD (m : List Bool) (S : List ℕ) {i : ℕ} (hi : i < m.length) :
    (clear m S).getD i false = (m.getD i false && !(S.contains i)) := by
  simp [clear, List.getD_eq_getElem?_getD, hi]

/-- Clearing `k` distinct true positions lowers the count by `k`. -/
theorem clear_count (m : List Bool) (S : List ℕ) (hn : S.Nodup) (hs : S ⊆ whereTrue m) :
    ((List.range m.length).countP fun i => (clear m S).getD i false) + S.length =
      (whereTrue m).length := by
  have e1 : ((List.range m.length).countP fun i => (clear m S).getD i false) =
      ((whereTrue m).filter fun i => !(S.contains i)).length := by
    rw [List.countP_eq_length_filter]
    unfold whereTrue
    rw [List.filter_filter]
    congr 1
    apply List.filter_congr
    intro i hi
    rw [clear_getD _ _ (List.mem_range.1 hi), Bool.and_comm]
  have e2 : ((whereTrue m).filter fun i => S.contains i).Perm S := by
    rw [List.perm_ext_iff_of_nodup ((whereTrue_nodup m).filter _) hn]
    intro i
    rw [List.mem_filter]
    simp only [List.contains_iff_mem]
    exact ⟨fun h => h.2, fun h => ⟨hs h, h⟩⟩
  rw [e1, ← e2.length_eq]
  have := List.length_eq_length_filter_add (l := whereTrue m) (fun i => S.contains i)
  omega

theorem histbins_odd (n : ℕ) : histbins n % 2 = 1 := by
  unfold histbins
  split_ifs <;> omega

theorem edge_eq {u : ℝ} {hb : ℕ} (hb0 : hb ≠ 0) (b : ℕ) :
    edge u hb b = (b - hb / 2) * (2 * u / hb) := by
  have : (hb : ℝ) ≠ 0 := by exact_mod_cast hb0
  unfold edge
  field_simp
  ring

/-- `symBin` at bin number `b` from below. -/
theorem symBin_length (choice : List ℕ → ℕ → List ℕ) (vals : List ℝ) (u : ℝ) (hb ibin : ℕ) :
    (symBin choice vals u hb ibin).length = vals.length := by
  unfold symBin
  simp only
  split_ifs <;> simp [clear]

/-- A position kept by `symBin` lies in its bin. -/
theorem symBin_mem {choice : List ℕ → ℕ → List ℕ} {vals : List ℝ} {u : ℝ} {hb ibin i : ℕ}
    (hi : i < vals.length) (h : (symBin choice vals u hb ibin).getD i false = true) :
    edge u hb (hb - ibin - 2) ≤ vals.getD i 0 ∧ vals.getD i 0 < edge u hb (hb - ibin - 1) := by
  have hcin : (vals.map fun v => decide (v < edge u hb (hb - ibin - 1)) &&
      decide (edge u hb (hb - ibin - 2) ≤ v)).getD i false = true := by
    unfold symBin at h
    simp only at h
    split_ifs at h
    · rw [clear_getD _ _ (by simpa using hi), Bool.and_eq_true] at h
      exact h.1
    · exact h
  simp only [List.getD_eq_getElem?_getD, List.getElem?_map, List.getElem?_eq_getElem hi,
    Option.map_some, Option.getD_some, Bool.and_eq_true, decide_eq_true_iff] at hcin ⊢
  exact ⟨hcin.2, hcin.1⟩

open Classical in
theorem symBin_count {choice : List ℕ → ℕ → List ℕ} (hc : IsDraw choice) (vals : List ℝ) (u : ℝ)
    {hb ibin : ℕ} (h1 : 1 ≤ ibin) (h2 : ibin + 2 ≤ hb) :
    ((List.range vals.length).countP fun i => (symBin choice vals u hb ibin).getD i false) =
      min (histNum vals u hb (hb - ibin - 2)) (histNum vals u hb (ibin + 1)) := by
  set cin := vals.map fun v => decide (v < edge u hb (hb - ibin - 1)) &&
      decide (edge u hb (hb - ibin - 2) ≤ v) with hcin
  have hlen : cin.length = vals.length := List.length_map _
  have hget : ∀ i < vals.length, cin.getD i false =
      decide (inBin u hb (hb - ibin - 2) (vals.getD i 0)) := by
    intro i hi
    simp only [hcin, List.getD_eq_getElem?_getD, List.getElem?_map, List.getElem?_eq_getElem hi,
      Option.map_some, Option.getD_some]
    rw [← Bool.decide_and, decide_eq_decide]
    unfold inBin
    rw [show hb - ibin - 2 + 1 = hb - ibin - 1 by omega]
    constructor
    · rintro ⟨ha, hb⟩
      exact ⟨hb, .inl ha⟩
    · rintro ⟨ha, hb | ⟨hb, _⟩⟩
      · exact ⟨hb, ha⟩
      · omega
  have hnum : (whereTrue cin).length = histNum vals u hb (hb - ibin - 2) := by
    unfold whereTrue histNum
    rw [countP_range, List.countP_eq_length_filter, hlen]
    congr 1
    apply List.filter_congr
    intro i hi
    exact hget i (List.mem_range.1 hi)
  have hwt : ((List.range vals.length).countP fun i => cin.getD i false) =
      (whereTrue cin).length := by
    unfold whereTrue
    rw [List.countP_eq_length_filter, hlen]
  unfold symBin
  simp only
  rw [← hcin]
  split_ifs with hr
  · obtain ⟨c1, c2, c3⟩ := hc (whereTrue cin)
      ((histNum vals u hb (hb - ibin - 2) : ℤ) - histNum vals u hb (ibin + 1)).toNat
      (whereTrue_nodup cin) (by omega)
    have := clear_count cin _ c1 c3
    rw [hlen, c2, hnum] at this
    omega
  · rw [hwt, hnum]
    omega

theorem lowBin_iff {u : ℝ} {h q : ℕ} (hq : q ≤ h) (v : ℝ) :
    LowBin (2 * u / (2 * h + 1 : ℕ)) q v ↔
      edge u (2 * h + 1) (h - q) ≤ v ∧ v < edge u (2 * h + 1) (h - q + 1) := by
  unfold LowBin
  rw [edge_eq (by omega), edge_eq (by omega)]
  push_cast [Nat.cast_sub hq]
  rw [show ((h : ℝ) - q - (2 * h + 1) / 2) = -(q + 1 / 2) by ring,
    show ((h : ℝ) - q + 1 - (2 * h + 1) / 2) = -(q - 1 / 2) by ring]

theorem highBin_iff {u : ℝ} {h q : ℕ} (v : ℝ) :
    HighBin (2 * u / (2 * h + 1 : ℕ)) h q v ↔ inBin u (2 * h + 1) (h + q) v := by
  unfold HighBin inBin
  rw [edge_eq (by omega), edge_eq (by omega), edge_eq (by omega)]
  push_cast
  rw [show ((h : ℝ) + q - (2 * h + 1) / 2) = q - 1 / 2 by ring,
    show ((h : ℝ) + q + 1 - (2 * h + 1) / 2) = q + 1 / 2 by ring,
    show ((2 * h + 1 : ℝ) - (2 * h + 1) / 2) = h + 1 / 2 by ring]
  constructor
  · rintro ⟨a, b | ⟨rfl, b⟩⟩
    · exact ⟨a, .inl b⟩
    · exact ⟨a, .inr ⟨by omega, b⟩⟩
  · rintro ⟨a, b | ⟨e, b⟩⟩
    · exact ⟨a, .inl b⟩
    · obtain rfl : q = h := by omega
      exact ⟨a, .inr ⟨rfl, b⟩⟩

/-! ### The property -/

open Classical in
/-- What `symmetrizedist` does, for every outcome of the random selection: with at least four
values and a positive maximum `u`, `[-u, u]` is divided into `2h+1` bins of width `w`; of every
lower bin as many points are kept as its mirror bin holds, or all if there are fewer; every value
above `-w/2` is kept; every value below `-u` is dropped.

Missing from the full claim: nothing is removed from the upper side, so the two sides are
balanced only where the lower one is at least as populated (`symmetrizedist_balanced_partial`,
`symmetrizedist_violated`). -/
theorem symmetrizedist_kept {choice : List ℕ → ℕ → List ℕ} (hc : IsDraw choice) {vals : List ℝ}
    {u : ℝ} (hu : vals.max? = some u) (h0 : 0 < u) (hn : 4 ≤ vals.length) :
    ∃ (mask : List Bool) (h : ℕ) (w : ℝ), symmetrizedist choice vals = .ok mask ∧
      mask.length = vals.length ∧
      (2 * h + 1 = vals.length.sqrt ∨ 2 * h + 1 = vals.length.sqrt + 1) ∧
      (2 * h + 1) * w = 2 * u ∧
      (∀ q, 1 ≤ q → q ≤ h →
        (Selected vals mask).countP (fun v => decide (LowBin w q v)) =
          min (vals.countP fun v => decide (LowBin w q v))
            (vals.countP fun v => decide (HighBin w h q v)) ∧
        (Selected vals mask).countP (fun v => decide (HighBin w h q v)) =
          vals.countP fun v => decide (HighBin w h q v)) ∧
      (∀ (i : ℕ) v, vals[i]? = some v → -w / 2 < v → mask[i]? = some true) ∧
      (∀ (i : ℕ) v, vals[i]? = some v → v < -u → mask[i]? = some false) := by
  have hodd := histbins_odd vals.length
  have hs2 : 2 ≤ vals.length.sqrt := Nat.le_sqrt.2 (by omega)
  obtain ⟨h, hh⟩ : ∃ h, histbins vals.length = 2 * h + 1 := ⟨histbins vals.length / 2, by omega⟩
  have hsz : 2 * h + 1 = vals.length.sqrt ∨ 2 * h + 1 = vals.length.sqrt + 1 := by
    rw [← hh]
    unfold histbins
    split_ifs
    · exact .inr rfl
    · exact .inl rfl
  have hh1 : 1 ≤ h := by omega
  set w : ℝ := 2 * u / (2 * h + 1 : ℕ) with hw
  have hw0 : 0 < w := by positivity
  set init := vals.map fun v => decide (v > edge u (2 * h + 1) h) with hinit
  set mask := (List.range' h h).foldl
    (fun m ibin => List.zipWith (· || ·) m (symBin choice vals u (2 * h + 1) ibin)) init with hmask
  have e : symmetrizedist choice vals = .ok mask := by
    unfold symmetrizedist
    rw [hu]
    simp only
    rw [if_pos h0, hh, if_pos (by omega), show (2 * h + 1) / 2 = h by omega,
      show 2 * h + 1 - 1 - h = h by omega]
  obtain ⟨hlen, hget⟩ := foldl_or (F := fun ibin => symBin choice vals u (2 * h + 1) ibin)
    (fun k => symBin_length choice vals u _ k) (List.range' h h) init (by simp [hinit])
  rw [← hmask] at hlen hget
  have hginit : ∀ i < vals.length, init.getD i false =
      decide (edge u (2 * h + 1) h < vals.getD i 0) := by
    intro i hi
    simp [hinit, List.getD_eq_getElem?_getD, hi]
  have hedge : ∀ b : ℕ, edge u (2 * h + 1) b = ((b : ℝ) - (h + 1 / 2)) * w := by
    intro b
    rw [edge_eq (by omega), hw]
    push_cast
    ring
  have hmono : ∀ a b : ℕ, a ≤ b → edge u (2 * h + 1) a ≤ edge u (2 * h + 1) b := by
    intro a b hab
    rw [hedge, hedge]
    have : (a : ℝ) ≤ b := by exact_mod_cast hab
    nlinarith
  refine ⟨mask, h, w, e, hlen, hsz, ?_, ?_, ?_, ?_⟩
  · rw [hw]
    push_cast
    field_simp
  · intro q hq1 hq2
    have hlow : (fun v => decide (LowBin w q v)) =
        fun v => decide (inBin u (2 * h + 1) (h - q) v) := by
      funext v
      rw [decide_eq_decide, hw, lowBin_iff hq2]
      unfold inBin
      constructor
      · rintro ⟨a, b⟩
        exact ⟨a, .inl b⟩
      · rintro ⟨a, b | ⟨b, _⟩⟩
        · exact ⟨a, b⟩
        · omega
    have hhigh : (fun v => decide (HighBin w h q v)) =
        fun v => decide (inBin u (2 * h + 1) (h + q) v) := by
      funext v
      rw [decide_eq_decide, hw, highBin_iff]
    have key := symBin_count hc vals u (hb := 2 * h + 1) (ibin := h - 1 + q) (by omega) (by omega)
    rw [show 2 * h + 1 - (h - 1 + q) - 2 = h - q by omega,
      show h - 1 + q + 1 = h + q by omega] at key
    constructor
    · rw [selected_countP _ _ _ hlen, hhigh]
      refine Eq.trans ?_ (key.trans ?_)
      · apply List.countP_congr
        intro i hi
        have hi := List.mem_range.1 hi
        rw [Bool.and_eq_true, decide_eq_true_iff, hw, lowBin_iff hq2, hget i hi, hginit i hi,
          Bool.or_eq_true, decide_eq_true_iff, List.any_eq_true]
        constructor
        · rintro ⟨ha | ⟨k, hk, ha⟩, hb1, hb2⟩
          · have := hmono (h - q + 1) h (by omega)
            linarith
          · rw [List.mem_range'_1] at hk
            obtain ⟨c1, c2⟩ := symBin_mem hi ha
            have hkq : k = h - 1 + q := by
              by_contra hne
              rcases Nat.lt_or_gt_of_ne hne with hlt | hgt
              · have := hmono (h - q + 1) (2 * h + 1 - k - 2) (by omega)
                linarith
              · have := hmono (2 * h + 1 - k - 1) (h - q) (by omega)
                linarith
            rwa [← hkq]
        · intro ha
          obtain ⟨c1, c2⟩ := symBin_mem hi ha
          rw [show 2 * h + 1 - (h - 1 + q) - 2 = h - q by omega] at c1
          rw [show 2 * h + 1 - (h - 1 + q) - 1 = h - q + 1 by omega] at c2
          exact ⟨.inr ⟨h - 1 + q, by rw [List.mem_range'_1]; omega, ha⟩, c1, c2⟩
      · unfold histNum
        rw [hlow]
    · rw [selected_countP _ _ _ hlen, countP_range]
      apply List.countP_congr
      intro i hi
      have hi := List.mem_range.1 hi
      rw [Bool.and_eq_true, decide_eq_true_iff]
      refine ⟨fun h => h.2, fun hb => ⟨?_, hb⟩⟩
      rw [hget i hi, hginit i hi, Bool.or_eq_true, decide_eq_true_iff]
      left
      rw [hedge]
      have h1 := hb.1
      have : (1 : ℝ) ≤ q := by exact_mod_cast hq1
      nlinarith
  · intro i v hv hlt
    obtain ⟨hi, hv'⟩ := List.getElem?_eq_some_iff.1 hv
    have hg : vals.getD i 0 = v := by rw [List.getD_eq_getElem?_getD, hv]; rfl
    have : mask.getD i false = true := by
      rw [hget i hi, hginit i hi, hg, Bool.or_eq_true, decide_eq_true_iff]
      left
      rw [hedge]
      linarith
    have hm : i < mask.length := by omega
    rw [List.getD_eq_getElem?_getD, List.getElem?_eq_getElem hm] at this
    rw [List.getElem?_eq_getElem hm]
    exact congrArg some this
  · intro i v hv hlt
    obtain ⟨hi, hv'⟩ := List.getElem?_eq_some_iff.1 hv
    have hg : vals.getD i 0 = v := by rw [List.getD_eq_getElem?_getD, hv]; rfl
    have hu0 : edge u (2 * h + 1) 0 = -u := by simp [edge]
    have : mask.getD i false = false := by
      rw [hget i hi, hginit i hi, hg, Bool.or_eq_false_iff, decide_eq_false_iff_not,
        List.any_eq_false]
      refine ⟨?_, fun k _ hk => ?_⟩
      · have := hmono 0 h (by omega)
        linarith
      · have h1 := (symBin_mem hi hk).1
        have := hmono 0 (2 * h + 1 - k - 2) (by omega)
        rw [hg] at h1
        linarith
    have hm : i < mask.length := by omega
    rw [List.getD_eq_getElem?_getD, List.getElem?_eq_getElem hm] at this
    rw [List.getElem?_eq_getElem hm]
    exact congrArg some this

open Classical in
/-- Where the lower bin of a mirrored pair holds at least as many values as the upper one, equal
numbers are kept on both sides.  Missing: pairs with a fuller upper bin, where the claim is false
(`symmetrizedist_violated`). -/
theorem symmetrizedist_balanced_partial {choice : List ℕ → ℕ → List ℕ} (hc : IsDraw choice)
    {vals : List ℝ} {u : ℝ} (hu : vals.max? = some u) (h0 : 0 < u) (hn : 4 ≤ vals.length) :
    ∃ (mask : List Bool) (h : ℕ) (w : ℝ), symmetrizedist choice vals = .ok mask ∧
      (2 * h + 1) * w = 2 * u ∧ 1 ≤ h ∧
      ∀ q, 1 ≤ q → q ≤ h →
        (vals.countP fun v => decide (HighBin w h q v)) ≤
          (vals.countP fun v => decide (LowBin w q v)) →
        (Selected vals mask).countP (fun v => decide (LowBin w q v)) =
          (Selected vals mask).countP fun v => decide (HighBin w h q v) := by
  obtain ⟨mask, h, w, e, _, hsz, hw, hq, _⟩ := symmetrizedist_kept hc hu h0 hn
  have hs2 : 2 ≤ vals.length.sqrt := Nat.le_sqrt.2 (by omega)
  refine ⟨mask, h, w, e, hw, by omega, fun q h1 h2 hle => ?_⟩
  obtain ⟨a, b⟩ := hq q h1 h2
  rw [a, b]
  exact min_eq_right hle

/-- Values that meet the hypotheses, with a fuller lower bin. -/
example : ([1, -1, -1, -1] : List ℝ).max? = some 1 ∧ 4 ≤ ([1, -1, -1, -1] : List ℝ).length := by
  simp

/-- A valid draw exists (the first `k` entries). -/
example : IsDraw fun l k => l.take k := fun l k hn hk =>
  ⟨hn.sublist (List.take_sublist k l), by simp [hk], List.take_subset k l⟩

open Classical in
/-- Fewer than four values, or no positive value: nothing is removed.  No value at all raises. -/
theorem symmetrizedist_rest (choice : List ℕ → ℕ → List ℕ) (vals : List ℝ) :
    (vals = [] → symmetrizedist choice vals = .error .valueError) ∧
    (vals ≠ [] → (vals.length < 4 ∨ ∀ v ∈ vals, v ≤ 0) →
      symmetrizedist choice vals = .ok (List.replicate vals.length true)) := by
  refine ⟨by rintro rfl; rfl, fun hne h => ?_⟩
  obtain ⟨u, hu⟩ := Option.ne_none_iff_exists'.1 (mt List.max?_eq_none_iff.1 hne)
  unfold symmetrizedist
  rw [hu]
  simp only
  rcases h with h | h
  · have hs : vals.length.sqrt < 2 := Nat.sqrt_lt.2 (by omega)
    have : ¬ histbins vals.length > 2 := by
      unfold histbins
      split_ifs <;> omega
    rw [if_neg this, ite_self]
  · have := h u (List.max?_mem hu)
    rw [if_neg (by linarith)]

open Classical in
/-- The full claim is false: for the values `1, 1, 1, -1` (three bins) one value is kept in the
lower bin and three in its mirror bin, whatever the random outcome. -/
theorem symmetrizedist_violated {choice : List ℕ → ℕ → List ℕ} (hc : IsDraw choice) :
    ∃ mask, symmetrizedist choice [1, 1, 1, -1] = .ok mask ∧
      (Selected [1, 1, 1, -1] mask).countP (fun v => decide (LowBin (2 / 3) 1 v)) = 1 ∧
      (Selected [1, 1, 1, -1] mask).countP (fun v => decide (HighBin (2 / 3) 1 1 v)) = 3 := by
  obtain ⟨mask, h, w, e, _, hsz, hw, hq, _⟩ :=
    symmetrizedist_kept hc (vals := [1, 1, 1, -1]) (u := 1) (by simp) one_pos (by simp)
  have hs : ([1, 1, 1, -1] : List ℝ).length.sqrt = 2 := by
    rw [show ([1, 1, 1, -1] : List ℝ).length = 2 * 2 from rfl, Nat.sqrt_eq]
  obtain rfl : h = 1 := by omega
  have hw' : w = 2 / 3 := by push_cast at hw; linarith
  subst hw'
  obtain ⟨a, b⟩ := hq 1 le_rfl le_rfl
  have l1 : ¬ LowBin (2 / 3) 1 1 := by unfold LowBin; norm_num
  have l2 : LowBin (2 / 3) 1 (-1) := by unfold LowBin; norm_num
  have h1 : HighBin (2 / 3) 1 1 1 := by unfold HighBin; norm_num
  have h2 : ¬ HighBin (2 / 3) 1 1 (-1) := by unfold HighBin; norm_num
  refine ⟨mask, e, ?_, ?_⟩
  · rw [a]
    simp [l1, l2, h1, h2]
  · rw [b]
    simp [h1, h2]

end Verif.Cut
