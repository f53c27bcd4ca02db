import Verif.IntArr
import Verif.UtilsProps
import Verif.IbisUnitsProps

/-! Helper lemmas for C137. -/

namespace Verif.IntArr
open Verif
open Verif.Iv (ValErr)

theorem store_int (k : ℤ) : store (k : ℝ) = k := by
  unfold store
  split_ifs <;> simp

theorem store_close (v : ℝ) : |(store v : ℝ)| ≤ |v| ∧ |v - store v| < 1 := by
  unfold store
  split_ifs with h
  · have h1 := Int.ceil_lt_add_one v
    have h2 := Int.le_ceil v
    have h3 : ((⌈v⌉ : ℤ) : ℝ) ≤ 0 := by exact_mod_cast Int.ceil_le.2 (by simpa using h.le)
    rw [abs_of_nonpos h3, abs_of_neg h, abs_of_nonpos (by linarith)]
    constructor <;> linarith
  · push Not at h
    have h1 := Int.floor_le v
    have h2 := Int.lt_floor_add_one v
    have h3 : (0 : ℝ) ≤ ⌊v⌋ := by exact_mod_cast Int.floor_nonneg.2 h
    rw [abs_of_nonneg h3, abs_of_nonneg h, abs_of_nonneg (by linarith)]
    constructor <;> linarith

theorem store_small {v : ℝ} (h0 : 0 ≤ v) (h1 : v < 1) : store v = 0 := by
  unfold store
  rw [if_neg (not_lt.2 h0), Int.floor_eq_zero_iff]
  exact ⟨h0, h1⟩

theorem store_ge_one {v : ℝ} (h : 1 ≤ v) : 1 ≤ store v := by
  unfold store
  rw [if_neg (by linarith), Int.le_floor]
  simpa using h

theorem shiftInt_map {α β : Type} (f : α → β) (l : List α) (k : ℤ) (v : α) :
    (Utils.shiftInt l k v).map f = Utils.shiftInt (l.map f) k (f v) := by
  unfold Utils.shiftInt Np.sliceTo Np.sliceFrom
  simp only [List.length_map]
  split_ifs <;> simp [List.map_take, List.map_drop]

theorem fillNegatives_getElem? (arr : List ℤ) (i : ℕ) :
    (fillNegatives arr)[i]? = if Utils.goodPts (arr.map fun v : ℤ => (v : ℝ)) = [] then arr[i]? else
      arr[i]?.map fun v => if v ≤ 0 then
        ((Np.interp (Utils.goodPts (arr.map fun v : ℤ => (v : ℝ))) (i : ℝ)).map store).getD v else v := by
  unfold fillNegatives
  simp only [ne_eq, List.length_eq_zero_iff]
  split_ifs with h
  · rfl
  · rw [List.getElem?_map, List.getElem?_zipIdx]
    cases arr[i]? with
    | none => rfl
    | some v =>
      simp only [Option.map_some, zero_add]
      split_ifs
      · cases Np.interp (Utils.goodPts (arr.map fun v : ℤ => (v : ℝ))) (i : ℝ) <;> rfl
      · rfl

/-- The filled array of integers is the filled array with every entry truncated. -/
theorem fillNegatives_store (arr : List ℤ) :
    fillNegatives arr = (Utils.fillNegatives (arr.map fun v : ℤ => (v : ℝ))).map store := by
  apply List.ext_getElem?
  intro i
  rw [fillNegatives_getElem?, List.getElem?_map, Utils.fillNegatives_getElem?, List.getElem?_map]
  split_ifs with h
  · cases arr[i]? <;> simp [store_int]
  · cases arr[i]? with
    | none => rfl
    | some v =>
      simp only [Option.map_some, Int.cast_nonpos]
      split_ifs with hv
      · cases Np.interp (Utils.goodPts (arr.map fun v : ℤ => (v : ℝ))) (i : ℝ) <;> simp [store_int]
      · simp [store_int]

theorem interp_ge {l : List (ℝ × ℝ)} (hx : Utils.IncX l) {x v lo : ℝ} (h : Np.interp l x = some v)
    (hl : ∀ p ∈ l, lo ≤ p.2) : lo ≤ v := by
  obtain ⟨hi, hmax⟩ : ∃ hi : ℝ, ∀ p ∈ l, p.2 ≤ hi := by
    clear h hl hx
    induction l with
    | nil => exact ⟨0, by simp⟩
    | cons p l ih =>
      obtain ⟨hi, h2⟩ := ih
      refine ⟨max hi p.2, fun q hq => ?_⟩
      rcases List.mem_cons.1 hq with rfl | hq
      · exact le_max_right _ _
      · exact (h2 q hq).trans (le_max_left _ _)
  exact (Utils.interp_between _ hx _ _ lo hi h fun p hp => ⟨hl p hp, hmax p hp⟩).1

/-- Currents in half units, resistances in thousandths. -/
noncomputable def fine : Ibis.Units := ⟨2, 1 / 1000, 0, 0, two_ne_zero, by norm_num⟩

/-- In these units all the readings of the demonstration sets are integers. -/
theorem fine_integers (fitsc : Bool) (rp : Option (Iv.Nd ValErr)) (t c i : ℕ) (r : Ibis.Reading)
    (h : (fine.obj (Ibis.demo fitsc rp)).data.get t c i = some r) : ∃ z : ℤ, r.dites = z := by
  simp only [fine, Ibis.Units.obj, Ibis.demo, Option.map_some, Option.some.injEq] at h
  rw [← h]
  split_ifs
  · refine ⟨i + 4, ?_⟩
    simp only [Ibis.Units.reading]
    push_cast
    ring
  · refine ⟨2 * i - 8, ?_⟩
    simp only [Ibis.Units.reading]
    push_cast
    ring

theorem demo_r0 : ∃ d, Ibis.analyze (Ibis.demo false (some (.d3 ⟨1, 1, 6, fun _ _ _ => ⟨0, 0⟩⟩))) .none .none =
    .ok d ∧ ∀ i < 6, ∃ v : ℝ, Ibis.vals (d.r0 0 0 i) = some v ∧ (i = 0 → v = 1) := by
  obtain ⟨f1, -⟩ := Ibis.demo_fits false (some (.d3 ⟨1, 1, 6, fun _ _ _ => ⟨0, 0⟩⟩))
  unfold Ibis.analyze
  rw [show (Ibis.demo false (some (.d3 ⟨1, 1, 6, fun _ _ _ => ⟨0, 0⟩⟩))).normalinds = [0, 1, 2] from rfl, f1]
  refine ⟨_, rfl, fun i hi => ?_⟩
  interval_cases i <;>
    norm_num [Ibis.assemble, Ibis.fitAt, Ibis.intX, Ibis.intY, Ibis.demo, Ibis.vals, Ibis.rtes]

end Verif.IntArr
