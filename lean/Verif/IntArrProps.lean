import Verif.IntArrLemmas

/-! Property C137: arrays of integers are treated like the same numbers stored as floats. -/

namespace Verif.IntArr
open Verif
open Verif.Iv (ValErr Nd)

/-- The same numbers as floats. -/
abbrev floats (l : List ℤ) : List ℝ := l.map fun v : ℤ => (v : ℝ)

/-- A shift by a whole number of bins that fills with a whole number is the same for integers and for
floats.  Missing: other fill values and other shifts, see `shift_fill_violated` and `shift_violated`. -/
theorem shift_partial (cast : ℝ → ℤ) (arr : List ℤ) (k fill : ℤ) :
    floats (shift cast arr k fill) = Utils.shift (floats arr) k fill := by
  unfold shift Utils.shift
  rw [Int.floor_intCast, if_pos rfl, if_pos rfl, store_int]
  exact shiftInt_map _ _ _ _

/-- A fill value which is not whole loses its fractional part. -/
theorem shift_fill_violated (cast : ℝ → ℤ) (arr : List ℤ) (k : ℤ) (hk : k ≠ 0) (ha : arr ≠ []) {fill : ℝ}
    (hf : ∀ z : ℤ, (z : ℝ) ≠ fill) :
    floats (shift cast arr k fill) = Utils.shift (floats arr) k (store fill) ∧
      floats (shift cast arr k fill) ≠ Utils.shift (floats arr) k fill := by
  have e : floats (shift cast arr k fill) = Utils.shift (floats arr) k (store fill) := by
    unfold shift Utils.shift
    rw [Int.floor_intCast, if_pos rfl, if_pos rfl]
    exact shiftInt_map _ _ _ _
  refine ⟨e, fun h => ?_⟩
  have hl : 0 < arr.length := List.length_pos_of_ne_nil ha
  have hm : fill ∈ Utils.shift (floats arr) k fill := by
    obtain ⟨i, hi, hno⟩ : ∃ i < (floats arr).length, ¬ ∃ j < (floats arr).length, (i : ℤ) = (j : ℕ) + k := by
      rw [List.length_map]
      rcases lt_or_gt_of_ne hk with q | q
      · exact ⟨arr.length - 1, by omega, by rintro ⟨j, h1, h2⟩; omega⟩
      · exact ⟨0, by omega, by rintro ⟨j, h1, h2⟩; omega⟩
    exact List.mem_of_getElem? (Utils.shift_int_fills (floats arr) k fill i hi hno)
  rw [← h] at hm
  obtain ⟨z, -, hz⟩ := List.mem_map.1 hm
  exact hf z hz

/-- A shift by half a bin: the samples between the bins are not integers, whatever way they are rounded. -/
theorem shift_violated (cast : ℝ → ℤ) :
    floats (shift cast [0, 1] (1 / 2) 0) ≠ Utils.shift (floats [0, 1]) (1 / 2) 0 := by
  intro h
  have hm : (1 / 2 : ℝ) ∈ Utils.shift (floats [0, 1]) (1 / 2) 0 := by
    have hn : ¬ (1 / 2 : ℝ) = (⌊(1 / 2 : ℝ)⌋ : ℝ) := by
      rw [show ⌊(1 / 2 : ℝ)⌋ = 0 by norm_num]
      norm_num
    unfold Utils.shift Utils.ndShift
    rw [if_neg hn]
    refine List.mem_map.2 ⟨1, by simp, ?_⟩
    norm_num [floats]
  rw [← h] at hm
  obtain ⟨z, -, hz⟩ := List.mem_map.1 hm
  have h2 : (2 * z : ℝ) = 1 := by rw [hz]; norm_num
  have : 2 * z = 1 := by exact_mod_cast h2
  omega

/-- `fill_negatives` of integers gives the floats' result with every entry truncated: positive entries are
kept, the others are less than one too small and still positive; if the floats' result is whole the two
agree.  Missing: interpolated values which are not whole, see `fillNegatives_violated`. -/
theorem fillNegatives_partial (arr : List ℤ) :
    fillNegatives arr = (Utils.fillNegatives (floats arr)).map store ∧
      ((∃ v ∈ arr, 0 < v) → ∀ v ∈ fillNegatives arr, 0 < v) ∧
      ((∀ v ∈ Utils.fillNegatives (floats arr), ∃ z : ℤ, v = z) →
        floats (fillNegatives arr) = Utils.fillNegatives (floats arr)) := by
  have e := fillNegatives_store arr
  refine ⟨e, fun h v hv => ?_, fun h => ?_⟩
  · obtain ⟨i, hi⟩ := List.mem_iff_getElem?.1 hv
    have hne : Utils.goodPts (floats arr) ≠ [] := by
      rw [Ne, Utils.goodPts_nil_iff]
      push Not
      obtain ⟨w, h1, h2⟩ := h
      exact ⟨w, List.mem_map.2 ⟨w, h1, rfl⟩, by exact_mod_cast h2⟩
    rw [fillNegatives_getElem?, if_neg hne] at hi
    cases hai : arr[i]? with
    | none => simp [hai] at hi
    | some w =>
      rw [hai] at hi
      simp only [Option.map_some, Option.some.injEq] at hi
      split_ifs at hi with hw
      · cases hq : Np.interp (Utils.goodPts (floats arr)) (i : ℝ) with
        | none =>
          obtain ⟨w, hw'⟩ := Utils.interp_isSome _ hne (i : ℝ)
          rw [hw'] at hq
          cases hq
        | some q =>
          rw [hq] at hi
          simp only [Option.map_some, Option.getD_some] at hi
          have h1 : (1 : ℝ) ≤ q := interp_ge (Utils.goodPts_incX _) hq fun p hp => by
            obtain ⟨m, -, hm, hm3⟩ := (Utils.mem_goodPts _ _).1 hp
            rw [List.getElem?_map] at hm
            obtain ⟨z, -, hz⟩ := Option.map_eq_some_iff.1 hm
            rw [← hz] at hm3 ⊢
            have : 0 < z := by exact_mod_cast hm3
            exact_mod_cast this
          have := store_ge_one h1
          omega
      · omega
  · rw [e, floats, List.map_map]
    conv_rhs => rw [← List.map_id (Utils.fillNegatives (floats arr))]
    refine List.map_congr_left fun v hv => ?_
    obtain ⟨z, rfl⟩ := h v hv
    simp [store_int]

/-- Between 1 and 2 the missing value is 3/2, but 1 for integers. -/
theorem fillNegatives_violated :
    fillNegatives [1, 0, 2] = [1, 1, 2] ∧ Utils.fillNegatives (floats [1, 0, 2]) = [1, 3 / 2, 2] := by
  have h1 : Utils.fillNegatives (floats [1, 0, 2]) = [1, 3 / 2, 2] := by
    apply List.ext_getElem?
    intro i
    rcases i with _ | _ | _ | i
    · exact Utils.fillNegatives_preserves _ 0 1 (by simp [floats]) one_pos
    · rw [Utils.fillNegatives_interior (floats [1, 0, 2]) 1 0 2 1 2 0 (by norm_num) (by norm_num)
        (by simp [floats]) (by simp [floats]) (by norm_num) (by norm_num) (fun m w h1 h2 h3 => by
          obtain rfl : m = 1 := by omega
          simp [floats] at h3
          rw [← h3]) (by simp [floats])]
      norm_num
    · exact Utils.fillNegatives_preserves _ 2 2 (by simp [floats]) two_pos
    · have : (Utils.fillNegatives (floats [1, 0, 2])).length = 3 := by
        rw [Utils.fillNegatives_length]; rfl
      rw [List.getElem?_eq_none (by omega)]
      rfl
  refine ⟨?_, h1⟩
  rw [fillNegatives_store, h1]
  have e1 : store 1 = 1 := by exact_mod_cast store_int 1
  have e2 : store 2 = 2 := by exact_mod_cast store_int 2
  have e3 : store (3 / 2) = 1 := by
    unfold store
    rw [if_neg (by norm_num)]
    norm_num
  simp [e1, e2, e3]

/-- `IBIS.analyze` of integer readings, when it returns, gives the offsets, lines, currents and fitted
resistances of the floats; the resistances and powers at the bias points are truncated.  Missing: those, see
`analyze_violated`. -/
theorem analyze_partial {o : Ibis.Obj} {y x : Ibis.Off} {res' : Ibis.Result} (h : analyze o y x = .ok res') :
    ∃ res, Ibis.analyze o y x = .ok res ∧ res'.slopeN = res.slopeN ∧ res'.intN = res.intN ∧
      res'.slopeSc = res.slopeSc ∧ res'.intSc = res.intSc ∧ res'.ioff = res.ioff ∧
      res'.ibiasOff = res.ibiasOff ∧ res'.rfit = res.rfit ∧ res'.rp = res.rp ∧ res'.rnorm = res.rnorm ∧
      res'.ites = res.ites ∧ res'.ibiasTrue = res.ibiasTrue ∧ res'.vb = res.vb ∧
      ∀ t c i, res'.r0 t c i = ((res.r0 t c i).map fun V => ⟨store V.val, store V.err⟩) ∧
        res'.ptes t c i = ((res.ptes t c i).map fun V => ⟨store V.val, store V.err⟩) := by
  unfold analyze at h
  cases ha : Ibis.analyze o y x with
  | error e => rw [ha] at h; cases h
  | ok res =>
    rw [ha] at h
    dsimp only at h
    split_ifs at h
    cases h
    exact ⟨res, rfl, rfl, rfl, rfl, rfl, rfl, rfl, rfl, rfl, rfl, rfl, rfl, rfl, fun _ _ _ => ⟨rfl, rfl⟩⟩

/-- Resistances below one unit (ohm) become zero. -/
theorem analyze_zero_violated {o : Ibis.Obj} {y x : Ibis.Off} {res res' : Ibis.Result}
    (h : Ibis.analyze o y x = .ok res) (h' : analyze o y x = .ok res') {t c i : ℕ} {V : ValErr}
    (hr : res.r0 t c i = some V) (h0 : 0 < V.val) (h1 : V.val < 1) :
    Ibis.vals (res'.r0 t c i) = some 0 ∧ Ibis.vals (res'.r0 t c i) ≠ Ibis.vals (res.r0 t c i) := by
  obtain ⟨r, h2, h3⟩ := analyze_partial h'
  rw [h] at h2
  cases h2
  have e : Ibis.vals (res'.r0 t c i) = some 0 := by
    rw [(h3.2.2.2.2.2.2.2.2.2.2.2.2 t c i).1, hr]
    simp [Ibis.vals, store_small h0.le h1]
  refine ⟨e, ?_⟩
  rw [e, hr]
  simp only [Ibis.vals, Option.map_some, ne_eq, Option.some.injEq]
  exact h0.ne

/-- A measurement with integer readings, a shunt of 1/1000 and no superconducting fit: the resistance 1/1000
at the first bias point is reported as 0. -/
theorem analyze_violated : ∃ (o : Ibis.Obj) (res res' : Ibis.Result),
    (∀ t c i r, o.data.get t c i = some r → ∃ z : ℤ, r.dites = z) ∧
    Ibis.analyze o .none .none = .ok res ∧ analyze o .none .none = .ok res' ∧
    Ibis.vals (res.r0 0 0 0) = some (1 / 1000) ∧ Ibis.vals (res'.r0 0 0 0) = some 0 := by
  obtain ⟨d, hd, hr0⟩ := demo_r0
  obtain ⟨res, h, hv, -⟩ := Ibis.ibis_units_partial fine hd (.inr rfl)
  have hn : ¬ ∃ t < (fine.obj (Ibis.demo false (some (.d3 ⟨1, 1, 6, fun _ _ _ => ⟨0, 0⟩⟩)))).data.n0,
      ∃ c < (fine.obj (Ibis.demo false (some (.d3 ⟨1, 1, 6, fun _ _ _ => ⟨0, 0⟩⟩)))).data.n1,
      ∃ i < (fine.obj (Ibis.demo false (some (.d3 ⟨1, 1, 6, fun _ _ _ => ⟨0, 0⟩⟩)))).data.n2,
      res.r0 t c i = none := by
    rintro ⟨t, ht, c, hc, i, hi, e⟩
    obtain rfl : t = 0 := Nat.lt_one_iff.1 ht
    obtain rfl : c = 0 := Nat.lt_one_iff.1 hc
    obtain ⟨v, hv', -⟩ := hr0 i hi
    have := hv.r0 0 one_pos 0 one_pos i
    rw [e, hv'] at this
    cases this
  have h' : analyze (fine.obj (Ibis.demo false (some (.d3 ⟨1, 1, 6, fun _ _ _ => ⟨0, 0⟩⟩)))) .none .none =
      .ok { res with
        r0 := fun t c i => (res.r0 t c i).map storeV
        ptes := fun t c i => (res.ptes t c i).map storeV } := by
    unfold analyze
    rw [h]
    dsimp only
    rw [if_neg hn]
  obtain ⟨v, hv', h1⟩ := hr0 0 (by norm_num)
  obtain rfl := h1 rfl
  have e : Ibis.vals (res.r0 0 0 0) = some (1 / 1000) := by
    rw [hv.r0 0 one_pos 0 one_pos 0, hv']
    norm_num [fine]
  refine ⟨_, res, _, fine_integers _ _, h, h', e, ?_⟩
  cases hq : res.r0 0 0 0 with
  | none => rw [hq] at e; cases e
  | some V =>
    rw [hq] at e
    have hV : V.val = 1 / 1000 := Option.some.inj e
    exact (analyze_zero_violated h h' hq (by rw [hV]; norm_num) (by rw [hV]; norm_num)).1

/-- If the TES current vanishes at a bias point the integers' analysis raises, where the floats' returns. -/
theorem analyze_raises_violated {o : Ibis.Obj} {y x : Ibis.Off} {res : Ibis.Result}
    (h : Ibis.analyze o y x = .ok res) {t c i : ℕ} (ht : t < o.data.n0) (hc : c < o.data.n1)
    (hi : i < o.data.n2) (hr : res.r0 t c i = none) : analyze o y x = .error .nan := by
  unfold analyze
  rw [h]
  dsimp only
  rw [if_pos ⟨t, ht, c, hc, i, hi, hr⟩]

/-! ### The hypotheses can be met -/

example (cast : ℝ → ℤ) : floats (shift cast [3, 4, 5] (1 : ℤ) (7 : ℤ)) = [7, 3, 4] := by
  rw [shift_partial]
  norm_num [Utils.shift, Utils.shiftInt, Np.sliceTo, Np.clipIdx, floats]
  rfl

example (cast : ℝ → ℤ) : floats (shift cast [3, 4, 5] (1 : ℤ) (1 / 2)) ≠ Utils.shift (floats [3, 4, 5]) (1 : ℤ) (1 / 2) :=
  (shift_fill_violated cast [3, 4, 5] 1 one_ne_zero (by simp) fun z h => by
    have h2 : (2 * z : ℝ) = 1 := by rw [h]; norm_num
    have : 2 * z = 1 := by exact_mod_cast h2
    omega).2

/-- The demonstration set with a superconducting fit in fine units: at the last point no current flows, and
the integers' analysis raises. -/
example : ∃ (o : Ibis.Obj) (res : Ibis.Result), (∀ t c i r, o.data.get t c i = some r → ∃ z : ℤ, r.dites = z) ∧
    Ibis.analyze o .none .none = .ok res ∧ analyze o .none .none = .error .nan := by
  obtain ⟨d, hd, -, -, -, -, hib, hio, -, hrp⟩ := Ibis.demo_sc none
  obtain ⟨res, h, hv, -⟩ := Ibis.ibis_units_partial fine hd (.inl rfl)
  refine ⟨_, res, fine_integers _ _, h, analyze_raises_violated h (t := 0) (c := 0) (i := 5) one_pos one_pos
    (by norm_num [fine, Ibis.Units.obj, Ibis.demo]) ?_⟩
  have hd5 : d.r0 0 0 5 = none := by
    obtain ⟨nf, sf, src, ioff, ibo, rp, -, -, -, -, rfl⟩ := Ibis.analyze_ok hd
    have e : (ioff 0 0 0).val = 1 := by
      have := congrArg ValErr.val hio
      exact this
    norm_num [Ibis.assemble, Ibis.demo, e]
  have := hv.r0 0 one_pos 0 one_pos 5
  rw [hd5] at this
  cases hq : res.r0 0 0 5 with
  | none => rfl
  | some V => rw [hq] at this; cases this

end Verif.IntArr
