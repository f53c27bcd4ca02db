import Verif.IbisUnitsLemmas

/-!
C130: how the IBIS results depend on units and on the zeros of the two currents.  The values are
physical; the errors of the offsets depend on where the zero of the bias current is, and without the
superconducting fit also on the zero of the readout.
-/

namespace Verif.Ibis
open Verif LineFit
open Verif.Iv (A3 Nd ValErr)

/-- The analysis in other units fails exactly when it fails in the original ones, with the same
exception. -/
theorem ibis_units_error (u : Units) (o : Obj) (x : Err) :
    analyze (u.obj o) .none .none = .error x ↔ analyze o .none .none = .error x := by
  unfold analyze
  rw [show (u.obj o).normalinds = o.normalinds from rfl]
  have h1' := fits_units u o o.normalinds
  cases h1 : o.fits o.normalinds with
  | error e => rw [h1', h1]; rfl
  | ok nf =>
  rw [h1] at h1'
  simp only [Except.map] at h1'
  rw [h1']
  simp only
  have e1 := fun t (ht : t < o.data.n0) c (hc : c < o.data.n1) => fitAt_units u h1 h1' ht hc
  cases hsc : o.fitsc with
  | true =>
    unfold Obj.scFits
    rw [hsc, show (u.obj o).fitsc = true from hsc, show (u.obj o).scinds = o.scinds from rfl]
    simp only [if_true]
    cases o.scinds with
    | none => rfl
    | some inds =>
      simp only
      have hf' := fits_units u o inds
      cases hf : o.fits inds with
      | error e => rw [hf', hf]; rfl
      | ok sf =>
        rw [hf] at hf'
        simp only [Except.map] at hf'
        rw [hf']
        simp only
        have e2 := fun t (ht : t < o.data.n0) c (hc : c < o.data.n1) => fitAt_units u hf hf' ht hc
        rw [show (u.obj o).data.n0 = o.data.n0 from rfl, show (u.obj o).data.n1 = o.data.n1 from rfl]
        by_cases hn : o.data.n0 = 0 ∨ o.data.n1 = 0
        · rw [if_pos hn, if_pos hn]
        rw [if_neg hn, if_neg hn]
        have hc : (∃ t < o.data.n0, ∃ c < o.data.n1, (fitAt (sf.map (List.map u.fit)) t c).m =
            (fitAt (nf.map (List.map u.fit)) t c).m) ↔
            ∃ t < o.data.n0, ∃ c < o.data.n1, (fitAt sf t c).m = (fitAt nf t c).m := by
          constructor
          · rintro ⟨t, ht, c, hc, e⟩
            refine ⟨t, ht, c, hc, ?_⟩
            rwa [e1 t ht c hc, e2 t ht c hc, fit_m, fit_m] at e
          · rintro ⟨t, ht, c, hc, e⟩
            refine ⟨t, ht, c, hc, ?_⟩
            rwa [e1 t ht c hc, e2 t ht c hc, fit_m, fit_m]
        by_cases hm : ∃ t < o.data.n0, ∃ c < o.data.n1, (fitAt sf t c).m = (fitAt nf t c).m
        · rw [if_pos hm, if_pos (hc.2 hm)]
        · rw [if_neg hm, if_neg (fun h => hm (hc.1 h))]
          simp only [offsets, rpValues]
          constructor <;> intro h <;> cases h
  | false =>
    unfold Obj.scFits
    rw [hsc, show (u.obj o).fitsc = false from hsc]
    simp only [Bool.false_eq_true, if_false, Units.obj]
    cases o.rp with
    | none => rfl
    | some a =>
      simp only [Option.map_some]
      cases a with
      | d1 b => rfl
      | d2 b => rfl
      | other => rfl
      | d3 b =>
        simp only [offsets, rpValues, ndMap]
        constructor <;> intro h <;> cases h

/-- **Units and zeros.**  Whatever the common unit of the currents, the unit of resistance and the zero of
the readout, and — with the superconducting fit — the zero of the bias current, the analysis gives the same
physical offsets, currents, resistances and powers, and the same errors of the fitted resistances.  If the
zero of the bias current is kept, and without the superconducting fit also that of the readout, all errors
are the same. -/
theorem ibis_units_partial (u : Units) {o : Obj} {res : Result} (h : analyze o .none .none = .ok res)
    (hz : o.fitsc = true ∨ u.e = 0) :
    ∃ res', analyze (u.obj o) .none .none = .ok res' ∧ SameValues u o res res' ∧
      (u.e = 0 → (o.fitsc = true ∨ u.d = 0) → SameErrors u o res res') := by
  cases hsc : o.fitsc with
  | true =>
    obtain ⟨inds, nf, sf, nf', sf', -, -, -, he, rfl, h'⟩ := analyze_units_sc u hsc h
    refine ⟨_, h', ?_, fun hu _ => ?_⟩
    · refine assemble_values u (fun t ht c hc => (he t ht c hc).1) (fun t ht c hc => ?_)
        (fun t ht c hc i => ?_) (fun t ht c hc i => ?_) (fun t ht c hc => ?_)
      · rw [(he t ht c hc).2.1, fit_m]
      · simp only [yOff, (he t ht c hc).1, (he t ht c hc).2.1, intY_units u (he t ht c hc).2.2]
      · simp only [xOff, (he t ht c hc).1, (he t ht c hc).2.1, intX_units u (he t ht c hc).2.2]
      · rw [(he t ht c hc).2.1, rpOf_units]
    · refine assemble_errors u (fun t ht c hc i => ?_) (fun t ht c hc i => ?_) (fun t ht c hc i => ?_)
        (fun t ht c hc i => ?_) (fun t ht c hc => ?_)
      · simp only [yOff, (he t ht c hc).1, (he t ht c hc).2.1, intY_units u (he t ht c hc).2.2]
      · simp only [xOff, (he t ht c hc).1, (he t ht c hc).2.1, intX_units u (he t ht c hc).2.2]
      · simp only [yOff, (he t ht c hc).1, (he t ht c hc).2.1, intYErr_units u hu]
      · simp only [xOff, (he t ht c hc).1, (he t ht c hc).2.1, intXErr_units u hu]
      · rw [(he t ht c hc).2.1, rpOf_units]
  | false =>
    have hu : u.e = 0 := hz.resolve_left (by rw [hsc]; simp)
    obtain ⟨nf, nf', b, -, -, he, rfl, h'⟩ := analyze_units_nosc u hsc h
    have hs : ∀ t c, fitAt [] t c = noFit := fun t c => rfl
    have hyv : ∀ t < o.data.n0, ∀ c < o.data.n1, ∀ i, (yOff false (fitAt nf') (fitAt []) t c i).val =
        u.a * (yOff false (fitAt nf) (fitAt []) t c i).val + u.d := by
      intro t ht c hc i
      simp only [yOff, he t ht c hc, intY, Bool.false_eq_true, if_false, fit_b, hu]
      ring
    have hxv : ∀ t < o.data.n0, ∀ c < o.data.n1, ∀ i, (xOff false (fitAt nf') (fitAt []) t c i).val =
        u.a * (xOff false (fitAt nf) (fitAt []) t c i).val + u.e := by
      intro t ht c hc i
      simp only [xOff, intX, Bool.false_eq_true, if_false, hu]
      ring
    refine ⟨_, h', ?_, fun _ hd => ?_⟩
    · exact assemble_values u he (fun _ _ _ _ => rfl) hyv hxv (fun _ _ _ _ => rfl)
    · have hd' : u.d = 0 := hd.resolve_left (by simp)
      refine assemble_errors u hyv hxv (fun t ht c hc i => ?_) (fun t ht c hc i => ?_)
        (fun _ _ _ _ => rfl)
      · simp only [yOff, he t ht c hc, hs, intYErr_nosc u hu hd']
      · simp only [xOff, he t ht c hc, hs, intXErr_nosc u hu hd']

/-- Each temperature and channel is analysed by itself: a measurement whose rows all occur in another one
gives their results, whatever the other rows and their order. -/
theorem ibis_rows {o o' : Obj} {res : Result} (h : analyze o .none .none = .ok res)
    (hset : SameSettings o o') (h0 : 0 < o'.data.n0) (h1 : 0 < o'.data.n1) (src : ℕ → ℕ → ℕ × ℕ)
    (hs : ∀ t < o'.data.n0, ∀ c < o'.data.n1, (src t c).1 < o.data.n0 ∧ (src t c).2 < o.data.n1 ∧
      SameRow o o' (src t c).1 (src t c).2 t c) :
    ∃ res', analyze o' .none .none = .ok res' ∧ ∀ t < o'.data.n0, ∀ c < o'.data.n1,
      SameRowResult o.data.n2 res res' (src t c).1 (src t c).2 t c := by
  have hset' := hset
  obtain ⟨e1, e2, e3, e4, e5, e6⟩ := hset'
  have hs' : ∀ t < o'.data.n0, ∀ c < o'.data.n1, (src t c).1 < o.data.n0 ∧ (src t c).2 < o.data.n1 ∧
      ∀ i < o.data.n2, o'.data.get t c i = o.data.get (src t c).1 (src t c).2 i :=
    fun t ht c hc => ⟨(hs t ht c hc).1, (hs t ht c hc).2.1, (hs t ht c hc).2.2.1⟩
  obtain ⟨nf, sf, src0, ioff, ibo, rp, k1, k2, k3, k4, rfl⟩ := analyze_ok h
  obtain ⟨nf', kn, hn⟩ := fits_rows k1 e6 hs'
  unfold offsets at k3
  cases k3
  unfold analyze
  rw [e1, kn]
  simp only
  cases hsc : o.fitsc with
  | true =>
    obtain ⟨inds, hi, hf, hm, rfl⟩ := scFits_fit hsc k2
    obtain ⟨sf', ks, hsf⟩ := fits_rows hf e6 hs'
    cases k4
    have k2' : o'.scFits nf' = .ok (sf', .inr fun s => rpOf o s) := by
      unfold Obj.scFits
      rw [e2, if_pos hsc, e3, hi]
      simp only [ks]
      rw [if_neg (by omega), if_neg]
      · rw [e4, e5]; rfl
      · rintro ⟨t, ht, c, hc, e⟩
        rw [hsf t ht c hc, hn t ht c hc] at e
        exact hm _ (hs t ht c hc).1 _ (hs t ht c hc).2.1 e
    rw [k2']
    simp only [offsets, rpValues]
    refine ⟨_, rfl, fun t ht c hc => ?_⟩
    refine assemble_row hset (hs' t ht c hc).2.2 (hn t ht c hc) (hsf t ht c hc) (fun i => ?_) (fun i => ?_)
      ?_
    · simp only [hn t ht c hc, hsf t ht c hc, e2, hsc]
    · simp only [hn t ht c hc, hsf t ht c hc, e2, hsc]
    · rw [hsf t ht c hc]; rfl
  | false =>
    obtain ⟨a, hi, rfl, rfl⟩ := scFits_nofit hsc k2
    obtain ⟨b, b', hb, hb', -⟩ := (hs 0 h0 0 h1).2.2.2 hsc
    rw [hi] at hb
    cases hb
    cases k4
    have k2' : o'.scFits nf' = .ok ([], .inl (.d3 b')) := by
      unfold Obj.scFits
      rw [e2, hsc, if_neg (by simp), hb']
    rw [k2']
    simp only [offsets, rpValues]
    refine ⟨_, rfl, fun t ht c hc => ?_⟩
    refine assemble_row hset (hs' t ht c hc).2.2 (hn t ht c hc) rfl (fun i => ?_) (fun i => ?_) ?_
    · simp only [hn t ht c hc, e2, hsc]; rfl
    · simp only [hn t ht c hc, e2, hsc]; rfl
    · obtain ⟨q, q', hq, hq', e⟩ := (hs t ht c hc).2.2.2 hsc
      rw [hi] at hq
      rw [hb'] at hq'
      cases hq
      cases hq'
      exact e

/-- Non-vacuity: the row of `demo` measured at two temperatures. -/
example : ∃ res', analyze { demo true none with
      data := ⟨2, 1, 6, fun _ _ i => (demo true none).data.get 0 0 i⟩ } .none .none = .ok res' ∧
    (res'.rfit 1 0) = ⟨2, 8⟩ := by
  obtain ⟨res, h, -, -, -, -, -, -, h7, -⟩ := demo_sc none
  obtain ⟨res', h', hr⟩ := ibis_rows (o' := { demo true none with
      data := ⟨2, 1, 6, fun _ _ i => (demo true none).data.get 0 0 i⟩ }) h
    ⟨rfl, rfl, rfl, rfl, rfl, rfl⟩ (by norm_num) (by norm_num) (fun _ _ => (0, 0)) (by
      intro t _ c _
      refine ⟨Nat.one_pos, Nat.one_pos, fun i _ => rfl, fun e => ?_⟩
      cases e)
  exact ⟨res', h', ((hr 1 (by norm_num) 0 (by norm_num)).2.2.2.2.2.2.1).trans h7⟩

/-- Only the zero of the bias current moves. -/
noncomputable def biasShift (e : ℝ) : Units := ⟨1, 1, 0, e, one_ne_zero, one_pos⟩

/-- Only the zero of the readout moves. -/
noncomputable def readoutShift (d : ℝ) : Units := ⟨1, 1, d, 0, one_ne_zero, one_pos⟩

/-- The errors of the offsets depend on where the zero of the bias current is: the correlation between
slope and intercept of a line, which depends on it, is left out.  For `demo` the variance of the bias offset
is 116/3; with the bias currents counted from 4 it is 212/3. -/
theorem bias_zero_violated : ∃ res res', analyze (demo true none) .none .none = .ok res ∧
    analyze ((biasShift (-4)).obj (demo true none)) .none .none = .ok res' ∧
    (res'.ibiasOff 0 0).val = (res.ibiasOff 0 0).val - 4 ∧
    (res.ibiasOff 0 0).err ^ 2 = 116 / 3 ∧ (res'.ibiasOff 0 0).err ^ 2 = 212 / 3 := by
  obtain ⟨res, h, -⟩ := demo_sc none
  obtain ⟨f1, f2⟩ := demo_fits true none
  obtain ⟨inds, nf, sf, nf', sf', hi, hn, hs, he, rfl, h'⟩ := analyze_units_sc (biasShift (-4)) rfl h
  rw [show (demo true none).normalinds = [0, 1, 2] from rfl, f1] at hn
  rw [show (demo true none).scinds = some [3, 4, 5] from rfl] at hi
  cases hi
  rw [f2] at hs
  cases hn
  cases hs
  obtain ⟨e1, e2, -⟩ := he 0 Nat.one_pos 0 Nat.one_pos
  refine ⟨_, _, h, h', ?_, ?_, ?_⟩
  · simp only [assemble, xOff, e1, e2]
    norm_num [fitAt, Units.fit, affFit, biasShift, intX]
  · simp only [assemble, xOff]
    rw [intXErr_sq] <;> norm_num [fitAt]
  · simp only [assemble, xOff, e1, e2]
    rw [intXErr_sq] <;> norm_num [fitAt, Units.fit, affFit, biasShift]

/-- Without the superconducting fit the errors of the offsets depend on the zero of the readout, too.  For
`demo` the variance assigned to the bias offset, which is the constant zero, is 106/3; with the readout
shifted by 1 it is 154/3. -/
theorem readout_zero_violated :
    ∃ res res', analyze (demo false (some (.d3 ⟨1, 1, 6, fun _ _ _ => ⟨0, 0⟩⟩))) .none .none = .ok res ∧
      analyze ((readoutShift 1).obj (demo false (some (.d3 ⟨1, 1, 6, fun _ _ _ => ⟨0, 0⟩⟩))))
        .none .none = .ok res' ∧
      (res.ibiasOff 0 0).err ^ 2 = 106 / 3 ∧ (res'.ibiasOff 0 0).err ^ 2 = 154 / 3 := by
  obtain ⟨res, h, -⟩ := demo_nosc ⟨0, 0⟩
  obtain ⟨f1, -⟩ := demo_fits false (some (.d3 ⟨1, 1, 6, fun _ _ _ => ⟨0, 0⟩⟩))
  obtain ⟨nf, nf', b, -, hn, he, rfl, h'⟩ := analyze_units_nosc (readoutShift 1) rfl h
  rw [show (demo false (some (.d3 ⟨1, 1, 6, fun _ _ _ => ⟨0, 0⟩⟩))).normalinds = [0, 1, 2] from rfl, f1]
    at hn
  cases hn
  have e1 := he 0 Nat.one_pos 0 Nat.one_pos
  refine ⟨_, _, h, h', ?_, ?_⟩
  · simp only [assemble, xOff]
    rw [intXErr_sq] <;> norm_num [fitAt, noFit]
  · simp only [assemble, xOff, e1]
    rw [intXErr_sq] <;> norm_num [fitAt, Units.fit, affFit, readoutShift, noFit]

/-- Non-vacuity: `demo` in milliamperes and milliohms with both polarities reversed and both zeros moved. -/
example : ∃ res', analyze (Units.obj ⟨-1000, 1000, 3, 5, by norm_num, by norm_num⟩ (demo true none))
    .none .none = .ok res' ∧ (res'.ioff 0 0).val = -997 ∧ (res'.ibiasOff 0 0).val = -995 ∧
    (res'.rfit 0 0) = ⟨2000, 8000⟩ := by
  obtain ⟨res, h, -, -, -, -, h5, h6, h7, -⟩ := demo_sc none
  obtain ⟨res', h', hv, -⟩ := ibis_units_partial ⟨-1000, 1000, 3, 5, by norm_num, by norm_num⟩ h (.inl rfl)
  refine ⟨res', h', ?_, ?_, ?_⟩
  · rw [hv.ioff 0 Nat.one_pos 0 Nat.one_pos, h6]; norm_num
  · rw [hv.ibiasOff 0 Nat.one_pos 0 Nat.one_pos, h5]; norm_num
  · rw [hv.rfit 0 Nat.one_pos 0 Nat.one_pos, h7]; norm_num [scale]

end Verif.Ibis
