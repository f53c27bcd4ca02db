import Verif.CutAutoProps
import Verif.CutScaleProps
import Verif.OFFunLemmas

/-! Helper lemmas for C105. -/

namespace Verif.Cut
open Verif Verif.Dft Verif.OF Verif.OF.Fun

variable {n : ℕ} [NeZero n]

theorem argminGo_scale {f : ℤ → ℝ} {c : ℝ} (hc : 0 < c) (l : List ℤ) :
    ∀ b, argminGo (fun i => c * f i) b l = argminGo f b l := by
  induction l with
  | nil => intro b; rfl
  | cons a l ih =>
    intro b
    unfold argminGo
    rw [ih, ih]
    simp only [mul_lt_mul_iff_right₀ hc]

theorem argminOn_scale {f : ℤ → ℝ} {c : ℝ} (hc : 0 < c) (l : List ℤ) :
    argminOn (fun i => c * f i) l = argminOn f l := by
  cases l with
  | nil => rfl
  | cons a l => exact congrArg some (argminGo_scale hc l a)

/-- A trace in other units, with an offset. -/
def scaled (a o : ℝ) (x : ZMod n → ℝ) : ZMod n → ℝ := fun i => a * x i + o

theorem toFreq_scaled (fs a o : ℝ) (x : ZMod n → ℝ) {k : ZMod n} (hk : k ≠ 0) :
    toFreq fs (scaled a o x) k = (a : ℂ) * toFreq fs x k := by
  unfold toFreq scaled
  rw [fftR_add (fun i => a * x i) fun _ => o, fftR_const, if_neg hk, add_zero, fftR_smul]
  ring

omit [NeZero n] in
theorem recip_ac (psd : ZMod n → WithTop ℝ) : recip (acPsd psd true (0 : ZMod n)) = 0 := by
  simp [acPsd, recip]

theorem filt_scaled (s : ZMod n → ℂ) (fs a o : ℝ) (x : ZMod n → ℝ) (psd : ZMod n → WithTop ℝ)
    (m : ZMod n) :
    filt s (toFreq fs (scaled a o x)) (acPsd psd true) fs m =
      a * filt s (toFreq fs x) (acPsd psd true) fs m := by
  unfold filt
  have e : (fun k => phi s (acPsd psd true) k * toFreq fs (scaled a o x) k /
      (OF.Fun.norm s (acPsd psd true) fs : ℂ) * (n : ℂ)) =
      fun k => (a : ℂ) * (phi s (acPsd psd true) k * toFreq fs x k /
      (OF.Fun.norm s (acPsd psd true) fs : ℂ) * (n : ℂ)) := by
    funext k
    by_cases hk : k = 0
    · subst hk
      have : phi s (acPsd psd true) 0 = 0 := by
        unfold phi
        rw [recip_ac]
        simp
      rw [this]
      ring
    · rw [toFreq_scaled fs a o x hk]
      ring
  rw [e]
  have e2 : ∀ (g : ZMod n → ℂ), ifft (fun k => (a : ℂ) * g k) m = (a : ℂ) * ifft g m := by
    intro g
    have := congrFun ((ZMod.dft (N := n) (E := ℂ)).symm.map_smul (a : ℂ) g) m
    exact this
  rw [e2, Complex.re_ofReal_mul, mul_assoc]

theorem chi0_scaled (fs a o : ℝ) (x : ZMod n → ℝ) (psd : ZMod n → WithTop ℝ) :
    chi0 (toFreq fs (scaled a o x)) (acPsd psd true) fs =
      a ^ 2 * chi0 (toFreq fs x) (acPsd psd true) fs := by
  unfold chi0
  have e : ∀ k, starRingEnd ℂ (toFreq fs (scaled a o x) k) * (recip (acPsd psd true k) : ℂ) *
      toFreq fs (scaled a o x) k = ((a ^ 2 : ℝ) : ℂ) * (starRingEnd ℂ (toFreq fs x k) *
        (recip (acPsd psd true k) : ℂ) * toFreq fs x k) := by
    intro k
    by_cases hk : k = 0
    · subst hk
      rw [recip_ac]
      simp
    · rw [toFreq_scaled fs a o x hk]
      simp only [map_mul, Complex.conj_ofReal]
      push_cast
      ring
  rw [Finset.sum_congr rfl fun k _ => e k, ← Finset.mul_sum, Complex.re_ofReal_mul, mul_assoc]

/-- The optimum filter (AC coupled) of a trace in other units and with an offset. -/
theorem ofamp_scaled (T : ZMod n → ℝ) (psd : ZMod n → WithTop ℝ) (fs : ℝ) {a : ℝ} (ha : a ≠ 0)
    (o : ℝ) (x : ZMod n → ℝ) :
    ofamp [scaled a o x] T psd fs true true none false false =
      (ofamp [x] T psd fs true true none false false).map
        fun l => l.map fun p => (a * p.1, p.2.1, a ^ 2 * p.2.2) := by
  obtain ⟨chi, hchi⟩ : ∃ chi, chi = fun m => chi0 (toFreq fs x) (acPsd psd true) fs -
        filt (tmpl T fs false) (toFreq fs x) (acPsd psd true) fs m ^ 2 *
          OF.Fun.norm (tmpl T fs false) (acPsd psd true) fs := ⟨_, rfl⟩
  have hc : (fun m => chi0 (toFreq fs (scaled a o x)) (acPsd psd true) fs -
        filt (tmpl T fs false) (toFreq fs (scaled a o x)) (acPsd psd true) fs m ^ 2 *
          OF.Fun.norm (tmpl T fs false) (acPsd psd true) fs) =
      fun m => a ^ 2 * chi m := by
    funext m
    rw [chi0_scaled, filt_scaled, hchi]
    ring
  have hf : filt (tmpl T fs false) (toFreq fs (scaled a o x)) (acPsd psd true) fs =
      fun m => a * filt (tmpl T fs false) (toFreq fs x) (acPsd psd true) fs m :=
    funext fun m => filt_scaled _ _ _ _ _ _ _
  unfold ofamp
  simp only [if_true, List.map_cons, List.map_nil]
  rw [hc, hf, ← hchi]
  generalize filt (tmpl T fs false) (toFreq fs x) (acPsd psd true) fs = amp
  have hr : argminRows [roll (fun m => a ^ 2 * chi m) ((n / 2 : ℕ) : ZMod n)] none false =
      argminRows [roll chi ((n / 2 : ℕ) : ZMod n)] none false := by
    unfold argminRows
    simp only [List.map_cons, List.map_nil]
    have : asIdx (roll (fun m => a ^ 2 * chi m) ((n / 2 : ℕ) : ZMod n)) =
        fun i => a ^ 2 * asIdx (roll chi ((n / 2 : ℕ) : ZMod n)) i := rfl
    rw [this, argminOn_scale (by positivity)]
  rw [hr]
  rcases argminRows [roll chi ((n / 2 : ℕ) : ZMod n)] none false with e | _ | inds
  · rfl
  · rfl
  · rcases inds with _ | ⟨i, is⟩
    · rfl
    · simp [Except.map, diagAt, roll]

theorem mapM_ok_map {α β γ : Type*} (f : α → Except Err β) (f' : α → Except Err γ) (g : β → γ)
    (l : List α) (h : ∀ x ∈ l, f' x = (f x).map g) :
    l.mapM f' = (l.mapM f).map fun r => r.map g := by
  induction l with
  | nil => rfl
  | cons x l ih =>
    rw [List.mapM_cons, List.mapM_cons, h x (by simp), ih fun y hy => h y (by simp [hy])]
    cases f x with
    | error e => rfl
    | ok y =>
      cases l.mapM f with
      | error e => rfl
      | ok r => rfl

theorem ofAll_scaled (fs : ℝ) {a : ℝ} (ha : a ≠ 0) (prs : List (ℝ × (ZMod n → ℝ))) :
    ofAll fs (prs.map fun p => scaled a p.1 p.2) =
      (ofAll fs (prs.map Prod.snd)).map fun l => l.map fun p => (a * p.1, a ^ 2 * p.2) := by
  unfold ofAll
  rw [List.mapM_map, List.mapM_map]
  refine mapM_ok_map _ _ _ _ fun p _ => ?_
  simp only [Function.comp]
  rw [ofamp_scaled _ _ _ ha]
  cases ofamp [p.2] (dummyTemplate fs) (fun _ => ((1 : ℝ) : WithTop ℝ)) fs true true none
    false false with
  | error e => rfl
  | ok l =>
    rcases l with _ | ⟨p, l⟩
    · simp [Except.map]
    · simp [Except.map]

omit [NeZero n] in
theorem runAlgo_affine (env : Env) (algo : Algo) (nsig : ℝ) (len : ℕ) {a : ℝ} (ha : 0 < a) (b : ℝ)
    (l : List ℝ) :
    runAlgo env algo nsig len (some (l.map fun x => a * x + b)) =
      runAlgo env algo nsig len (some l) := by
  cases algo with
  | other => rfl
  | removeoutliers =>
    unfold runAlgo
    simp only
    rw [← removeoutliers_affine env.deg ha b env.fuel (l.map fun v => ((v : ℝ) : WithTop ℝ)),
      List.map_map, List.map_map]
    rfl
  | iterstat =>
    unfold runAlgo
    simp only
    rw [iterstat_affine ha.ne']
    cases iterstat env.fuel l nsig 10000 <;> rfl

theorem removeMean_scaled (x : ZMod n → ℝ) : removeMean x = scaled 1 (-((∑ j, x j) / n)) x := by
  funext i
  unfold removeMean scaled
  ring

/-- The mean of a trace over the bins `a .. b-1`. -/
noncomputable def winMean (a b : ℤ) (x : ZMod n → ℝ) : ℝ :=
  ((List.range (b - a).toNat).map fun (i : ℕ) => x (((a + i : ℤ)) : ZMod n)).sum / (b - a : ℤ)

omit [NeZero n] in
theorem winMean_scaled (c o : ℝ) {a b : ℤ} (h : a < b) (x : ZMod n → ℝ) :
    winMean a b (scaled c o x) = c * winMean a b x + o := by
  unfold winMean scaled
  have key := sum_affine c o ((List.range (b - a).toNat).map fun (i : ℕ) =>
    x (((a + i : ℤ)) : ZMod n))
  rw [List.map_map] at key
  have hpos : (0 : ℝ) < ((b - a : ℤ) : ℝ) := by exact_mod_cast (by omega : (0 : ℤ) < b - a)
  have hlen : ((((List.range (b - a).toNat).map fun (i : ℕ) =>
      x (((a + i : ℤ)) : ZMod n)).length : ℕ) : ℝ) = ((b - a : ℤ) : ℝ) := by
    rw [List.length_map, List.length_range]
    exact_mod_cast Int.toNat_of_nonneg (by omega : 0 ≤ b - a)
  rw [hlen] at key
  have e : (List.map (fun (i : ℕ) => c * x (((a + i : ℤ)) : ZMod n) + o)
      (List.range (b - a).toNat)).sum = c * ((List.range (b - a).toNat).map fun (i : ℕ) =>
        x (((a + i : ℤ)) : ZMod n)).sum + ((b - a : ℤ) : ℝ) * o := key
  rw [e]
  field_simp

omit [NeZero n] in
/-- `colMean` by cases; the case depends on the window only. -/
theorem colMean_cases (a b : ℤ) :
    (∀ traces : List (ZMod n → ℝ), colMean traces a b = .ok none) ∨
    (∀ traces : List (ZMod n → ℝ), colMean traces a b = .error .indexError) ∨
    (a < b ∧ ∀ traces : List (ZMod n → ℝ), colMean traces a b =
      .ok (some (traces.map (winMean a b)))) := by
  unfold colMean
  by_cases h1 : b ≤ a
  · exact .inl fun _ => if_pos h1
  · by_cases h2 : a < -(n : ℤ) ∨ (n : ℤ) < b
    · exact .inr (.inl fun _ => by rw [if_neg h1, if_pos h2])
    · exact .inr (.inr ⟨by omega, fun _ => by rw [if_neg h1, if_neg h2]; rfl⟩)

omit [NeZero n] in
/-- `slopes` by cases. -/
theorem slopes_cases (fs sgfreq : ℝ) (didv : Bool) :
    (∀ traces : List (ZMod n → ℝ), slopes fs sgfreq didv traces = .ok none) ∨
    (∀ traces : List (ZMod n → ℝ), slopes fs sgfreq didv traces = .error .indexError) ∨
    ((beginRange n fs sgfreq didv).1 < (beginRange n fs sgfreq didv).2 ∧
      (endRange n fs sgfreq didv).1 < (endRange n fs sgfreq didv).2 ∧
      ∀ traces : List (ZMod n → ℝ), slopes fs sgfreq didv traces =
        .ok (some (traces.map fun x =>
          winMean (endRange n fs sgfreq didv).1 (endRange n fs sgfreq didv).2 x -
          winMean (beginRange n fs sgfreq didv).1 (beginRange n fs sgfreq didv).2 x))) := by
  unfold slopes
  rcases colMean_cases (n := n) (beginRange n fs sgfreq didv).1 (beginRange n fs sgfreq didv).2
    with h | h | ⟨h0, h⟩ <;>
  rcases colMean_cases (n := n) (endRange n fs sgfreq didv).1 (endRange n fs sgfreq didv).2
    with h' | h' | ⟨h0', h'⟩
  · exact .inl fun t => by rw [h, h']
  · exact .inr (.inl fun t => by rw [h, h'])
  · exact .inl fun t => by rw [h, h']
  · exact .inr (.inl fun t => by rw [h])
  · exact .inr (.inl fun t => by rw [h])
  · exact .inr (.inl fun t => by rw [h])
  · exact .inl fun t => by rw [h, h']
  · exact .inr (.inl fun t => by rw [h, h'])
  · refine .inr (.inr ⟨h0, h0', fun t => ?_⟩)
    rw [h, h']
    simp only [List.zipWith_map, List.zipWith_self]

theorem edge_scale (a u : ℝ) (hb b : ℕ) : edge (a * u) hb b = a * edge u hb b := by
  unfold edge
  ring

theorem inBin_scale {a : ℝ} (ha : 0 < a) (u : ℝ) (hb b : ℕ) (v : ℝ) :
    inBin (a * u) hb b (a * v) ↔ inBin u hb b v := by
  unfold inBin
  rw [edge_scale, edge_scale, edge_scale, mul_le_mul_iff_right₀ ha, mul_lt_mul_iff_right₀ ha,
    mul_right_inj' ha.ne']

theorem histNum_scale {a : ℝ} (ha : 0 < a) (vals : List ℝ) (u : ℝ) (hb b : ℕ) :
    histNum (vals.map fun v => a * v) (a * u) hb b = histNum vals u hb b := by
  unfold histNum
  rw [List.countP_map]
  apply List.countP_congr
  intro v _
  simp only [Function.comp, decide_eq_true_eq]
  exact inBin_scale ha u hb b v

theorem symBin_scale {a : ℝ} (ha : 0 < a) (choice : List ℕ → ℕ → List ℕ) (vals : List ℝ) (u : ℝ)
    (hb ibin : ℕ) :
    symBin choice (vals.map fun v => a * v) (a * u) hb ibin = symBin choice vals u hb ibin := by
  unfold symBin
  rw [histNum_scale ha, histNum_scale ha, List.map_map]
  have e : ((fun v => decide (v < edge (a * u) hb (hb - ibin - 1)) &&
      decide (edge (a * u) hb (hb - ibin - 2) ≤ v)) ∘ fun v => a * v) =
      fun v => decide (v < edge u hb (hb - ibin - 1)) &&
      decide (edge u hb (hb - ibin - 2) ≤ v) := by
    funext v
    simp only [Function.comp, edge_scale, mul_lt_mul_iff_right₀ ha, mul_le_mul_iff_right₀ ha]
  rw [e]

theorem symmetrizedist_scale {a : ℝ} (ha : 0 < a) (choice : List ℕ → ℕ → List ℕ)
    (vals : List ℝ) :
    symmetrizedist choice (vals.map fun v => a * v) = symmetrizedist choice vals := by
  unfold symmetrizedist
  have hm : Monotone fun v : ℝ => a * v := fun u v h => mul_le_mul_of_nonneg_left h ha.le
  rw [max?_map hm]
  cases hv : vals.max? with
  | none => rfl
  | some u =>
    simp only [Option.map_some, List.length_map]
    have e1 : (a * u > 0) ↔ u > 0 := mul_pos_iff_of_pos_left ha
    have e2 : (vals.map fun v => a * v).map (fun v => decide (v > edge (a * u)
        (histbins vals.length) (histbins vals.length / 2))) =
        vals.map fun v => decide (v > edge u (histbins vals.length)
          (histbins vals.length / 2)) := by
      rw [List.map_map]
      apply List.map_congr_left
      intro v _
      simp only [Function.comp, edge_scale, gt_iff_lt, mul_lt_mul_iff_right₀ ha]
    simp only [e1, e2, symBin_scale ha]

theorem survivors_congr {T U : Type*} (g : T → U)
    (sT : List (Option (List T → Option (Except Err (List Bool)))))
    (sU : List (Option (List U → Option (Except Err (List Bool)))))
    (h : List.Forall₂ (fun a b => (a = none ∧ b = none) ∨
      ∃ st su, a = some st ∧ b = some su ∧ ∀ l, su (l.map g) = st l) sT sU) :
    ∀ l : List (ℕ × T), survivors sU (l.map fun p => (p.1, g p.2)) =
      (survivors sT l).map (Except.map fun S => S.map fun p => (p.1, g p.2)) := by
  induction h with
  | nil => intro l; rfl
  | cons hab _ ih =>
    intro l
    rcases hab with ⟨rfl, rfl⟩ | ⟨st, su, rfl, rfl, hs⟩
    · exact ih l
    · unfold survivors
      have e : (l.map fun p => (p.1, g p.2)).map Prod.snd = (l.map Prod.snd).map g := by
        rw [List.map_map, List.map_map]
        rfl
      rw [e, hs]
      rcases st (l.map Prod.snd) with _ | _ | flags
      · rfl
      · rfl
      · simp only
        rw [← ih, ← sel_eq_selected, ← sel_eq_selected, sel_map_left]

theorem trunc_nat (a : ℕ) : OF.trunc (a : ℝ) = a := by
  unfold OF.trunc
  rw [if_neg (not_lt.2 (by positivity)), Int.floor_natCast]

omit [NeZero n] in
theorem colMean_nat (a m : ℕ) (hm : 0 < m) (hn : a + m ≤ n) (traces : List (ZMod n → ℝ)) :
    colMean traces (a : ℤ) ((a : ℤ) + m) = .ok (some (traces.map fun x =>
      (∑ i ∈ Finset.range m, x ((a + i : ℕ) : ZMod n)) / m)) := by
  unfold colMean
  rw [if_neg (by omega), if_neg (by omega)]
  congr 2
  apply List.map_congr_left
  intro x _
  have e : ∀ f : ℕ → ℝ, ((List.range m).map f).sum = ∑ i ∈ Finset.range m, f i := fun f => rfl
  rw [show ((a : ℤ) + m - a) = m by ring, Int.toNat_natCast, e]
  push_cast
  rfl

theorem nperiods_eq {fs sgfreq : ℝ} {m N : ℕ} (hm : 0 < m)
    (hb : fs / sgfreq = ((8 * m : ℕ) : ℝ)) : ⌊((N * (8 * m) : ℕ) : ℝ) / fs * sgfreq⌋ = (N : ℤ) := by
  have hpos : (0 : ℝ) < ((8 * m : ℕ) : ℝ) := by exact_mod_cast (by omega : 0 < 8 * m)
  have hne : fs / sgfreq ≠ 0 := by rw [hb]; exact hpos.ne'
  have hs : sgfreq ≠ 0 := by rintro rfl; simp at hne
  have hf : fs ≠ 0 := by rintro rfl; simp at hne
  have e : ((N * (8 * m) : ℕ) : ℝ) / fs * sgfreq = (N : ℝ) := by
    have : fs = ((8 * m : ℕ) : ℝ) * sgfreq := by rw [← hb]; field_simp
    rw [Nat.cast_mul, this]
    field_simp
  rw [e, Int.floor_natCast]

omit [NeZero n] in
theorem beginRange_didv {fs sgfreq : ℝ} {m N : ℕ} (hm : 0 < m) (hN : 2 ≤ N)
    (hb : fs / sgfreq = ((8 * m : ℕ) : ℝ)) (hn : n = N * (8 * m)) :
    beginRange n fs sgfreq true = (((2 * m : ℕ) : ℤ), ((2 * m : ℕ) : ℤ) + m) := by
  have h1 : (N : ℤ) > 1 := by omega
  unfold beginRange
  simp only [if_true]
  rw [hn, nperiods_eq hm hb, if_pos h1, hb]
  rw [show (((8 * m : ℕ) : ℝ) / 4) = ((2 * m : ℕ) : ℝ) by push_cast; ring,
    show (3 * ((8 * m : ℕ) : ℝ) / 8) = ((3 * m : ℕ) : ℝ) by push_cast; ring, trunc_nat, trunc_nat]
  congr 1
  push_cast
  ring

omit [NeZero n] in
theorem endRange_didv {fs sgfreq : ℝ} {m N : ℕ} (hm : 0 < m) (hN : 2 ≤ N)
    (hb : fs / sgfreq = ((8 * m : ℕ) : ℝ)) (hn : n = N * (8 * m)) :
    endRange n fs sgfreq true = ((((N - 1) * (8 * m) + 2 * m : ℕ) : ℤ),
      (((N - 1) * (8 * m) + 2 * m : ℕ) : ℤ) + m) := by
  have h1 : (N : ℤ) > 1 := by omega
  unfold endRange
  simp only [if_true]
  rw [hn, nperiods_eq hm hb, if_pos h1, hb]
  have e : (((N : ℤ) : ℝ) - 1) = ((N - 1 : ℕ) : ℝ) := by
    rw [Nat.cast_sub (by omega)]
    simp
  rw [e, show (((N - 1 : ℕ) : ℝ) * ((8 * m : ℕ) : ℝ) + ((8 * m : ℕ) : ℝ) / 4) =
      (((N - 1) * (8 * m) + 2 * m : ℕ) : ℝ) by push_cast; ring,
    show (((N - 1 : ℕ) : ℝ) * ((8 * m : ℕ) : ℝ) + 3 * ((8 * m : ℕ) : ℝ) / 8) =
      (((N - 1) * (8 * m) + 3 * m : ℕ) : ℝ) by push_cast; ring, trunc_nat, trunc_nat]
  congr 1
  push_cast
  ring

end Verif.Cut
