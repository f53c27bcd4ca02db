import Verif.AlignNoiseLemmas
import Verif.TemplateProps
import Verif.LowpassProps
import Mathlib.MeasureTheory.Integral.Lebesgue.Markov
import Mathlib.MeasureTheory.Constructions.BorelSpace.Real

/-!
Property C166: how much disturbance `align_traces` tolerates.
-/

namespace Verif.Template
open Verif MeasureTheory

/-- A trace which, filtered and centred, is the first one delayed by `d` bins up to a disturbance, is reported with shift `-d` as
long as the overlap of the first trace with itself drops by more than twice the size of the disturbance at every other delay. -/
theorem align_disturbed {filt : ℝ → ℝ → List ℝ → List ℝ} {x y : List ℝ} {rest : List (List ℝ)} {nCut : ℤ} {i : ℕ} {d : ℤ}
    {v u : List ℝ} (hv : v = centred (filt 5000 625000 (Np.sliceTo x nCut))) (hu : u = centred (filt 5000 625000 (Np.sliceTo y nCut)))
    (hi : (x :: rest)[i]? = some y) (hl : u.length = v.length) (hd : |d| < v.length)
    (hgap : ∀ e : ℤ, e ≠ 0 → 2 * Real.sqrt (overlap v 0 * disturbance v u d) < overlap v 0 - overlap v e) :
    ∃ shifts, alignShifts filt (x :: rest) nCut = .ok shifts ∧ shifts[i]? = some (-d) := by
  have hvne : ∃ j, ext v j ≠ 0 := by
    by_contra hcon
    push Not at hcon
    have h0 : ∀ e, overlap v e = 0 := fun e => Finset.sum_eq_zero fun j _ => by rw [hcon, zero_mul]
    have h1 := hgap 1 one_ne_zero
    rw [h0, h0] at h1
    have := Real.sqrt_nonneg (0 * disturbance v u d)
    linarith
  obtain ⟨jv, hjv⟩ := hvne
  obtain ⟨ju, hju⟩ := copy_varies hd hgap
  obtain ⟨a, ha, hca⟩ := condition_scaled (filt := filt) (nCut := nCut) (x := x) (by rw [← hv]; exact ext_ne_mem hjv)
  obtain ⟨b, hb, hcb⟩ := condition_scaled (filt := filt) (nCut := nCut) (x := y) (by rw [← hu]; exact ext_ne_mem hju)
  rw [← hv] at hca
  rw [← hu] at hcb
  have hn : (0 : ℤ) < v.length := (abs_nonneg d).trans_lt hd
  rw [abs_lt] at hd
  obtain ⟨p, hp, hlt, hmax⟩ := peak_max (a := v.map fun y => y / a) (b := u.map fun y => y / b) (by simp only [List.length_map]; omega)
  simp only [List.length_map] at hlt hmax
  have hne : ∃ j, ext (v.map fun y => y / a) j ≠ 0 := ⟨jv, by rw [ext_div]; exact div_ne_zero hjv ha.ne'⟩
  have h0 := peak_delayed (a := v.map fun y => y / a) (b := v.map fun y => y / a) rfl rfl hne (d := 0) (by simp)
  rw [List.length_map] at h0
  have hpk : (p : ℤ) = (v.length : ℤ) - 1 - d := by
    by_contra hcon
    set k := ((v.length : ℤ) - 1 - d).toNat with hk
    have hkz : (k : ℤ) = (v.length : ℤ) - 1 - d := by omega
    have hkl : k < v.length + u.length - 1 := by omega
    have h1 := hmax k hkl
    rw [corr_scaled rfl hl, corr_scaled rfl hl] at h1
    have h2 : corr v u k ≤ corr v u p := (div_le_div_iff_of_pos_right (mul_pos ha hb)).1 h1
    have h3 := corr_disturbed hl d hkl
    have h4 := corr_disturbed hl d hlt
    rw [hkz, show (v.length : ℤ) - 1 - ((v.length : ℤ) - 1 - d) - d = 0 by ring] at h3
    have h5 := hgap ((v.length : ℤ) - 1 - p - d) (by omega)
    rw [abs_le] at h3 h4
    linarith [h3.1, h4.2]
  refine ⟨_, rfl, ?_⟩
  rw [List.getElem?_map, hi, Option.map_some, hca, hcb, h0, hp]
  congr 1
  omega

/-- With random disturbances: the probability of another shift is at most the mean energy of the disturbance times
`4 * overlap / gap ** 2`. -/
theorem align_probability {Ω : Type*} [MeasurableSpace Ω] {μ : Measure Ω} {filt : ℝ → ℝ → List ℝ → List ℝ} {x : List ℝ}
    {y : Ω → List ℝ} {rest : Ω → List (List ℝ)} {nCut : ℤ} {i : ℕ} {d : ℤ} {v : List ℝ} {u : Ω → List ℝ} {gap : ℝ}
    (hv : v = centred (filt 5000 625000 (Np.sliceTo x nCut))) (hu : ∀ ω, u ω = centred (filt 5000 625000 (Np.sliceTo (y ω) nCut)))
    (hi : ∀ ω, (x :: rest ω)[i]? = some (y ω)) (hl : ∀ ω, (u ω).length = v.length) (hd : |d| < v.length) (h0 : 0 < gap)
    (hgap : ∀ e : ℤ, e ≠ 0 → gap ≤ overlap v 0 - overlap v e) (hm : AEMeasurable (fun ω => disturbance v (u ω) d) μ) :
    μ {ω | ¬ ∃ shifts, alignShifts filt (x :: rest ω) nCut = .ok shifts ∧ shifts[i]? = some (-d)} ≤
      (∫⁻ ω, ENNReal.ofReal (disturbance v (u ω) d) ∂μ) / ENNReal.ofReal (gap ^ 2 / (4 * overlap v 0)) := by
  have hn : (0 : ℤ) < v.length := (abs_nonneg d).trans_lt hd
  have hA : 0 < overlap v 0 := by
    have h1 : overlap v (v.length : ℤ) = 0 := by
      refine Finset.sum_eq_zero fun j _ => ?_
      rw [ext_zero (l := v) (j := (j : ℤ) + v.length) (by omega), mul_zero]
    have := hgap v.length hn.ne'
    rw [h1] at this
    linarith
  have hpos : 0 < gap ^ 2 / (4 * overlap v 0) := by positivity
  refine le_trans (measure_mono fun ω hω => ?_) (meas_ge_le_lintegral_div hm.ennreal_ofReal
    (ENNReal.ofReal_pos.2 hpos).ne' ENNReal.ofReal_ne_top)
  change ¬ _ at hω
  show ENNReal.ofReal _ ≤ ENNReal.ofReal _
  by_contra hcon
  rw [ENNReal.ofReal_le_ofReal_iff (disturbance_nonneg _ _ _), not_le] at hcon
  refine hω (align_disturbed hv (hu ω) (hi ω) (hl ω) hd fun e he => ?_)
  refine lt_of_lt_of_le ?_ (hgap e he)
  have h1 : Real.sqrt (overlap v 0 * disturbance v (u ω) d) < gap / 2 := by
    rw [Real.sqrt_lt' (by linarith)]
    rw [lt_div_iff₀ (by positivity)] at hcon
    nlinarith
  linarith

/-- The shifts do not depend on the units and the zeros of the traces, each of which may be multiplied by its own positive factor and
moved by its own offset, for a filter which commutes with that. -/
theorem align_units {filt : ℝ → ℝ → List ℝ → List ℝ}
    (hf : ∀ (c fs : ℝ) (l : List ℝ) (a b : ℝ), 0 < a → filt c fs (l.map fun y => a * y + b) = (filt c fs l).map fun y => a * y + b)
    (traces : List (List ℝ × ℝ × ℝ)) (ha : ∀ t ∈ traces, 0 < t.2.1) (nCut : ℤ) :
    alignShifts filt (traces.map fun t => t.1.map fun y => t.2.1 * y + t.2.2) nCut = alignShifts filt (traces.map fun t => t.1) nCut := by
  unfold alignShifts
  cases traces with
  | nil => rfl
  | cons t ts =>
    simp only [List.map_cons]
    rw [condition_affine hf nCut t.1 (ha t List.mem_cons_self), List.map_map, List.map_map]
    congr 2
    apply List.map_congr_left
    intro s hs
    simp only [Function.comp]
    rw [condition_affine hf nCut s.1 (ha s (List.mem_cons_of_mem _ hs))]

/-- The low-pass filter of the package commutes with units and zeros (a trace it refuses is written as an empty one). -/
theorem lowpass_units (c fs : ℝ) (l : List ℝ) (a b : ℝ) :
    (Lowpass.lowpass (l.map fun y => a * y + b) c fs).toOption.getD [] =
      ((Lowpass.lowpass l c fs).toOption.getD []).map fun y => a * y + b := by
  have same : ∀ {l l' w : List ℝ}, l'.length = l.length → Lowpass.lowpass l c fs = .ok w → ∃ z, Lowpass.lowpass l' c fs = .ok z := by
    intro l l' w hl hw
    obtain ⟨k, h0, -, hb, -, hfl⟩ := Lowpass.lowpass_ok hw
    have hlen := Lowpass.filtfilt_length hfl
    unfold Lowpass.lowpass
    rw [if_neg h0, hb]
    show ∃ z, Lowpass.filtfilt k l' = .ok z
    unfold Lowpass.filtfilt
    rw [if_neg (by omega)]
    exact ⟨_, rfl⟩
  cases hw : Lowpass.lowpass l c fs with
  | error e =>
    cases hw' : Lowpass.lowpass (l.map fun y => a * y + b) c fs with
    | error e' => rfl
    | ok z =>
      obtain ⟨w, h⟩ := same (l' := l) (by simp) hw'
      rw [hw] at h
      cases h
  | ok w =>
    have hone : (l.map fun y => a * y + b) = List.zipWith (fun s t => a * s + b * t) l (List.replicate l.length 1) := by
      apply List.ext_getElem (by simp)
      intro i h1 h2
      simp
    obtain ⟨z, hz⟩ := same (l' := List.replicate l.length 1) (by simp) hw
    obtain ⟨k, -, -, -, -, hfl⟩ := Lowpass.lowpass_ok hw
    have hlen := (Lowpass.filtfilt_length hfl).2
    rw [hone, Lowpass.lowpass_linear (by simp) hw hz a b, Lowpass.lowpass_const hz]
    show List.zipWith _ w _ = w.map _
    apply List.ext_getElem (by simp [hlen])
    intro i h1 h2
    simp

/-- With the filter of the package: two traces, the second in other units. -/
example (x y : List ℝ) (nCut : ℤ) :
    alignShifts (fun c fs l => (Lowpass.lowpass l c fs).toOption.getD []) [x.map fun v => 1 * v + 0, y.map fun v => 1000 * v + 7] nCut =
      alignShifts (fun c fs l => (Lowpass.lowpass l c fs).toOption.getD []) [x, y] nCut :=
  align_units (fun c fs l a b _ => lowpass_units c fs l a b) [(x, 1, 0), (y, 1000, 7)] (by simp) nCut

/-- A pulse, one bin later and disturbed in two bins. -/
example : ∃ shifts, alignShifts (fun _ _ l => l) [[0, 3, -3, 0], [1 / 10, 0, 29 / 10, -3]] 4 = .ok shifts ∧
    shifts[1]? = some (-1) := by
  have hs : ∀ a b c e : ℝ, Np.sliceTo [a, b, c, e] 4 = [a, b, c, e] := by
    intro a b c e
    simp [Np.sliceTo, Np.clipIdx]
  have e1 : centred (Np.sliceTo [0, 3, -3, 0] 4) = [0, 3, -3, 0] := by
    rw [hs]
    norm_num [centred]
  have e2 : centred (Np.sliceTo [1 / 10, 0, 29 / 10, -3] 4) = [1 / 10, 0, 29 / 10, -3] := by
    rw [hs]
    norm_num [centred]
  have t2 : Int.toNat 2 = 2 := rfl
  have t3 : Int.toNat 3 = 3 := rfl
  have t4 : Int.toNat 4 = 4 := rfl
  have t5 : Int.toNat 5 = 5 := rfl
  have t6 : Int.toNat 6 = 6 := rfl
  have t7 : Int.toNat 7 = 7 := rfl
  have hD : disturbance [0, 3, -3, 0] [1 / 10, 0, 29 / 10, -3] 1 = 1 / 50 := by
    have e : Finset.Ico (-(([0, 3, -3, 0] : List ℝ).length : ℤ)) (2 * ([0, 3, -3, 0] : List ℝ).length) =
        {-4, -3, -2, -1, 0, 1, 2, 3, 4, 5, 6, 7} := by
      decide
    unfold disturbance
    rw [e]
    norm_num [ext, Finset.sum_insert, t2, t3, t4, t5, t6, t7]
  refine align_disturbed (d := 1) (v := [0, 3, -3, 0]) (u := [1 / 10, 0, 29 / 10, -3]) e1.symm e2.symm rfl rfl (by norm_num) ?_
  intro e he
  rw [overlap_pulse.1, hD]
  have h1 : Real.sqrt (18 * (1 / 50)) = 3 / 5 := by
    rw [show (18 * (1 / 50) : ℝ) = (3 / 5) ^ 2 by norm_num]
    exact Real.sqrt_sq (by norm_num)
  rw [h1]
  linarith [overlap_pulse.2 e he]

/-- The bound on the probability for a pulse which is sometimes in its place and sometimes a bin late. -/
example (μ : Measure Bool) : μ {ω | ¬ ∃ shifts, alignShifts (fun _ _ l => l)
    ([0, 3, -3, 0] :: [if ω then [0, 3, -3, 0] else [0, 0, 3, -3]]) 4 = .ok shifts ∧ shifts[1]? = some (-0)} ≤
    (∫⁻ ω, ENNReal.ofReal (disturbance [0, 3, -3, 0] (if ω then [0, 3, -3, 0] else [0, 0, 3, -3]) 0) ∂μ) /
      ENNReal.ofReal (18 ^ 2 / (4 * overlap [0, 3, -3, 0] 0)) := by
  have hs : ∀ a b c e : ℝ, Np.sliceTo [a, b, c, e] 4 = [a, b, c, e] := by
    intro a b c e
    simp [Np.sliceTo, Np.clipIdx]
  have e1 : centred (Np.sliceTo [0, 3, -3, 0] 4) = [0, 3, -3, 0] := by
    rw [hs]
    norm_num [centred]
  have e2 : centred (Np.sliceTo [0, 0, 3, -3] 4) = [0, 0, 3, -3] := by
    rw [hs]
    norm_num [centred]
  refine align_probability (d := 0) (gap := 18) (i := 1) (y := fun ω : Bool => if ω then [0, 3, -3, 0] else [0, 0, 3, -3])
    (u := fun ω => if ω then [0, 3, -3, 0] else [0, 0, 3, -3]) (rest := fun ω => [if ω then [0, 3, -3, 0] else [0, 0, 3, -3]])
    e1.symm ?_ (fun _ => rfl) ?_ (by norm_num) (by norm_num)
    (fun e he => by rw [overlap_pulse.1]; linarith [overlap_pulse.2 e he]) (Measurable.of_discrete).aemeasurable
  · rintro (_ | _)
    · exact e2.symm
    · exact e1.symm
  · rintro (_ | _) <;> rfl

end Verif.Template
