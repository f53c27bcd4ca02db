import Verif.OFUnitsSpec
import Verif.OFEquivLemmas

/-! Helper lemmas for C124. -/

namespace Verif.OF
open Verif Verif.Dft

variable {n : ℕ} [NeZero n]

/-- No attribute is cached. -/
structure Fresh (st : State n) : Prop where
  chi0 : st.chi0 = none
  chit : st.chit = none
  amps : st.amps = none
  chi : st.chi = none
  sfTd : st.sfTd = none
  times : st.times = none
  freqs : st.freqs = none

/-- The attributes of the second object are those of the first in other units. -/
structure Scaled (τ σ p r : ℝ) (st st' : State n) : Prop where
  psd : st'.psd = scalePsd p st.psd
  psd0 : st'.psd0 = st.psd0.map fun x => p * x
  fs : st'.fs = r * st.fs
  s : ∀ k, st'.s k = (σ : ℂ) * st.s k
  phi : ∀ k, st'.phi k = ((σ / p : ℝ) : ℂ) * st.phi k
  norm : st'.norm = σ ^ 2 * r / p * st.norm
  v : ∀ k, st'.v k = (τ : ℂ) * st.v k
  sf : ∀ k, st'.signalfilt k = ((τ / (σ * r) : ℝ) : ℂ) * st.signalfilt k
  fresh : Fresh st
  fresh' : Fresh st'

omit [NeZero n] in
theorem recip_scale (p : ℝ) (x : WithTop ℝ) : recip (x.map fun y => p * y) = recip x / p := by
  cases x with
  | top => simp [recip]
  | coe x => simp [recip]; ring

theorem toFreq_units (c r fs : ℝ) (x : ZMod n → ℝ) (k : ZMod n) :
    toFreq (r * fs) (fun j => c * x j) k = ((c / r : ℝ) : ℂ) * toFreq fs x k := by
  unfold toFreq
  rw [fftR_smul]
  push_cast
  by_cases hr : (r : ℂ) = 0
  · simp [hr]
  by_cases hf : (fs : ℂ) = 0
  · simp [hf]
  have hn : (n : ℂ) ≠ 0 := Nat.cast_ne_zero.2 (NeZero.ne n)
  field_simp

theorem scaled_init (u : Units) (hu : u.Proper) (x T : ZMod n → ℝ) (psd : ZMod n → WithTop ℝ) (fs : ℝ)
    (ac b : Bool) :
    Scaled (u.signal / u.rate) (if b then 1 else u.template / u.rate) u.noise u.rate
      (init x T psd fs ac b) (u.fit x T psd fs ac b) := by
  obtain ⟨hc, hg, hp, hr⟩ := hu
  have hσ : (if b then (1 : ℝ) else u.template / u.rate) ≠ 0 := by
    cases b
    · simp [hg, hr.ne']
    · simp
  have hpsd : (u.fit x T psd fs ac b).psd = scalePsd u.noise (init x T psd fs ac b).psd := by
    funext k
    simp only [Units.fit, init, scalePsd]
    split_ifs <;> rfl
  have hs : ∀ k, (u.fit x T psd fs ac b).s k =
      (((if b then (1 : ℝ) else u.template / u.rate) : ℝ) : ℂ) * (init x T psd fs ac b).s k := by
    intro k
    simp only [Units.fit, init]
    cases b
    · simp only [Bool.false_eq_true, if_false]
      exact toFreq_units _ _ _ _ _
    · simp only [if_true, toFreq_units]
      have : ((u.template / u.rate : ℝ) : ℂ) ≠ 0 := by
        exact_mod_cast div_ne_zero hg hr.ne'
      rw [mul_div_mul_left _ _ this]
      simp
  have hphi : ∀ k, (u.fit x T psd fs ac b).phi k =
      (((if b then (1 : ℝ) else u.template / u.rate) / u.noise : ℝ) : ℂ) *
        (init x T psd fs ac b).phi k := by
    intro k
    have e : ∀ (y : ZMod n → ℝ) (S : ZMod n → ℝ) (q : ZMod n → WithTop ℝ) (f : ℝ),
        (init y S q f ac b).phi k = starRingEnd ℂ ((init y S q f ac b).s k) *
          (recip ((init y S q f ac b).psd k) : ℂ) := fun _ _ _ _ => rfl
    have h1 := hs k
    have h2 := congrFun hpsd k
    unfold Units.fit at h1 h2 ⊢
    rw [e, e, h1, h2]
    unfold scalePsd
    rw [recip_scale, map_mul, Complex.conj_ofReal]
    push_cast
    ring
  have hnorm : (u.fit x T psd fs ac b).norm =
      (if b then (1 : ℝ) else u.template / u.rate) ^ 2 * u.rate / u.noise *
        (init x T psd fs ac b).norm := by
    have e : ∀ (y : ZMod n → ℝ) (S : ZMod n → ℝ) (q : ZMod n → WithTop ℝ) (f : ℝ),
        (init y S q f ac b).norm = (∑ k, (init y S q f ac b).phi k * (init y S q f ac b).s k).re *
          (f / n) := fun _ _ _ _ => rfl
    unfold Units.fit at hs hphi ⊢
    rw [e, e]
    have : ∀ k, (init (fun j => u.signal * x j) (fun j => u.template * T j) (scalePsd u.noise psd)
        (u.rate * fs) ac b).phi k * (init (fun j => u.signal * x j) (fun j => u.template * T j)
        (scalePsd u.noise psd) (u.rate * fs) ac b).s k =
        (((if b then (1 : ℝ) else u.template / u.rate) ^ 2 / u.noise : ℝ) : ℂ) *
          ((init x T psd fs ac b).phi k * (init x T psd fs ac b).s k) := by
      intro k
      rw [hs, hphi]
      push_cast
      ring
    rw [Finset.sum_congr rfl fun k _ => this k, ← Finset.mul_sum, Complex.re_ofReal_mul]
    ring
  have hv : ∀ k, (u.fit x T psd fs ac b).v k =
      ((u.signal / u.rate : ℝ) : ℂ) * (init x T psd fs ac b).v k := fun k => toFreq_units _ _ _ _ _
  refine ⟨hpsd, ?_, rfl, hs, hphi, hnorm, hv, ?_, ⟨rfl, rfl, rfl, rfl, rfl, rfl, rfl⟩,
    ⟨rfl, rfl, rfl, rfl, rfl, rfl, rfl⟩⟩
  · rfl
  · intro k
    have e : ∀ (y : ZMod n → ℝ) (S : ZMod n → ℝ) (q : ZMod n → WithTop ℝ) (f : ℝ),
        (init y S q f ac b).signalfilt k = (init y S q f ac b).phi k * (init y S q f ac b).v k /
          ((init y S q f ac b).norm : ℂ) := fun _ _ _ _ => rfl
    have h1 := hphi k
    have h2 := hv k
    unfold Units.fit at h1 h2 hnorm ⊢
    rw [e, e, h1, h2, hnorm]
    generalize (init x T psd fs ac b).norm = N
    generalize (if b then (1 : ℝ) else u.template / u.rate) = σ at *
    have h3 : (σ : ℂ) ≠ 0 := by exact_mod_cast hσ
    have h4 : (u.rate : ℂ) ≠ 0 := by exact_mod_cast hr.ne'
    have h5 : (u.noise : ℂ) ≠ 0 := by exact_mod_cast hp.ne'
    push_cast
    by_cases hN : (N : ℂ) = 0
    · simp [hN]
    field_simp

/-- The factors of the attributes and of the results. -/
theorem factors (u : Units) (hu : u.Proper) (b : Bool) :
    u.signal / u.rate / (if b then 1 else u.template / u.rate) = u.amp b ∧
    (u.signal / u.rate) ^ 2 * u.rate / u.noise = u.chi ∧
    (if b then 1 else u.template / u.rate) ^ 2 * u.rate / u.noise = u.weight b ∧
    (if b then (1 : ℝ) else u.template / u.rate) ≠ 0 := by
  obtain ⟨hc, hg, hp, hr⟩ := hu
  unfold Units.weight Units.amp Units.chi
  cases b
  · simp only [Bool.false_eq_true, if_false]
    refine ⟨by field_simp, by field_simp, by field_simp, div_ne_zero hg hr.ne'⟩
  · simp only [if_true]
    refine ⟨by field_simp, by field_simp, by field_simp, one_ne_zero⟩

theorem factors_ne (u : Units) (hu : u.Proper) (b : Bool) : u.amp b ≠ 0 ∧ 0 < u.chi := by
  obtain ⟨hc, hg, hp, hr⟩ := hu
  constructor
  · unfold Units.amp
    cases b
    · simp [hc, hg]
    · simp [hc, hr.ne']
  · unfold Units.chi
    positivity

/-- Amplitude, delay and chi-square with factors. -/
noncomputable def res3 (α r κ : ℝ) : Except Err (ℝ × ℝ × ℝ) → Except Err (ℝ × ℝ × ℝ)
  | .error e => .error e
  | .ok (a, t, c) => .ok (α * a, t / r, κ * c)

theorem res3_eq (u : Units) (b : Bool) (r : Except Err (ℝ × ℝ × ℝ)) :
    res3 (u.amp b) u.rate u.chi r = u.res b r := by
  rcases r with e | ⟨a, t, c⟩ <;> rfl

omit [NeZero n] in
theorem interpolateParabola_delta (v : ZMod n → ℝ) (i : ℤ) (d : ℝ) {r : ℝ} (hr : r ≠ 0)
    (t : Option ℝ) :
    interpolateParabola v i (d / r) (t.map fun x => x / r) =
      match interpolateParabola v i d t with
      | .error e => .error e
      | .ok (t, y) => .ok (t / r, y) := by
  unfold interpolateParabola
  by_cases h : i + 1 ≥ n
  · rw [if_pos h, if_pos h]
  rw [if_neg h, if_neg h]
  dsimp only
  set S := v ((i + 1 : ℤ) : ZMod n) - 2 * v (i : ZMod n) + v ((i - 1 : ℤ) : ZMod n)
  set D := v ((i + 1 : ℤ) : ZMod n) - v ((i - 1 : ℤ) : ZMod n)
  set V := v (i : ZMod n)
  have hA : 1 / (2 * (d / r) ^ 2) * S = r ^ 2 * (1 / (2 * d ^ 2) * S) := by
    by_cases hd : d = 0
    · simp [hd]
    field_simp
  have hB : 1 / (2 * (d / r) ^ 2) * (d / r) * D = r * (1 / (2 * d ^ 2) * d * D) := by
    by_cases hd : d = 0
    · simp [hd]
    field_simp
  have hC : 1 / (2 * (d / r) ^ 2) * 2 * (d / r) ^ 2 * V = 1 / (2 * d ^ 2) * 2 * d ^ 2 * V := by
    by_cases hd : d = 0
    · simp [hd]
    field_simp
  rw [hA, hB, hC]
  generalize 1 / (2 * d ^ 2) * S = A
  generalize 1 / (2 * d ^ 2) * d * D = B
  generalize 1 / (2 * d ^ 2) * 2 * d ^ 2 * V = C
  cases t with
  | some t =>
    simp only [Option.map_some, Except.ok.injEq, Prod.mk.injEq, true_and]
    field_simp
  | none =>
    simp only [Option.map_none]
    by_cases h0 : A = 0
    · rw [if_pos h0, if_pos (by rw [h0, mul_zero])]
    · rw [if_neg h0, if_neg (mul_ne_zero (pow_ne_zero 2 hr) h0)]
      have e : -(r * B) / (2 * (r ^ 2 * A)) = -B / (2 * A) / r := by field_simp
      simp only [e, Except.ok.injEq, Prod.mk.injEq, true_and]
      generalize -B / (2 * A) = t
      field_simp

omit [NeZero n] in
theorem interpolateOf_units (amps chi : ZMod n → ℝ) (α : ℝ) {κ r : ℝ} (hκ : κ ≠ 0)
    (hr : r ≠ 0) (i : ℤ) (d : ℝ) :
    interpolateOf (fun m => α * amps m) (fun m => κ * chi m) i (d / r) =
      res3 α r κ (interpolateOf amps chi i d) := by
  unfold interpolateOf
  rw [parabola_scale_none chi κ hκ]
  have h1 := interpolateParabola_delta chi i d hr none
  rw [Option.map_none] at h1
  rw [h1]
  cases h : interpolateParabola chi i d none with
  | error e => rfl
  | ok q =>
    obtain ⟨t, y⟩ := q
    simp only
    rw [parabola_scale_some]
    have h2 := interpolateParabola_delta amps i d hr (some t)
    rw [Option.map_some] at h2
    rw [h2]
    cases interpolateParabola amps i d (some t) with
    | error e => rfl
    | ok q => obtain ⟨t2, y2⟩ := q; rfl

omit [NeZero n] in
theorem pick_units (fs : ℝ) (amps chi : ZMod n → ℝ) (c0 α : ℝ) {κ r : ℝ} (hκ : κ ≠ 0)
    (hr : r ≠ 0) (bi : Except Err (Option ℤ)) (interp : Bool) :
    pick (r * fs) (fun m => α * amps m) (fun m => κ * chi m) (κ * c0) bi interp =
      res3 α r κ (pick fs amps chi c0 bi interp) := by
  unfold pick
  have ht : ∀ i : ℤ, ((i : ℝ) - ((n / 2 : ℕ) : ℝ)) / (r * fs) = ((i : ℝ) - ((n / 2 : ℕ) : ℝ)) / fs / r :=
    fun i => by rw [mul_comm, div_div]
  have hd : 1 / (r * fs) = 1 / fs / r := by rw [mul_comm, div_div]
  rcases bi with e | _ | i
  · rfl
  · simp [res3]
  · cases interp
    · simp only [Bool.false_eq_true, if_false, res3, ht]
    · simp only [if_true, hd, interpolateOf_units amps chi α hκ hr, ht]
      cases interpolateOf amps chi i (1 / fs) with
      | error e => rfl
      | ok q =>
        obtain ⟨a, t, c⟩ := q
        simp only [res3, Except.ok.injEq, Prod.mk.injEq, true_and, and_true]
        rw [add_div]

omit [NeZero n] in
theorem search_units (amps chi : ZMod n → ℝ) {α κ : ℝ} (hα : α ≠ 0) (hκ : 0 < κ) (nc : Option ℤ)
    (o : Bool) (dir wc : ℤ) :
    search (fun m => α * amps m) (fun m => κ * chi m) nc o (if 0 < α then dir else -dir) wc =
      search amps chi nc o dir wc := by
  have h := search_scale amps (fun m => κ / α ^ 2 * chi m) α hα nc o dir wc
  have e : (fun m => α ^ 2 * (κ / α ^ 2 * chi m)) = fun m => κ * chi m := by
    funext m
    field_simp
  rw [e] at h
  rw [h]
  unfold search
  cases directionMask (asIdx amps) dir with
  | error e => rfl
  | ok mask =>
    refine argminChi2_order _ _ (fun i j => ?_) _ _ _ _
    have : 0 < κ / α ^ 2 := by positivity
    exact mul_lt_mul_iff_right₀ this

namespace Scaled

variable {τ σ p r : ℝ} {st st' : State n}

omit [NeZero n] in
theorem w (h : Scaled τ σ p r st st') (k : ZMod n) : st'.w k = st.w k / p := by
  unfold State.w
  rw [h.psd]
  exact recip_scale p _

omit [NeZero n] in
theorem df (h : Scaled τ σ p r st st') : st'.df = r * st.df := by
  unfold State.df
  rw [h.fs, mul_div_assoc]

theorem readChi0 (h : Scaled τ σ p r st st') :
    OF.readChi0 st' = τ ^ 2 * r / p * OF.readChi0 st := by
  unfold OF.readChi0
  rw [h.fresh.chi0, h.fresh'.chi0, Option.getD_none, Option.getD_none]
  have e : ∀ k, starRingEnd ℂ (st'.v k) * (st'.w k : ℂ) * st'.v k =
      ((τ ^ 2 / p : ℝ) : ℂ) * (starRingEnd ℂ (st.v k) * (st.w k : ℂ) * st.v k) := by
    intro k
    rw [h.v, h.w, map_mul, Complex.conj_ofReal]
    push_cast
    ring
  rw [Finset.sum_congr rfl fun k _ => e k, ← Finset.mul_sum, h.df]
  push_cast
  rw [show ((τ : ℂ) ^ 2 / p * ∑ k, starRingEnd ℂ (st.v k) * (st.w k : ℂ) * st.v k) *
      (r * st.df) = ((τ ^ 2 * r / p : ℝ) : ℂ) *
      ((∑ k, starRingEnd ℂ (st.v k) * (st.w k : ℂ) * st.v k) * st.df) by push_cast; ring,
    Complex.re_ofReal_mul]

omit [NeZero n] in
theorem readFreqs (h : Scaled τ σ p r st st') (k : ZMod n) :
    OF.readFreqs st' k = r * OF.readFreqs st k := by
  unfold OF.readFreqs
  rw [h.fresh.freqs, h.fresh'.freqs, Option.getD_none, Option.getD_none, h.fs]
  unfold fftfreq
  ring

omit [NeZero n] in
theorem readTimes (h : Scaled τ σ p r st st') (i : ZMod n) :
    OF.readTimes st' i = OF.readTimes st i / r := by
  unfold OF.readTimes
  rw [h.fresh.times, h.fresh'.times, Option.getD_none, Option.getD_none, h.fs, div_div, mul_comm r]

theorem ifft_mul (c : ℂ) (g : ZMod n → ℂ) (m : ZMod n) :
    ifft (fun k => c * g k) m = c * ifft g m :=
  congrFun ((ZMod.dft (N := n) (E := ℂ)).symm.map_smul c g) m

theorem readSfTd (h : Scaled τ σ p r st st') (hr : r ≠ 0) (m : ZMod n) :
    OF.readSfTd st' m = τ / σ * OF.readSfTd st m := by
  unfold OF.readSfTd
  rw [h.fresh.sfTd, h.fresh'.sfTd, Option.getD_none, Option.getD_none]
  have e : (fun k => st'.signalfilt k * (n : ℂ)) =
      fun k => ((τ / (σ * r) : ℝ) : ℂ) * (st.signalfilt k * (n : ℂ)) := by
    funext k
    rw [h.sf, mul_assoc]
  rw [e, ifft_mul, Complex.re_ofReal_mul, h.df]
  generalize (ifft (fun k => st.signalfilt k * (n : ℂ)) m).re = z
  by_cases hσ : σ = 0
  · simp [hσ]
  field_simp

theorem readChit (h : Scaled τ σ p r st st') (hr : r ≠ 0) (hσ : σ ≠ 0) (m : ZMod n) :
    OF.readChit st' m = τ ^ 2 * r / p * OF.readChit st m := by
  unfold OF.readChit
  rw [h.fresh.chit, h.fresh'.chit, Option.getD_none, Option.getD_none, h.readSfTd hr, h.norm]
  field_simp

theorem readChi (h : Scaled τ σ p r st st') (hr : r ≠ 0) (hσ : σ ≠ 0) :
    OF.readChi st' = fun m => τ ^ 2 * r / p * OF.readChi st m := by
  unfold OF.readChi
  rw [h.fresh.chi, h.fresh'.chi, Option.getD_none, Option.getD_none]
  funext m
  simp only [roll, h.readChi0, h.readChit hr hσ]
  ring

theorem readAmps (h : Scaled τ σ p r st st') (hr : r ≠ 0) :
    OF.readAmps st' = fun m => τ / σ * OF.readAmps st m := by
  unfold OF.readAmps
  rw [h.fresh.amps, h.fresh'.amps, Option.getD_none, Option.getD_none]
  funext m
  simp only [roll, h.readSfTd hr]

theorem tfTdAt (h : Scaled τ σ p r st st') (hr : r ≠ 0) (t1 : ℝ) (m : ZMod n) :
    OF.tfTdAt st' (t1 / r) m = σ ^ 2 * r / p * OF.tfTdAt st t1 m := by
  unfold OF.tfTdAt
  have hr' : (r : ℂ) ≠ 0 := by exact_mod_cast hr
  have e : (fun k => Complex.exp (-2 * Complex.I * Real.pi * OF.readFreqs st' k * ((t1 / r : ℝ) : ℂ)) *
      st'.phi k * st'.s k * (n : ℂ)) = fun k => ((σ ^ 2 / p : ℝ) : ℂ) *
      (Complex.exp (-2 * Complex.I * Real.pi * OF.readFreqs st k * t1) * st.phi k * st.s k *
        (n : ℂ)) := by
    funext k
    rw [h.readFreqs, h.phi, h.s]
    have : -2 * Complex.I * Real.pi * ((r * OF.readFreqs st k : ℝ) : ℂ) * ((t1 / r : ℝ) : ℂ) =
        -2 * Complex.I * Real.pi * OF.readFreqs st k * t1 := by
      push_cast
      field_simp
    rw [this]
    push_cast
    ring
  rw [e, ifft_mul, Complex.re_ofReal_mul, h.df]
  ring

theorem tfTd (h : Scaled τ σ p r st st') (m : ZMod n) :
    OF.tfTd st' m = σ ^ 2 * r / p * OF.tfTd st m := by
  unfold OF.tfTd
  have e : (fun k => st'.phi k * st'.s k * (n : ℂ)) = fun k => ((σ ^ 2 / p : ℝ) : ℂ) *
      (st.phi k * st.s k * (n : ℂ)) := by
    funext k
    rw [h.phi, h.s]
    push_cast
    ring
  rw [e, ifft_mul, Complex.re_ofReal_mul, h.df]
  ring

omit [NeZero n] in
theorem t1Index (h : Scaled τ σ p r st st') (hr : 0 < r) (t1 : ℝ) :
    OF.t1Index st' (t1 / r) = OF.t1Index st t1 := by
  unfold OF.t1Index
  have e : t1 / r * st'.fs = t1 * st.fs := by
    rw [h.fs]
    field_simp
  have e2 : t1 / r < 0 ↔ t1 < 0 := by
    rw [div_lt_iff₀ hr, zero_mul]
  simp only [e, e2]

theorem pileupA2 (h : Scaled τ σ p r st st') (hr : r ≠ 0) (hσ : σ ≠ 0) (hp : p ≠ 0) (a1 t1 : ℝ) :
    OF.pileupA2 st' (τ / σ * a1) (t1 / r) = fun m => τ / σ * OF.pileupA2 st a1 t1 m := by
  funext m
  unfold OF.pileupA2
  rw [h.readSfTd hr, h.tfTdAt hr, h.norm]
  have h1 : σ ^ 2 * r / p ≠ 0 := by
    have := pow_ne_zero 2 hσ
    positivity
  rw [show τ / σ * a1 * (σ ^ 2 * r / p * OF.tfTdAt st t1 m) =
    σ ^ 2 * r / p * (τ / σ * (a1 * OF.tfTdAt st t1 m)) by ring, mul_div_mul_left _ _ h1]
  ring

theorem pileupChit (h : Scaled τ σ p r st st') (hr : 0 < r) (hσ : σ ≠ 0) (a1 t1 : ℝ) :
    OF.pileupChit st' (τ / σ * a1) (t1 / r) = τ ^ 2 * r / p * OF.pileupChit st a1 t1 := by
  unfold OF.pileupChit
  rw [h.t1Index hr, h.readSfTd hr.ne', h.norm]
  field_simp

theorem pileupChi (h : Scaled τ σ p r st st') (hr : 0 < r) (hσ : σ ≠ 0) (hp : p ≠ 0) (a1 t1 : ℝ) :
    OF.pileupChi st' (τ / σ * a1) (t1 / r) = fun m => τ ^ 2 * r / p * OF.pileupChi st a1 t1 m := by
  funext m
  unfold OF.pileupChi
  rw [h.readChi0, h.pileupChit hr hσ, h.pileupA2 hr.ne' hσ hp, h.readSfTd hr.ne', h.tfTdAt hr.ne',
    h.norm]
  dsimp only
  field_simp

/-- The stationary pile-up fit at a non-zero delay. -/
theorem statA (h : Scaled τ σ p r st st') (hr : 0 < r) (hσ : σ ≠ 0) (hp : 0 < p) {m : ZMod n}
    (hm : m ≠ 0 ∨ σ ^ 2 * r / p = 1) :
    statA1 st' m = τ / σ * statA1 st m ∧ statA2 st' m = τ / σ * statA2 st m := by
  have hq : σ ^ 2 * r / p ≠ 0 := by
    have := pow_ne_zero 2 hσ
    positivity
  unfold statA1 statA2
  by_cases h0 : m = 0
  · have h1 : σ ^ 2 * r / p = 1 := hm.resolve_left (fun q => q h0)
    rw [if_pos h0, if_pos h0, if_pos h0, if_pos h0, h.readSfTd hr.ne', h.norm, h1]
    constructor <;> ring
  · rw [if_neg h0, if_neg h0, if_neg h0, if_neg h0, h.readSfTd hr.ne', h.readSfTd hr.ne', h.norm,
      h.tfTd]
    generalize σ ^ 2 * r / p = q at hq
    generalize OF.readSfTd st 0 = A
    generalize OF.readSfTd st m = B
    generalize st.norm = N
    generalize OF.tfTd st m = T
    have hq2 : q ^ 2 ≠ 0 := pow_ne_zero 2 hq
    constructor
    · rw [show τ / σ * A * (q * N) ^ 2 - τ / σ * B * (q * N) * (q * T) =
        q ^ 2 * (τ / σ * (A * N ^ 2 - B * N * T)) by ring,
        show (q * N) ^ 2 - (q * T) ^ 2 = q ^ 2 * (N ^ 2 - T ^ 2) by ring, mul_div_mul_left _ _ hq2,
        mul_div_assoc]
    · rw [show τ / σ * B * (q * N) ^ 2 - τ / σ * A * (q * N) * (q * T) =
        q ^ 2 * (τ / σ * (B * N ^ 2 - A * N * T)) by ring,
        show (q * N) ^ 2 - (q * T) ^ 2 = q ^ 2 * (N ^ 2 - T ^ 2) by ring, mul_div_mul_left _ _ hq2,
        mul_div_assoc]

theorem statChi (h : Scaled τ σ p r st st') (hr : 0 < r) (hσ : σ ≠ 0) (hp : 0 < p) {m : ZMod n}
    (hm : m ≠ 0 ∨ σ ^ 2 * r / p = 1) : OF.statChi st' m = τ ^ 2 * r / p * OF.statChi st m := by
  unfold OF.statChi
  rw [(h.statA hr hσ hp hm).1, (h.statA hr hσ hp hm).2, h.readSfTd hr.ne', h.readSfTd hr.ne', h.norm,
    h.tfTd, h.readChi0]
  dsimp only
  field_simp

omit [NeZero n] in
theorem psd_top (h : Scaled τ σ p r st st') : st'.psd 0 = ⊤ ↔ st.psd 0 = ⊤ := by
  rw [h.psd]
  unfold scalePsd
  exact WithTop.map_eq_top_iff

/-- The intermediate quantities of the fit with a baseline. -/
theorem baseQ (h : Scaled τ σ p r st st') (hr : 0 < r) (hp : 0 < p) (p0 : ℝ) :
    (OF.baseQ st' (p * p0)).norm = σ ^ 2 * r / p * (OF.baseQ st p0).norm ∧
    (∀ m, (OF.baseQ st' (p * p0)).b1 m = σ * τ * r / p * (OF.baseQ st p0).b1 m) ∧
    (OF.baseQ st' (p * p0)).b2 = σ / p * (OF.baseQ st p0).b2 ∧
    (OF.baseQ st' (p * p0)).c1 = τ / p * (OF.baseQ st p0).c1 ∧
    (OF.baseQ st' (p * p0)).c2 = 1 / (r * p) * (OF.baseQ st p0).c2 ∧
    (OF.baseQ st' (p * p0)).chi0 = τ ^ 2 * r / p * (OF.baseQ st p0).chi0 := by
  have hp' : (p : ℂ) ≠ 0 := by exact_mod_cast hp.ne'
  have hr' : (r : ℂ) ≠ 0 := by exact_mod_cast hr.ne'
  obtain ⟨φ, hφ⟩ : ∃ φ : ZMod n → ℂ, φ = if st.psd 0 = ⊤ then fun k => if k = 0 then st.s 0 / (p0 : ℂ)
    else st.phi k else st.phi := ⟨_, rfl⟩
  have hphi : (if st'.psd 0 = ⊤ then fun k => if k = 0 then st'.s 0 / ((p * p0 : ℝ) : ℂ) else st'.phi k
      else st'.phi) = fun k => ((σ / p : ℝ) : ℂ) * φ k := by
    rw [hφ]
    funext k
    by_cases h0 : st.psd 0 = ⊤
    · rw [if_pos h0, if_pos (h.psd_top.2 h0)]
      by_cases hk : k = 0
      · simp only [if_pos hk, h.s]
        push_cast
        ring
      · simp only [if_neg hk, h.phi]
    · rw [if_neg h0, if_neg (fun q => h0 (h.psd_top.1 q))]
      exact h.phi k
  have hd : (1 / st'.df : ℝ) = 1 / st.df / r := by rw [h.df, mul_comm, div_div]
  have hN : (∑ k, ((σ / p : ℝ) : ℂ) * φ k * st'.s k).re * st'.df =
      σ ^ 2 * r / p * ((∑ k, φ k * st.s k).re * st.df) := by
    have e : ∀ k, ((σ / p : ℝ) : ℂ) * φ k * st'.s k = ((σ ^ 2 / p : ℝ) : ℂ) * (φ k * st.s k) := by
      intro k
      rw [h.s]
      push_cast
      ring
    rw [Finset.sum_congr rfl fun k _ => e k, ← Finset.mul_sum, Complex.re_ofReal_mul, h.df]
    ring
  unfold OF.baseQ
  dsimp only
  rw [hphi, ← hφ]
  refine ⟨?_, fun m => ?_, ?_, ?_, ?_, ?_⟩
  · by_cases h0 : st.psd 0 = ⊤
    · rw [if_pos h0, if_pos (h.psd_top.2 h0)]
      exact hN
    · rw [if_neg h0, if_neg (fun q => h0 (h.psd_top.1 q))]
      exact h.norm
  · have e : (fun k => ((σ / p : ℝ) : ℂ) * φ k * st'.v k) =
        fun k => ((σ * τ / p : ℝ) : ℂ) * (φ k * st.v k) := by
      funext k
      rw [h.v]
      push_cast
      ring
    rw [e, ifft_mul, Complex.re_ofReal_mul, h.df]
    ring
  · rw [hd, h.df]
    have e : ((σ / p : ℝ) : ℂ) * φ 0 * ((1 / st.df / r : ℝ) : ℂ) =
        ((σ / p / r : ℝ) : ℂ) * (φ 0 * ((1 / st.df : ℝ) : ℂ)) := by
      push_cast
      ring
    rw [e, Complex.re_ofReal_mul]
    generalize (φ 0 * ((1 / st.df : ℝ) : ℂ)).re = z
    field_simp
  · rw [hd, h.df, h.v]
    have e : (τ : ℂ) * st.v 0 * ((1 / st.df / r : ℝ) : ℂ) / ((p * p0 : ℝ) : ℂ) =
        ((τ / p / r : ℝ) : ℂ) * (st.v 0 * ((1 / st.df : ℝ) : ℂ) / (p0 : ℂ)) := by
      push_cast
      ring
    rw [e, Complex.re_ofReal_mul]
    generalize (st.v 0 * ((1 / st.df : ℝ) : ℂ) / (p0 : ℂ)).re = z
    field_simp
  · rw [hd, h.df, abs_div, abs_of_pos hr]
    by_cases hp0 : p0 = 0
    · simp [hp0]
    generalize |1 / st.df| = z
    field_simp
  · have hv : ∀ k, ‖st'.v k‖ ^ 2 = τ ^ 2 * ‖st.v k‖ ^ 2 := by
      intro k
      rw [h.v, norm_mul, mul_pow, Complex.norm_real, Real.norm_eq_abs, sq_abs]
    have e : ∀ k, ‖st'.v k‖ ^ 2 * st'.w k = τ ^ 2 / p * (‖st.v k‖ ^ 2 * st.w k) := by
      intro k
      rw [hv, h.w]
      ring
    rw [Finset.sum_congr rfl fun k _ => e k, ← Finset.mul_sum, hv, h.df]
    by_cases h0 : st.psd 0 = ⊤
    · rw [if_pos h0, if_pos (h.psd_top.2 h0)]
      by_cases hp0 : p0 = 0
      · simp [hp0]
        ring
      generalize ∑ k, ‖st.v k‖ ^ 2 * st.w k = z
      field_simp
    · rw [if_neg h0, if_neg (fun q => h0 (h.psd_top.1 q))]
      ring

end Scaled

omit [NeZero n] in
theorem argminGo_orderOn {f g : ℤ → ℝ} (l : List ℤ) : ∀ b : ℤ,
    (∀ i ∈ b :: l, ∀ j ∈ b :: l, f i < f j ↔ g i < g j) → argminGo f b l = argminGo g b l := by
  induction l with
  | nil => intro b _; rfl
  | cons a l ih =>
    intro b h
    unfold argminGo
    have hab := h a (by simp) b (by simp)
    by_cases h1 : f a < f b
    · rw [if_pos h1, if_pos (hab.1 h1)]
      exact ih a fun i hi j hj => h i (by simp at hi ⊢; tauto) j (by simp at hj ⊢; tauto)
    · rw [if_neg h1, if_neg (fun q => h1 (hab.2 q))]
      exact ih b fun i hi j hj => h i (by simp at hi ⊢; tauto) j (by simp at hj ⊢; tauto)

omit [NeZero n] in
theorem argminGo_mem (f : ℤ → ℝ) (l : List ℤ) : ∀ b : ℤ, argminGo f b l ∈ b :: l := by
  induction l with
  | nil => intro b; simp [argminGo]
  | cons a l ih =>
    intro b
    unfold argminGo
    split_ifs
    · exact List.mem_cons_of_mem _ (ih a)
    · have := ih b
      simp at this ⊢
      tauto

omit [NeZero n] in
/-- The search looks at the values in the searched bins only. -/
theorem argminChi2_orderOn {f g : ℤ → ℝ} (nc : Option ℤ) (o : Bool) (wc : ℤ)
    (h : ∀ i ∈ searchedBins n nc o wc, ∀ j ∈ searchedBins n nc o wc, f i < f j ↔ g i < g j) :
    argminChi2 n f nc o none wc = argminChi2 n g nc o none wc := by
  have key : argminOn f (searchedBins n nc o wc) = argminOn g (searchedBins n nc o wc) := by
    cases hl : searchedBins n nc o wc with
    | nil => rfl
    | cons a l =>
      rw [hl] at h
      exact congrArg some (argminGo_orderOn l a h)
  unfold searchedBins at key
  unfold argminChi2
  refine if_congr Iff.rfl rfl ?_
  cases nc with
  | none =>
    dsimp only at key ⊢
    rw [key]
  | some k =>
    dsimp only at key ⊢
    rw [key]

omit [NeZero n] in
theorem argminChi2_mem {f : ℤ → ℝ} {nc : Option ℤ} {o : Bool} {wc i : ℤ}
    (h : argminChi2 n f nc o none wc = .ok (some i)) : i ∈ searchedBins n nc o wc := by
  have key : ∀ l : List ℤ, argminOn f l = some i → i ∈ l := by
    intro l hl
    cases l with
    | nil => cases hl
    | cons a l =>
      have := argminGo_mem f l a
      rw [argminOn, Option.some.injEq] at hl
      rwa [hl] at this
  unfold argminChi2 at h
  unfold searchedBins
  by_cases h1 : ¬ (-((n : ℤ) / 2) ≤ wc ∧ wc ≤ (n : ℤ) / 2 - ((n : ℤ) + 1) % 2)
  · rw [if_pos h1] at h
    cases h
  rw [if_neg h1] at h
  cases nc with
  | none =>
    dsimp only at h ⊢
    exact key _ (Except.ok.inj h)
  | some k =>
    dsimp only at h ⊢
    by_cases h2 : k ≤ 0 ∧ ¬ k > n
    · rw [if_pos h2] at h
      cases h
    · rw [if_neg h2] at h
      exact key _ (Except.ok.inj h)

end Verif.OF
