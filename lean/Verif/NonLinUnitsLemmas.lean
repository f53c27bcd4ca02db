import Verif.NonLinUnitsSpec
import Verif.NonLinFitLemmas
import Verif.NonLinIdentLemmas
import Verif.DftLemmas
import Verif.OFLemmas
import Verif.NonLinFitProps

/-! Lemmas for the dependence of the pulse fits on units. -/

namespace Verif.NonLin
open Verif Verif.Dft Matrix

variable {n : ℕ} (u : Units)

theorem Units.factor_pos (k i : ℕ) : 0 < u.factor k i := by
  have hs := u.hs
  have hτ := u.hτ
  unfold Units.factor
  rw [List.getD_eq_getElem?_getD]
  cases h : (u.factors k)[i]? with
  | none => simp
  | some x =>
    have hx := List.mem_of_getElem? h
    unfold Units.factors at hx
    split at hx <;> simp at hx <;> rw [Option.getD_some] <;>
      (try rcases hx with rfl | hx) <;> (try rcases hx with rfl | hx) <;> assumption

theorem params_length (p : List ℝ) : (u.params p).length = p.length := by simp [Units.params]

theorem pole_units (τ ω : ℝ) (h : u.τ ≠ 0) : pole (u.τ * τ) (ω / u.τ) = u.τ * pole τ ω := by
  unfold pole
  have : ((ω / u.τ : ℝ) : ℂ) * ((u.τ * τ : ℝ) : ℂ) = ω * τ := by
    have h' : (u.τ : ℂ) ≠ 0 := by exact_mod_cast h
    push_cast; field_simp
  rw [this]
  push_cast
  rw [mul_div_assoc]

/-- An object in new units: what the models read. -/
structure Scaled (o o' : Obj n) : Prop where
  fs : o'.fs = o.fs / u.τ
  npole : o'.npole = o.npole
  scale : o'.scale = o.scale
  taurise : o'.taurise = o.taurise.map (u.τ * ·)

variable {u} {o o' : Obj n}

theorem Scaled.omega (h : Scaled u o o') (k : ZMod n) : o'.omega k = o.omega k / u.τ := by
  unfold Obj.omega fftfreq
  rw [h.fs]; ring

theorem Scaled.df (h : Scaled u o o') : u.τ * Real.sqrt o'.df = Real.sqrt u.τ * Real.sqrt o.df := by
  have hτ := u.hτ
  unfold Obj.df
  rw [h.fs, show o.fs / u.τ / (n : ℝ) = (o.fs / n) / u.τ by ring, Real.sqrt_div' _ hτ.le]
  have h2 := Real.mul_self_sqrt hτ.le
  have h3 : Real.sqrt u.τ ≠ 0 := (Real.sqrt_pos.2 hτ).ne'
  field_simp
  rw [pow_two, h2, mul_comm]

theorem exp_units (h : Scaled u o o') (k : ZMod n) (t0 : ℝ) :
    (o'.omega k : ℂ) * ((u.τ * t0 : ℝ) : ℂ) = o.omega k * t0 := by
  rw [h.omega]
  have h' : (u.τ : ℂ) ≠ 0 := by exact_mod_cast u.hτ.ne'
  push_cast; field_simp

theorem fourpole_units (h : Scaled u o o') (A B C τr τ1 τ2 τ3 t0 : ℝ) (k : ZMod n) :
    o'.fourpole (u.s * A) (u.s * B) (u.s * C) (u.τ * τr) (u.τ * τ1) (u.τ * τ2) (u.τ * τ3) (u.τ * t0) k =
      (u.s * Real.sqrt u.τ : ℝ) * o.fourpole A B C τr τ1 τ2 τ3 t0 k := by
  unfold Obj.fourpole
  have e := exp_units h k t0
  have hd : (u.τ : ℂ) * (Real.sqrt o'.df : ℂ) = Real.sqrt u.τ * Real.sqrt o.df := by exact_mod_cast h.df
  rw [show -Complex.I * (o'.omega k : ℂ) * ((u.τ * t0 : ℝ) : ℂ) = -Complex.I * o.omega k * t0 by
    linear_combination (-Complex.I) * e]
  simp only [h.omega, pole_units u _ _ u.hτ.ne']
  push_cast
  linear_combination (u.s : ℂ) * (A * pole τ1 (o.omega k) + B * pole τ2 (o.omega k) + C * pole τ3 (o.omega k) -
    (A + B + C) * pole τr (o.omega k)) * Complex.exp (-Complex.I * o.omega k * t0) * hd

theorem threepole_units (h : Scaled u o o') (A B τr τ1 τ2 t0 : ℝ) (k : ZMod n) :
    o'.threepole (u.s * A) (u.s * B) (u.τ * τr) (u.τ * τ1) (u.τ * τ2) (u.τ * t0) k =
      (u.s * Real.sqrt u.τ : ℝ) * o.threepole A B τr τ1 τ2 t0 k := by
  unfold Obj.threepole
  have e := exp_units h k t0
  have hd : (u.τ : ℂ) * (Real.sqrt o'.df : ℂ) = Real.sqrt u.τ * Real.sqrt o.df := by exact_mod_cast h.df
  rw [show -Complex.I * (o'.omega k : ℂ) * ((u.τ * t0 : ℝ) : ℂ) = -Complex.I * o.omega k * t0 by
    linear_combination (-Complex.I) * e]
  simp only [h.omega, pole_units u _ _ u.hτ.ne']
  push_cast
  linear_combination (u.s : ℂ) * (A * pole τ1 (o.omega k) + B * pole τ2 (o.omega k) -
    (A + B) * pole τr (o.omega k)) * Complex.exp (-Complex.I * o.omega k * t0) * hd

theorem scaledAmp_units (A τr τf : ℝ) :
    scaledAmp (u.s * A) (u.τ * τr) (u.τ * τf) = (scaledAmp A τr τf).map (u.s * ·) := by
  have hτ := u.hτ.ne'
  have e1 : u.τ * τr / (u.τ * τf) = τr / τf := mul_div_mul_left _ _ hτ
  have e2 : ∀ x, -(u.τ * x) / (u.τ * τr - u.τ * τf) = -x / (τr - τf) := by
    intro x
    rw [← mul_sub, ← mul_neg, mul_div_mul_left _ _ hτ]
  have c : (u.τ * τf = 0 ∨ u.τ * τr - u.τ * τf = 0 ∨ u.τ * τr / (u.τ * τf) < 0) ↔
      (τf = 0 ∨ τr - τf = 0 ∨ τr / τf < 0) := by
    rw [e1, ← mul_sub]
    simp [hτ]
  unfold scaledAmp
  dsimp only
  by_cases hc : τf = 0 ∨ τr - τf = 0 ∨ τr / τf < 0
  · rw [if_pos hc, if_pos (c.2 hc)]; rfl
  · rw [if_neg hc, if_neg (fun h => hc (c.1 h)), e1, e2, e2]
    simp only [Except.map]
    rw [mul_div_assoc]

theorem twopole_units (h : Scaled u o o') (A τr τf t0 : ℝ) :
    o'.twopole (u.s * A) (u.τ * τr) (u.τ * τf) (u.τ * t0) =
      (o.twopole A τr τf t0).map fun m k => ((u.s * Real.sqrt u.τ : ℝ) : ℂ) * m k := by
  have hd : (u.τ : ℂ) * (Real.sqrt o'.df : ℂ) = Real.sqrt u.τ * Real.sqrt o.df := by exact_mod_cast h.df
  have hτ : (u.τ : ℂ) ≠ 0 := by exact_mod_cast u.hτ.ne'
  have ex : ∀ k, -(o'.omega k : ℂ) * ((u.τ * t0 : ℝ) : ℂ) * Complex.I = -o.omega k * t0 * Complex.I := by
    intro k
    linear_combination (-Complex.I) * exp_units h k t0
  unfold Obj.twopole
  rw [h.scale]
  by_cases hs : o.scale = true
  · rw [if_pos hs, if_pos hs, scaledAmp_units]
    cases scaledAmp A τr τf with
    | error e => rfl
    | ok a =>
      simp only [Except.map, ex]
      congr 1
      funext k
      rw [exp_units h k τf, exp_units h k τr, ← mul_sub, abs_mul, abs_of_pos u.hτ]
      push_cast
      linear_combination ((u.s : ℂ) * a * (|τr - τf| : ℝ) / (1 + o.omega k * τf * Complex.I) /
        (1 + o.omega k * τr * Complex.I) * Complex.exp (-o.omega k * t0 * Complex.I)) * hd
  · rw [if_neg hs, if_neg hs]
    simp only [Except.map, ex]
    congr 1
    funext k
    rw [h.omega, pole_units u _ _ u.hτ.ne', pole_units u _ _ u.hτ.ne']
    push_cast
    linear_combination ((u.s : ℂ) * (A * pole τf (o.omega k) - A * pole τr (o.omega k)) *
      Complex.exp (-o.omega k * t0 * Complex.I)) * hd

theorem onepole_units (h : Scaled u o o') (A τf t0 : ℝ) :
    o'.onepole (u.s * A) (u.τ * τf) (u.τ * t0) =
      (o.onepole A τf t0).map fun m k => ((u.s * Real.sqrt u.τ : ℝ) : ℂ) * m k := by
  unfold Obj.onepole
  rw [h.taurise]
  cases o.taurise with
  | none => rfl
  | some τr => exact twopole_units h A τr τf t0

theorem params8 (a b c d e f g h : ℝ) : u.params [a, b, c, d, e, f, g, h] =
    [u.s * a, u.s * b, u.s * c, u.τ * d, u.τ * e, u.τ * f, u.τ * g, u.τ * h] := by
  simp [Units.params, Units.factor, Units.factors]

theorem params6 (a b c d e f : ℝ) : u.params [a, b, c, d, e, f] =
    [u.s * a, u.s * b, u.τ * c, u.τ * d, u.τ * e, u.τ * f] := by
  simp [Units.params, Units.factor, Units.factors]

theorem params4 (a b c d : ℝ) : u.params [a, b, c, d] = [u.s * a, u.τ * b, u.τ * c, u.τ * d] := by
  simp [Units.params, Units.factor, Units.factors]

theorem params3 (a b c : ℝ) : u.params [a, b, c] = [u.s * a, u.τ * b, u.τ * c] := by
  simp [Units.params, Units.factor, Units.factors]

theorem params2 (a b : ℝ) : u.params [a, b] = [u.s * a, u.τ * b] := by
  simp [Units.params, Units.factor, Units.factors]

theorem length8 {p : List ℝ} (h : p.length = 8) : ∃ a b c d e f g i, p = [a, b, c, d, e, f, g, i] := by
  rcases p with _ | ⟨a, _ | ⟨b, _ | ⟨c, _ | ⟨d, _ | ⟨e, _ | ⟨f, _ | ⟨g, _ | ⟨i, _ | ⟨j, p⟩⟩⟩⟩⟩⟩⟩⟩⟩ <;>
    simp_all

theorem length6 {p : List ℝ} (h : p.length = 6) : ∃ a b c d e f, p = [a, b, c, d, e, f] := by
  rcases p with _ | ⟨a, _ | ⟨b, _ | ⟨c, _ | ⟨d, _ | ⟨e, _ | ⟨f, _ | ⟨g, p⟩⟩⟩⟩⟩⟩⟩ <;> simp_all

theorem length4 {p : List ℝ} (h : p.length = 4) : ∃ a b c d, p = [a, b, c, d] := by
  rcases p with _ | ⟨a, _ | ⟨b, _ | ⟨c, _ | ⟨d, _ | ⟨e, p⟩⟩⟩⟩⟩ <;> simp_all

theorem length3 {p : List ℝ} (h : p.length = 3) : ∃ a b c, p = [a, b, c] := by
  rcases p with _ | ⟨a, _ | ⟨b, _ | ⟨c, _ | ⟨d, p⟩⟩⟩⟩ <;> simp_all

/-- The model of parameter lists of the wrong length. -/
theorem model_wrong (o : Obj n) {p : List ℝ} (h : p.length ≠ dofOf o.npole) :
    o.model p = .error .valueError := by
  unfold dofOf at h
  unfold Obj.model
  split_ifs at h ⊢ <;> split <;> simp_all

theorem model_units (h : Scaled u o o') (p : List ℝ) :
    o'.model (u.params p) = (o.model p).map fun m k => ((u.s * Real.sqrt u.τ : ℝ) : ℂ) * m k := by
  by_cases hl : p.length = dofOf o.npole
  · unfold dofOf at hl
    unfold Obj.model
    rw [h.npole]
    split_ifs at hl ⊢ with h4 h3 h2
    · obtain ⟨a, b, c, d, e, f, g, i, rfl⟩ := length8 hl
      rw [params8]
      simp only [Except.map]
      congr 1
      funext k
      exact fourpole_units h ..
    · obtain ⟨a, b, c, d, e, f, rfl⟩ := length6 hl
      rw [params6]
      simp only [Except.map]
      congr 1
      funext k
      exact threepole_units h ..
    · obtain ⟨a, b, c, d, rfl⟩ := length4 hl
      rw [params4]
      exact twopole_units h ..
    · obtain ⟨a, b, c, rfl⟩ := length3 hl
      rw [params3]
      exact onepole_units h ..
  · rw [model_wrong o hl, model_wrong o' (by rw [params_length, h.npole]; exact hl)]
    rfl

/-! ### residuals -/

theorem flatten_cons (d : ZMod n → ℂ) (e : ZMod n → ℝ) (hn : n ≠ 0) :
    flatten d e = [(d 0).re / e 0, (d 0).im / e 0] ++
      (List.range (n - 1)).flatMap fun (k : ℕ) => [(d ((k + 1 : ℕ) : ZMod n)).re / e ((k + 1 : ℕ) : ZMod n),
        (d ((k + 1 : ℕ) : ZMod n)).im / e ((k + 1 : ℕ) : ZMod n)] := by
  obtain ⟨m, rfl⟩ := Nat.exists_eq_succ_of_ne_zero hn
  unfold flatten
  rw [List.range_succ_eq_map, List.flatMap_cons, List.flatMap_map]
  simp

/-- Residuals which agree up to a factor in the zero bin. -/
theorem flatten_bins {d d' : ZMod n → ℂ} {e e' : ZMod n → ℝ} (hn : n ≠ 0) {c : ℝ}
    (h0 : d' 0 / e' 0 = c * (d 0 / e 0)) (hk : ∀ k, k ≠ 0 → d' k / e' k = d k / e k) :
    flatten d' e' = ((flatten d e).take 2).map (c * ·) ++ (flatten d e).drop 2 := by
  have hre : ∀ (z : ℂ) (r : ℝ), z.re / r = (z / r).re := fun z r => by rw [Complex.div_ofReal_re]
  have him : ∀ (z : ℂ) (r : ℝ), z.im / r = (z / r).im := fun z r => by rw [Complex.div_ofReal_im]
  rw [flatten_cons d' e' hn, flatten_cons d e hn]
  have h2 : ∀ a b : ℝ, ∀ l : List ℝ, ([a, b] ++ l).take 2 = [a, b] ∧ ([a, b] ++ l).drop 2 = l := by simp
  rw [(h2 _ _ _).1, (h2 _ _ _).2]
  congr 1
  · simp only [List.map_cons, List.map_nil, hre, him, h0, Complex.re_ofReal_mul, Complex.im_ofReal_mul]
  · refine List.flatMap_congr fun k hk' => ?_
    have : ((k + 1 : ℕ) : ZMod n) ≠ 0 := by
      rw [Ne, ZMod.natCast_eq_zero_iff]
      intro hd
      have := Nat.le_of_dvd (by omega) hd
      have := List.mem_range.1 hk'
      omega
    simp only [hre, him, hk _ this]

variable [NeZero n]

theorem prepare_scaled (psd : ZMod n → ℝ) (fs : ℝ) (tmpl tmpl' : Option (List ℝ)) (pulse : ZMod n → ℝ)
    (npole : ℤ) (errscale : ℝ) (tau : Option ℝ) (scale : Bool) :
    Scaled u ((init psd fs tmpl).prepare pulse npole errscale tau scale)
      ((init (u.psd psd) (fs / u.τ) tmpl').prepare (u.trace pulse) npole errscale (tau.map (u.τ * ·)) scale) := by
  refine ⟨rfl, rfl, rfl, ?_⟩
  simp only [Obj.prepare, init]
  cases tau <;> split_ifs <;> rfl

theorem data_units {fs : ℝ} (pulse : ZMod n → ℝ) (k : ZMod n) :
    fftR (u.trace pulse) k / (Real.sqrt (fs / u.τ * n) : ℂ) =
      ((u.s * Real.sqrt u.τ : ℝ) : ℂ) * (fftR pulse k / (Real.sqrt (fs * n) : ℂ)) := by
  unfold Units.trace
  rw [fftR_smul, show fs / u.τ * n = fs * n / u.τ by ring, Real.sqrt_div' _ u.hτ.le]
  have h3 : (Real.sqrt u.τ : ℂ) ≠ 0 := by exact_mod_cast (Real.sqrt_pos.2 u.hτ).ne'
  push_cast
  rw [div_div_eq_mul_div]
  ring

theorem err_units (J errscale : ℝ) :
    Real.sqrt (u.s ^ 2 * u.τ * J / errscale) = u.s * Real.sqrt u.τ * Real.sqrt (J / errscale) := by
  rw [mul_div_assoc, Real.sqrt_mul (by have := u.hτ; positivity), Real.sqrt_mul (by positivity),
    Real.sqrt_sq u.hs.le]

open Classical in
theorem residuals_scaled {psd : ZMod n → ℝ} {fs : ℝ} {tmpl tmpl' : Option (List ℝ)} {pulse : ZMod n → ℝ}
    {npole : ℤ} {errscale : ℝ} {tau : Option ℝ} {scale : Bool} (p : List ℝ) :
    ((init (u.psd psd) (fs / u.τ) tmpl').prepare (u.trace pulse) npole errscale (tau.map (u.τ * ·))
        scale).residuals (u.params p) =
      (((init psd fs tmpl).prepare pulse npole errscale tau scale).residuals p).map fun r =>
        (r.take 2).map (u.s * Real.sqrt u.τ * ·) ++ r.drop 2 := by
  have hc : 0 < u.s * Real.sqrt u.τ := mul_pos u.hs (Real.sqrt_pos.2 u.hτ)
  have hcc : ((u.s * Real.sqrt u.τ : ℝ) : ℂ) ≠ 0 := by exact_mod_cast hc.ne'
  unfold Obj.residuals
  rw [model_units (prepare_scaled psd fs tmpl tmpl' pulse npole errscale tau scale)]
  cases ((init psd fs tmpl).prepare pulse npole errscale tau scale).model p with
  | error e => rfl
  | ok m =>
    simp only [Except.map]
    have he0 : ((init (u.psd psd) (fs / u.τ) tmpl').prepare (u.trace pulse) npole errscale (tau.map (u.τ * ·))
        scale).error 0 = ((init psd fs tmpl).prepare pulse npole errscale tau scale).error 0 := by
      simp [Obj.prepare, init]
    have hek : ∀ k, k ≠ 0 → ((init (u.psd psd) (fs / u.τ) tmpl').prepare (u.trace pulse) npole errscale
        (tau.map (u.τ * ·)) scale).error k = u.s * Real.sqrt u.τ *
          ((init psd fs tmpl).prepare pulse npole errscale tau scale).error k := by
      intro k hk
      simp only [Obj.prepare, init, Function.update_of_ne hk, Units.psd]
      exact err_units _ _
    have hd : ∀ k, ((init (u.psd psd) (fs / u.τ) tmpl').prepare (u.trace pulse) npole errscale
        (tau.map (u.τ * ·)) scale).data k = ((u.s * Real.sqrt u.τ : ℝ) : ℂ) *
          ((init psd fs tmpl).prepare pulse npole errscale tau scale).data k := fun k => data_units pulse k
    have c : (∃ k, ((init (u.psd psd) (fs / u.τ) tmpl').prepare (u.trace pulse) npole errscale
        (tau.map (u.τ * ·)) scale).error k ≤ 0) ↔
        ∃ k, ((init psd fs tmpl).prepare pulse npole errscale tau scale).error k ≤ 0 := by
      refine exists_congr fun k => ?_
      by_cases hk : k = 0
      · rw [hk, he0]
      · rw [hek k hk, mul_nonpos_iff_pos_imp_nonpos]
        constructor
        · exact fun h => h.1 hc
        · exact fun h => ⟨fun _ => h, fun _ => hc.le⟩
    by_cases h : ∃ k, ((init psd fs tmpl).prepare pulse npole errscale tau scale).error k ≤ 0
    · rw [if_pos h, if_pos (c.2 h)]
    · rw [if_neg h, if_neg fun h' => h (c.1 h')]
      congr 1
      refine flatten_bins (NeZero.ne n) ?_ fun k hk => ?_
      · rw [he0, hd]; ring
      · rw [hek k hk, hd, ← mul_sub, Complex.ofReal_mul (u.s * Real.sqrt u.τ), mul_div_mul_left _ _ hcc]

theorem sum_bins (f g : ZMod n → ℝ) (c : ℝ) (h0 : f 0 = c * g 0) (hk : ∀ k, k ≠ 0 → f k = g k) :
    ∑ k, f k = ∑ k, g k + (c - 1) * g 0 := by
  rw [← Finset.add_sum_erase _ f (Finset.mem_univ 0), ← Finset.add_sum_erase _ g (Finset.mem_univ 0), h0,
    Finset.sum_congr rfl fun k hk' => hk k (Finset.ne_of_mem_erase hk')]
  ring

theorem calcchi2_scaled {psd : ZMod n → ℝ} {fs : ℝ} {tmpl tmpl' : Option (List ℝ)} {pulse : ZMod n → ℝ}
    {npole : ℤ} {errscale : ℝ} (herr : 0 < errscale) {tau : Option ℝ} {scale : Bool} (m : ZMod n → ℂ) (dof : ℕ) :
    ((init (u.psd psd) (fs / u.τ) tmpl').prepare (u.trace pulse) npole errscale (tau.map (u.τ * ·))
        scale).calcchi2 (fun k => ((u.s * Real.sqrt u.τ : ℝ) : ℂ) * m k) dof =
      (((init psd fs tmpl).prepare pulse npole errscale tau scale).calcchi2 m dof).map fun c =>
        c + (u.s ^ 2 * u.τ - 1) * errscale * ‖fftR pulse 0 / (Real.sqrt (fs * n) : ℂ) - m 0‖ ^ 2 / 10 ^ 40 /
          (((n : ℤ) - dof : ℤ) : ℝ) := by
  have hc : 0 < u.s * Real.sqrt u.τ := mul_pos u.hs (Real.sqrt_pos.2 u.hτ)
  have hsq : (u.s * Real.sqrt u.τ) ^ 2 = u.s ^ 2 * u.τ := by rw [mul_pow, Real.sq_sqrt u.hτ.le]
  unfold Obj.calcchi2
  split_ifs
  · rfl
  · simp only [Except.map]
    congr 1
    rw [← add_div]
    congr 1
    have hn : ∀ k, ‖((init (u.psd psd) (fs / u.τ) tmpl').prepare (u.trace pulse) npole errscale
        (tau.map (u.τ * ·)) scale).data k - ((u.s * Real.sqrt u.τ : ℝ) : ℂ) * m k‖ ^ 2 =
        u.s ^ 2 * u.τ * ‖((init psd fs tmpl).prepare pulse npole errscale tau scale).data k - m k‖ ^ 2 := by
      intro k
      rw [show ((init (u.psd psd) (fs / u.τ) tmpl').prepare (u.trace pulse) npole errscale
        (tau.map (u.τ * ·)) scale).data k = ((u.s * Real.sqrt u.τ : ℝ) : ℂ) *
          ((init psd fs tmpl).prepare pulse npole errscale tau scale).data k from data_units pulse k,
        ← mul_sub, norm_mul, Complex.norm_real, Real.norm_of_nonneg hc.le, mul_pow, hsq]
    rw [sum_bins _ (fun k => ‖((init psd fs tmpl).prepare pulse npole errscale tau scale).data k - m k‖ ^ 2 /
        ((init psd fs tmpl).prepare pulse npole errscale tau scale).error k ^ 2) (u.s ^ 2 * u.τ)]
    · congr 1
      simp only [Obj.prepare, init, Function.update_self]
      rw [Real.sq_sqrt (by positivity)]
      field_simp
    · rw [hn]
      simp only [Obj.prepare, init, Function.update_self]
      ring
    · intro k hk
      rw [hn]
      simp only [Obj.prepare, init, Function.update_of_ne hk, Units.psd]
      rw [err_units, mul_pow, hsq, mul_div_mul_left _ _ (by have := u.hs; have := u.hτ; positivity)]

/-! ### validation -/

theorem ereal_le {f : ℝ} (hf : 0 < f) (x y : EReal) : (f : EReal) * x ≤ f * y ↔ x ≤ y := by
  have h0 : (0 : EReal) ≤ f := by exact_mod_cast hf.le
  have key : ∀ x y : EReal, x ≤ y → (f : EReal) * x ≤ f * y := fun x y h => by gcongr
  refine ⟨fun h => ?_, key x y⟩
  induction x <;> induction y <;>
    simp_all [EReal.coe_mul_top_of_pos, EReal.coe_mul_bot_of_pos, ← EReal.coe_mul, mul_le_mul_iff_right₀]

theorem ereal_lt {f : ℝ} (hf : 0 < f) (x y : EReal) : (f : EReal) * x < f * y ↔ x < y := by
  rw [← not_le, ← not_le, ereal_le hf]

theorem mem_zip_iff {α β : Type*} {l : List α} {m : List β} {P : α → β → Prop} :
    (∀ p ∈ l.zip m, P p.1 p.2) ↔ ∀ (i : ℕ) a b, l[i]? = some a → m[i]? = some b → P a b := by
  constructor
  · intro h i a b ha hb
    exact h (a, b) (List.mem_iff_getElem?.2 ⟨i, by rw [List.getElem?_zip_eq_some]; exact ⟨ha, hb⟩⟩)
  · rintro h ⟨a, b⟩ hp
    obtain ⟨i, hi⟩ := List.mem_iff_getElem?.1 hp
    rw [List.getElem?_zip_eq_some] at hi
    exact h i a b hi.1 hi.2

theorem zip_mapIdx {α α' β β' : Type*} (f : ℕ → α → α') (g : ℕ → β → β') {P : α → β → Prop} {P' : α' → β' → Prop}
    (h : ∀ i a b, P' (f i a) (g i b) ↔ P a b) (l : List α) (m : List β) :
    (∀ p ∈ (l.mapIdx f).zip (m.mapIdx g), P' p.1 p.2) ↔ ∀ p ∈ l.zip m, P p.1 p.2 := by
  rw [mem_zip_iff, mem_zip_iff]
  simp only [List.getElem?_mapIdx]
  constructor
  · intro H i a b ha hb
    exact (h i a b).1 (H i _ _ (by rw [ha]; rfl) (by rw [hb]; rfl))
  · intro H i a b ha hb
    rw [Option.map_eq_some_iff] at ha hb
    obtain ⟨a', ha', rfl⟩ := ha
    obtain ⟨b', hb', rfl⟩ := hb
    exact (h i a' b').2 (H i a' b' ha' hb')

theorem lsqValid_scaled (x0 y : List ℝ) (b : List EReal × List EReal) :
    LsqValid (u.params x0) (u.bounds x0.length b) (y.mapIdx fun i x => u.factor x0.length i * x) ↔
      LsqValid x0 b y := by
  unfold LsqValid Units.bounds Units.bound
  rw [params_length]
  simp only [List.length_mapIdx]
  unfold Units.params
  refine and_congr_right fun _ => and_congr_right fun _ => and_congr ?_ (and_congr ?_ (and_congr ?_ ?_))
  · refine zip_mapIdx (P := fun (a b : EReal) => a < b) (P' := fun (a b : EReal) => a < b) _ _
      (fun i a b => ?_) _ _
    exact ereal_lt (u.factor_pos _ _) a b
  · refine zip_mapIdx (P := fun (a : EReal) (b : ℝ) => a ≤ (b : EReal))
      (P' := fun (a : EReal) (b : ℝ) => a ≤ (b : EReal)) _ _ (fun i a b => ?_) _ _
    rw [EReal.coe_mul]
    exact ereal_le (u.factor_pos _ _) _ _
  · refine zip_mapIdx (P := fun (a : EReal) (b : ℝ) => (b : EReal) ≤ a)
      (P' := fun (a : EReal) (b : ℝ) => (b : EReal) ≤ a) _ _ (fun i a b => ?_) _ _
    rw [EReal.coe_mul]
    exact ereal_le (u.factor_pos _ _) _ _
  · simp only [List.mem_mapIdx]
    constructor
    · intro h s hs
      obtain ⟨i, hi, rfl⟩ := List.getElem_of_mem hs
      exact (mul_pos_iff_of_pos_left (u.factor_pos _ _)).1 (h _ ⟨i, hi, rfl⟩)
    · rintro h s ⟨i, hi, rfl⟩
      exact mul_pos (u.factor_pos _ _) (h _ (List.getElem_mem hi))

theorem lsqValid_units (x0 : List ℝ) (b : List EReal × List EReal) :
    LsqValid (u.params x0) (u.bounds x0.length b) (u.params x0) ↔ LsqValid x0 b x0 :=
  lsqValid_scaled x0 x0 b

omit [NeZero n] in
theorem defaultBounds_units (h : Scaled u o o') {p0 : List ℝ} (hl : p0.length = dofOf o.npole) :
    o'.defaultBounds (u.params p0) = u.bounds p0.length (o.defaultBounds p0) := by
  have hfs : ∀ t : ℝ, u.τ * t - 30 / (o.fs / u.τ) = u.τ * (t - 30 / o.fs) := fun t => by
    rw [div_div_eq_mul_div]; ring
  have hfs' : ∀ t : ℝ, u.τ * t + 30 / (o.fs / u.τ) = u.τ * (t + 30 / o.fs) := fun t => by
    rw [div_div_eq_mul_div]; ring
  unfold dofOf at hl
  unfold Obj.defaultBounds
  rw [h.npole, h.fs]
  split_ifs at hl ⊢ with h4 h3 h2
  · obtain ⟨a, b, c, d, e, f, g, i, rfl⟩ := length8 hl
    rw [params8]
    simp [Units.bounds, Units.bound, Units.factor, Units.factors, hfs, hfs', mul_div_assoc, mul_assoc,
      ← EReal.coe_mul]
    rw [EReal.coe_mul, EReal.coe_mul, EReal.coe_sub, EReal.coe_add]
    exact ⟨rfl, rfl⟩
  · obtain ⟨a, b, c, d, e, f, rfl⟩ := length6 hl
    rw [params6]
    simp [Units.bounds, Units.bound, Units.factor, Units.factors, hfs, hfs', mul_div_assoc, mul_assoc,
      ← EReal.coe_mul]
    rw [EReal.coe_mul, EReal.coe_mul, EReal.coe_sub, EReal.coe_add]
    exact ⟨rfl, rfl⟩
  · obtain ⟨a, b, c, d, rfl⟩ := length4 hl
    rw [params4]
    simp [Units.bounds, Units.bound, Units.factor, Units.factors, hfs, hfs', mul_div_assoc, mul_assoc,
      ← EReal.coe_mul]
    rw [EReal.coe_mul, EReal.coe_mul, EReal.coe_sub, EReal.coe_add]
    exact ⟨rfl, rfl⟩
  · obtain ⟨a, b, c, rfl⟩ := length3 hl
    rw [params3]
    simp [Units.bounds, Units.bound, Units.factor, Units.factors, hfs, hfs', mul_div_assoc, mul_assoc,
      ← EReal.coe_mul]
    rw [EReal.coe_mul, EReal.coe_mul, EReal.coe_sub, EReal.coe_add]
    exact ⟨rfl, rfl⟩

/-! ### start points -/

omit [NeZero n] in
theorem toL_units (x : ZMod n → ℝ) : toL (u.trace x) = (toL x).map (u.s * ·) := by
  unfold toL Units.trace
  rw [List.map_map]; rfl

theorem argmax_scale {c : ℝ} (hc : 0 < c) (l : List ℝ) : argmax (l.map (c * ·)) = argmax l := by
  unfold argmax
  rw [List.length_map]
  have e : ∀ i : ℤ, (l.map (c * ·)).getD i.toNat 0 = c * l.getD i.toNat 0 := by
    intro i
    rw [List.getD_eq_getElem?_getD, List.getElem?_map, List.getD_eq_getElem?_getD]
    cases l[i.toNat]? <;> simp
  simp only [e]
  rw [OF.argminOn_order (fun i => -(c * l.getD i.toNat 0)) (fun i => -(l.getD i.toNat 0))]
  intro i j
  rw [neg_lt_neg_iff, neg_lt_neg_iff, mul_lt_mul_iff_right₀ hc]

theorem slice_map (f : ℝ → ℝ) (l : List ℝ) (a b : ℤ) : slice (l.map f) a b = (slice l a b).map f := by
  unfold slice
  rw [List.length_map, List.map_drop, List.map_take]

theorem mean_scale (c : ℝ) (l : List ℝ) : Np.mean (l.map (c * ·)) = (Np.mean l).map (c * ·) := by
  unfold Np.mean
  have hsum : (l.map (c * ·)).sum = c * l.sum := by
    induction l with
    | nil => simp
    | cons a l ih => simp [ih, mul_add]
  by_cases h : l = []
  · simp [h]
  · simp [h, hsum, mul_div_assoc]

theorem ampscale_units (x : ZMod n → ℝ) : ampscale (u.trace x) = u.s * ampscale x := by
  unfold ampscale Units.trace
  have e1 : Finset.univ.sup' Finset.univ_nonempty (fun i => u.s * x i) =
      u.s * Finset.univ.sup' Finset.univ_nonempty x := by
    have := Finset.apply_sup'_eq_sup'_comp Finset.univ_nonempty (f := x) (fun y => u.s * y)
      (fun a b => mul_max_of_nonneg a b u.hs.le)
    exact this.symm
  have e2 : Finset.univ.inf' Finset.univ_nonempty (fun i => u.s * x i) =
      u.s * Finset.univ.inf' Finset.univ_nonempty x := by
    have := Finset.apply_inf'_eq_inf'_comp Finset.univ_nonempty (f := x) (fun y => u.s * y)
      (fun a b => mul_min_of_nonneg a b u.hs.le)
    exact this.symm
  rw [e1, e2]; ring

theorem muonTau_units (fs : ℝ) (x : ZMod n → ℝ) :
    muonTau (fs / u.τ) (u.trace x) = (muonTau fs x).map (u.τ * ·) := by
  unfold muonTau
  rw [ampscale_units, toL_units, List.map_map]
  have e : (toL x).map ((fun y => -|y - u.s * ampscale x / Real.exp 1|) ∘ (u.s * ·)) =
      ((toL x).map fun y => -|y - ampscale x / Real.exp 1|).map (u.s * ·) := by
    rw [List.map_map]
    refine List.map_congr_left fun y _ => ?_
    simp only [Function.comp_apply]
    rw [mul_div_assoc, ← mul_sub, abs_mul, abs_of_pos u.hs, mul_neg]
  rw [e, argmax_scale u.hs]
  cases argmax ((toL x).map fun y => -|y - ampscale x / Real.exp 1|) with
  | error e => rfl
  | ok i =>
    simp only [Except.map]
    congr 1
    rw [div_div_eq_mul_div]; ring

omit [NeZero n] in
theorem falltime_units (x : ZMod n → ℝ) (i j : ℤ) (a : ℝ) :
    argmax ((slice (toL (u.trace x)) i j).map fun y => -|y - 37 / 100 * (u.s * a)|) =
      argmax ((slice (toL x) i j).map fun y => -|y - 37 / 100 * a|) := by
  rw [toL_units, slice_map, List.map_map]
  have e : (slice (toL x) i j).map ((fun y => -|y - 37 / 100 * (u.s * a)|) ∘ (u.s * ·)) =
      ((slice (toL x) i j).map fun y => -|y - 37 / 100 * a|).map (u.s * ·) := by
    rw [List.map_map]
    refine List.map_congr_left fun y _ => ?_
    simp only [Function.comp_apply]
    rw [show u.s * y - 37 / 100 * (u.s * a) = u.s * (y - 37 / 100 * a) by ring, abs_mul, abs_of_pos u.hs,
      mul_neg]
  rw [e, argmax_scale u.hs]

theorem muonFcn_units (psd psd' : ZMod n → ℝ) (fs : ℝ) (x x' : ZMod n → ℝ) (errscale A t : ℝ) (k : ZMod n) :
    (Muon.prepare psd' (fs / u.τ) x' errscale).fcn (u.s * A) (u.τ * t) k =
      ((u.s * Real.sqrt u.τ : ℝ) : ℂ) * (Muon.prepare psd fs x errscale).fcn A t k := by
  have hτ : (u.τ : ℂ) ≠ 0 := by exact_mod_cast u.hτ.ne'
  unfold Muon.fcn
  simp only [Muon.prepare]
  have e : ((2 * Real.pi * fftfreq (fs / u.τ) k : ℝ) : ℂ) * ((u.τ * t : ℝ) : ℂ) =
      (2 * Real.pi * fftfreq fs k : ℝ) * t := by
    rw [show fftfreq (fs / u.τ) k = fftfreq fs k / u.τ by unfold fftfreq; ring]
    push_cast
    field_simp
  have hd : (u.τ : ℂ) * (Real.sqrt (fs / u.τ / n) : ℂ) = Real.sqrt u.τ * Real.sqrt (fs / n) := by
    have := Scaled.df (u := u) (o := init psd fs none) (o' := init psd (fs / u.τ) none) ⟨rfl, rfl, rfl, rfl⟩
    exact_mod_cast this
  rw [e]
  push_cast at hd ⊢
  linear_combination (u.s * A * t / (1 + 2 * Real.pi * fftfreq fs k * t * Complex.I) : ℂ) * hd

/-! ### covariance -/

omit [NeZero n] in
theorem pinv_gram_scaled {κ : Type*} [Fintype κ] {d d' : ℕ} (hd : d' = d) {J : Matrix κ (Fin d) ℝ} {J' : Matrix κ (Fin d') ℝ}
    {f : ℕ → ℝ} (hf : ∀ i, f i ≠ 0) (hJ : ∀ i j, J' i (Fin.cast hd.symm j) = J i j / f j)
    {X : Matrix (Fin d) (Fin d) ℝ} (h1 : Jᵀ * J * X = 1) (i j : Fin d) :
    pinv (J'ᵀ * J') (Fin.cast hd.symm i) (Fin.cast hd.symm j) = f i * f j * pinv (Jᵀ * J) i j := by
  subst hd
  simp only [Fin.cast_eq_self] at hJ ⊢
  have h2 : X * (Jᵀ * J) = 1 := mul_eq_one_comm.1 h1
  let X' : Matrix (Fin d') (Fin d') ℝ := fun i j => f i * f j * X i j
  have hG : ∀ i j, (J'ᵀ * J') i j = (Jᵀ * J) i j / (f i * f j) := by
    intro i j
    rw [Matrix.mul_apply, Matrix.mul_apply, Finset.sum_div]
    refine Finset.sum_congr rfl fun k _ => ?_
    rw [Matrix.transpose_apply, Matrix.transpose_apply, hJ, hJ, div_mul_div_comm]
  have k1 : J'ᵀ * J' * X' = 1 := by
    ext i j
    have e : (J'ᵀ * J' * X') i j = f j / f i * (Jᵀ * J * X) i j := by
      rw [Matrix.mul_apply, Matrix.mul_apply, Finset.mul_sum]
      refine Finset.sum_congr rfl fun c _ => ?_
      rw [hG]
      have := hf i; have := hf c
      simp only [X']
      field_simp
    rw [e, h1]
    by_cases hij : i = j
    · subst hij; simp [hf]
    · simp [Matrix.one_apply_ne hij]
  rw [pinv_of_inv k1 (mul_eq_one_comm.1 k1), pinv_of_inv h1 h2]

/-! ### later pulses -/

theorem omega_shift {o : Obj n} (hfs : 0 < o.fs) (m : ℤ) (k : ZMod n) (t0 : ℝ) :
    Complex.exp (-o.omega k * ((t0 + m / o.fs : ℝ) : ℂ) * Complex.I) =
      e (-((m : ZMod n) * k)) * Complex.exp (-o.omega k * t0 * Complex.I) := by
  have h := exp_freq (n := n) o.fs hfs.ne' (-m) k ((-m : ℤ) / o.fs) rfl
  rw [show (((-m : ℤ) : ZMod n)) * k = -((m : ZMod n) * k) by push_cast; ring] at h
  rw [← h, ← Complex.exp_add]
  congr 1
  unfold Obj.omega
  push_cast
  ring

theorem twopole_later {o : Obj n} (hfs : 0 < o.fs) (A τr τf t0 : ℝ) (m : ℤ) :
    o.twopole A τr τf (t0 + m / o.fs) =
      (o.twopole A τr τf t0).map fun M k => e (-((m : ZMod n) * k)) * M k := by
  unfold Obj.twopole
  by_cases hs : o.scale = true
  · rw [if_pos hs, if_pos hs]
    cases scaledAmp A τr τf with
    | error e => rfl
    | ok a =>
      simp only [Except.map]
      congr 1
      funext k
      rw [omega_shift hfs]
      ring
  · rw [if_neg hs, if_neg hs]
    simp only [Except.map]
    congr 1
    funext k
    rw [omega_shift hfs]
    ring

theorem fourpole_later {o : Obj n} (hfs : 0 < o.fs) (A B C τr τ1 τ2 τ3 t0 : ℝ) (m : ℤ) (k : ZMod n) :
    o.fourpole A B C τr τ1 τ2 τ3 (t0 + m / o.fs) k =
      e (-((m : ZMod n) * k)) * o.fourpole A B C τr τ1 τ2 τ3 t0 k := by
  unfold Obj.fourpole
  have h := omega_shift hfs m k t0
  rw [show ∀ t : ℂ, -(o.omega k : ℂ) * t * Complex.I = -Complex.I * o.omega k * t from fun t => by ring,
    show -(o.omega k : ℂ) * t0 * Complex.I = -Complex.I * o.omega k * t0 by ring] at h
  rw [h]; ring

theorem threepole_later {o : Obj n} (hfs : 0 < o.fs) (A B τr τ1 τ2 t0 : ℝ) (m : ℤ) (k : ZMod n) :
    o.threepole A B τr τ1 τ2 (t0 + m / o.fs) k =
      e (-((m : ZMod n) * k)) * o.threepole A B τr τ1 τ2 t0 k := by
  unfold Obj.threepole
  have h := omega_shift hfs m k t0
  rw [show ∀ t : ℂ, -(o.omega k : ℂ) * t * Complex.I = -Complex.I * o.omega k * t from fun t => by ring,
    show -(o.omega k : ℂ) * t0 * Complex.I = -Complex.I * o.omega k * t0 by ring] at h
  rw [h]; ring

theorem model_later {o : Obj n} (hfs : 0 < o.fs) (p : List ℝ) (m : ℤ) :
    o.model (later (m / o.fs) p) = (o.model p).map fun M k => e (-((m : ZMod n) * k)) * M k := by
  by_cases hl : p.length = dofOf o.npole
  · unfold dofOf at hl
    unfold Obj.model
    split_ifs at hl ⊢ with h4 h3 h2
    · obtain ⟨a, b, c, d, e, f, g, i, rfl⟩ := length8 hl
      exact congrArg Except.ok (funext fun k => fourpole_later hfs ..)
    · obtain ⟨a, b, c, d, e, f, rfl⟩ := length6 hl
      exact congrArg Except.ok (funext fun k => threepole_later hfs ..)
    · obtain ⟨a, b, c, d, rfl⟩ := length4 hl
      exact twopole_later hfs ..
    · obtain ⟨a, b, c, rfl⟩ := length3 hl
      change o.onepole a b (c + m / o.fs) = (o.onepole a b c).map _
      unfold Obj.onepole
      cases o.taurise with
      | none => rfl
      | some τr => exact twopole_later hfs ..
  · rw [model_wrong o hl, model_wrong o (by simpa [later] using hl)]
    rfl

/-! ### pulses of the opposite sign -/

omit [NeZero n] in
theorem scaledAmp_neg (A τr τf : ℝ) : scaledAmp (-A) τr τf = (scaledAmp A τr τf).map (- ·) := by
  unfold scaledAmp
  dsimp only
  split_ifs
  · rfl
  · simp only [Except.map, neg_div]

omit [NeZero n] in
theorem twopole_flip (o : Obj n) (A τr τf t0 : ℝ) :
    o.twopole (-A) τr τf t0 = (o.twopole A τr τf t0).map fun M k => -M k := by
  unfold Obj.twopole
  rw [scaledAmp_neg]
  by_cases hs : o.scale = true
  · rw [if_pos hs, if_pos hs]
    cases scaledAmp A τr τf with
    | error e => rfl
    | ok a =>
      simp only [Except.map]
      congr 1
      funext k
      push_cast
      ring
  · rw [if_neg hs, if_neg hs]
    simp only [Except.map]
    congr 1
    funext k
    push_cast
    ring

omit [NeZero n] in
theorem model_flip (o : Obj n) (p : List ℝ) : o.model (flip p) = (o.model p).map fun M k => -M k := by
  by_cases hl : p.length = dofOf o.npole
  · unfold dofOf at hl
    unfold Obj.model
    split_ifs at hl ⊢ with h4 h3 h2
    · obtain ⟨a, b, c, d, e, f, g, i, rfl⟩ := length8 hl
      have : flip [a, b, c, d, e, f, g, i] = [-a, -b, -c, d, e, f, g, i] := by simp [flip]
      rw [this]
      simp only [Except.map]
      congr 1
      funext k
      unfold Obj.fourpole
      push_cast
      ring
    · obtain ⟨a, b, c, d, e, f, rfl⟩ := length6 hl
      have : flip [a, b, c, d, e, f] = [-a, -b, c, d, e, f] := by simp [flip]
      rw [this]
      simp only [Except.map]
      congr 1
      funext k
      unfold Obj.threepole
      push_cast
      ring
    · obtain ⟨a, b, c, d, rfl⟩ := length4 hl
      have : flip [a, b, c, d] = [-a, b, c, d] := by simp [flip]
      rw [this]
      exact twopole_flip o ..
    · obtain ⟨a, b, c, rfl⟩ := length3 hl
      have : flip [a, b, c] = [-a, b, c] := by simp [flip]
      rw [this]
      change o.onepole (-a) b c = (o.onepole a b c).map _
      unfold Obj.onepole
      cases o.taurise with
      | none => rfl
      | some τr => exact twopole_flip o ..
  · rw [model_wrong o hl, model_wrong o (by simpa [flip] using hl)]
    rfl

omit [NeZero n] in
theorem flatten_neg (d : ZMod n → ℂ) (e : ZMod n → ℝ) :
    flatten (fun k => -d k) e = (flatten d e).map (- ·) := by
  unfold flatten
  rw [List.map_flatMap]
  refine List.flatMap_congr fun k _ => ?_
  simp [neg_div]

end Verif.NonLin
