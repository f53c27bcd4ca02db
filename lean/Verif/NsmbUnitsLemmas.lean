import Verif.NsmbUnitsSpec
import Verif.NsmbLemmas
import Verif.OFLemmas

/-! Lemmas for `NsmbUnitsProps`. -/

namespace Verif.Nsmb
open Verif.Dft Verif.Nsmb.Spec Matrix

variable {n : ℕ} [NeZero n] {nb : ℕ}

/-- The pseudo-inverse of a scaled and reordered matrix. -/
theorem pinv_change {ι κ : Type*} [Fintype ι] [Fintype κ] {A : Matrix ι ι ℝ} (hA : Aᵀ = A) (e : κ ≃ ι)
    {γ : ℝ} (hγ : γ ≠ 0) : pinv (γ • A.submatrix e e) = γ⁻¹ • (pinv A).submatrix e e := by
  have h1 := pinv_submatrix hA e
  have hs : (A.submatrix e e)ᵀ = A.submatrix e e := by rw [Matrix.transpose_submatrix, hA]
  have h := isPinv_pinv hs
  rw [← h1]
  have hs' : (γ • A.submatrix e e)ᵀ = γ • A.submatrix e e := by rw [Matrix.transpose_smul, hs]
  have e1 : (γ • A.submatrix e e) * (γ⁻¹ • pinv (A.submatrix e e)) =
      A.submatrix e e * pinv (A.submatrix e e) := by
    rw [Matrix.smul_mul, Matrix.mul_smul, smul_smul, mul_inv_cancel₀ hγ, one_smul]
  have e2 : (γ⁻¹ • pinv (A.submatrix e e)) * (γ • A.submatrix e e) =
      pinv (A.submatrix e e) * A.submatrix e e := by
    rw [Matrix.smul_mul, Matrix.mul_smul, smul_smul, inv_mul_cancel₀ hγ, one_smul]
  refine (isPinv_pinv hs').unique ⟨?_, ?_, ?_, ?_⟩
  · rw [e1, Matrix.mul_smul, h.axa]
  · rw [e2, Matrix.mul_smul, h.xax]
  · rw [e1, h.ax]
  · rw [e2, h.xa]

/-- The solution of the normal equations. -/
theorem pinv_solve {ι κ : Type*} [Fintype ι] [Fintype κ] {A : Matrix ι ι ℝ} (hA : Aᵀ = A) (e : κ ≃ ι)
    {γ : ℝ} (hγ : γ ≠ 0) (β : ℝ) (q : ι → ℝ) (i : κ) :
    (pinv (γ • A.submatrix e e) *ᵥ fun k => β * q (e k)) i = β / γ * (pinv A *ᵥ q) (e i) := by
  rw [pinv_change hA e hγ, Matrix.smul_mulVec]
  have h2 : (fun k => β * q (e k)) = β • (q ∘ e) := rfl
  rw [h2, Matrix.mulVec_smul, Matrix.submatrix_mulVec_equiv]
  simp only [Pi.smul_apply, smul_eq_mul, Function.comp]
  have : (q ∘ e) ∘ e.symm = q := by
    funext j
    simp
  rw [this]
  ring

theorem ipR_scale (J x y : ZMod n → ℝ) (a b c : ℝ) :
    ipR (fun f => c * J f) (fun s => a * x s) (fun s => b * y s) = a * b / c * ipR J x y := by
  unfold ipR ip
  rw [Finset.mul_sum]
  refine Finset.sum_congr rfl fun f _ => ?_
  dsimp only
  rw [fftR_smul, fftR_smul]
  have : starRingEnd ℂ ((a : ℂ) * fftR x f / n) * ((b : ℂ) * fftR y f / n) =
      ((a * b : ℝ) : ℂ) * (starRingEnd ℂ (fftR x f / n) * (fftR y f / n)) := by
    rw [mul_div_assoc, mul_div_assoc, map_mul, Complex.conj_ofReal]
    push_cast
    ring
  rw [this, Complex.re_ofReal_mul]
  ring

/-- What a change does to the quantities of the filter. -/
structure Rel (u : Change nb) (F F' : Filt n nb) (p p' : ZMod n → ℝ) (fs fs' : ℝ) : Prop where
  pt : ∀ t i j, ptEntry F'.Pfs F'.P t i j =
    u.template ^ 2 / (u.noise * u.rate) * ptEntry F.Pfs F.P t (u.idx i) (u.idx j)
  ptSymm : ∀ t i j, ptEntry F.Pfs F.P t i j = ptEntry F.Pfs F.P t j i
  sl : ∀ t, Nsmb.slice F'.P t =
    (u.template ^ 2 / (u.noise * u.rate)) • (Nsmb.slice F.P t).submatrix u.idx u.idx
  sliceSymm : ∀ t, (slice F.P t)ᵀ = slice F.P t
  q : ∀ t i, qt F'.phi p' t i = u.signal * u.template / (u.noise * u.rate) * qt F.phi p t (u.idx i)
  base : chi2base F'.psddnu p' = u.chi * chi2base F.psddnu p
  B : F'.B = (u.template ^ 2 / (u.noise * u.rate)) • F.B.submatrix u.order u.order
  BSymm : F.Bᵀ = F.B
  iB : F.iB = pinv F.B
  iB' : F'.iB = pinv F'.B
  bsum : ∀ i : Fin nb, (∑ f, qf F'.phi p' i.succ f).re =
    u.signal * u.template / (u.noise * u.rate) * (∑ f, qf F.phi p (u.order i).succ f).re
  sbt : ∀ i s, F'.sbt i s = u.template * F.sbt (u.idx i) s
  sbf : ∀ i f, F'.sbf i f = (u.template : ℂ) * F.sbf (u.idx i) f
  J : ∀ f, F'.psddnu f = u.noise * u.rate * F.psddnu f
  p : ∀ s, p' s = u.signal * p s
  fs : fs' = u.rate * fs

omit [NeZero n] in
theorem Change.idx_zero (u : Change nb) : u.idx 0 = 0 := rfl

omit [NeZero n] in
theorem Change.idx_succ (u : Change nb) (j : Fin nb) : u.idx j.succ = (u.order j).succ := rfl

omit [NeZero n] in
theorem Change.idx_eq_zero (u : Change nb) (i : Fin (nb + 1)) : u.idx i = 0 ↔ i = 0 := by
  constructor
  · intro h
    exact u.idx.injective (h.trans u.idx_zero.symm)
  · rintro rfl
    rfl

omit [NeZero n] in
theorem delayed_change (u : Change nb) (T : Fin (nb + 1) → ZMod n → ℝ) (t : ZMod n) (i : Fin (nb + 1)) :
    delayed (u.templates T) t i = fun s => u.template * delayed T t (u.idx i) s := by
  unfold delayed
  by_cases h : i = 0
  · rw [if_pos h, if_pos ((u.idx_eq_zero i).2 h)]
    rfl
  · rw [if_neg h, if_neg (fun q => h ((u.idx_eq_zero i).1 q))]
    rfl

omit [NeZero n] in
theorem noise_change (u : Change nb) (psd : ZMod n → ℝ) (fs : ℝ) :
    noise (u.psd psd) (u.rate * fs) = fun f => u.noise * u.rate * noise psd fs f := by
  funext f
  unfold noise Change.psd
  split_ifs <;> ring

theorem rel_setup (u : Change nb) {T : Fin (nb + 1) → ZMod n → ℝ} {psd : ZMod n → ℝ} {fs : ℝ} {F F' : Filt n nb}
    (h : setup T psd fs = .ok F) (h' : setup (u.templates T) (u.psd psd) (u.rate * fs) = .ok F')
    (p : ZMod n → ℝ) : Rel u F F' p (u.trace p) fs (u.rate * fs) := by
  obtain ⟨-, -, hJ, hphi, hPfs, hP, hsbf, hsbt, hB, hiB⟩ := setup_ok h
  obtain ⟨-, -, hJ', hphi', hPfs', hP', hsbf', hsbt', hB', hiB'⟩ := setup_ok h'
  rw [noise_change] at hJ' hphi' hPfs' hP' hB'
  have hsb : ∀ i f, sbtemplatef (u.templates T) i f = (u.template : ℂ) * sbtemplatef T (u.idx i) f := by
    intro i f
    unfold sbtemplatef Change.templates
    rw [fftR_smul, mul_div_assoc]
  have hpt : ∀ t i j, ptEntry F'.Pfs F'.P t i j =
      u.template ^ 2 / (u.noise * u.rate) * ptEntry F.Pfs F.P t (u.idx i) (u.idx j) := by
    intro t i j
    rw [hPfs', hP', hPfs, hP, ptEntry_eq, ptEntry_eq, delayed_change, delayed_change, ipR_scale, sq]
  refine ⟨hpt, ?_, ?_, ?_, ?_, ?_, ?_, ?_, hiB, hiB', ?_, ?_, ?_, ?_, fun _ => rfl, rfl⟩
  · intro t i j
    rw [hPfs, hP, ptEntry_eq, ptEntry_eq]
    exact ip_comm _ _ _
  · intro t
    rw [hP', hP, slice_P_eq, slice_P_eq]
    ext i j
    simp only [of_apply, Matrix.smul_apply, Matrix.submatrix_apply, smul_eq_mul]
    rw [delayed_change, delayed_change, ipR_scale, sq]
  · intro t
    rw [hP, slice_P_eq]
    exact gram_symm _ _
  · intro t i
    rw [hphi', hphi, qt_eq, qt_eq, delayed_change]
    unfold Change.trace
    rw [ipR_scale]
    ring
  · rw [hJ', hJ, chi2base_eq, chi2base_eq]
    unfold Change.trace
    rw [ipR_scale, Change.chi, sq]
  · rw [hB', hB]
    ext i j
    simp only [of_apply, Matrix.smul_apply, Matrix.submatrix_apply, smul_eq_mul]
    have : ∀ i : Fin nb, u.templates T i.succ = fun s => u.template * T (u.order i).succ s := fun i => rfl
    rw [this, this, ipR_scale, sq]
  · rw [hB]
    exact gram_symm _ _
  · intro i
    have e : ∀ (J p : ZMod n → ℝ) (T : Fin (nb + 1) → ZMod n → ℝ) (i : Fin nb),
        (∑ f, qf (phi (sbtemplatef T) J) p i.succ f).re = ipR J (T i.succ) p := by
      intro J p T i
      have := qt_eq T J p 0 i.succ
      rw [qt, if_neg (Fin.succ_ne_zero i), delayed_ne _ _ (Fin.succ_ne_zero i)] at this
      exact this
    rw [hphi', hphi, e, e]
    unfold Change.trace
    have : u.templates T i.succ = fun s => u.template * T (u.order i).succ s := rfl
    rw [this, ipR_scale]
    ring
  · intro i s
    rw [hsbt', hsbt]
    rfl
  · intro i f
    rw [hsbf', hsbf, hsb]
  · intro f
    rw [hJ', hJ]

section
variable {u : Change nb} (hu : u.Proper) {F F' : Filt n nb} {p p' : ZMod n → ℝ} {fs fs' : ℝ}
  (h : Rel u F F' p p' fs fs')
include hu h

omit [NeZero n] h in
theorem factor_eq : u.signal * u.template / (u.noise * u.rate) / (u.template ^ 2 / (u.noise * u.rate)) =
    u.signal / u.template := by
  have h1 := hu.template
  have h2 := hu.noise.ne'
  have h3 := hu.rate.ne'
  field_simp

omit [NeZero n] h in
theorem γ_ne : u.template ^ 2 / (u.noise * u.rate) ≠ 0 :=
  div_ne_zero (pow_ne_zero 2 hu.template) (mul_ne_zero hu.noise.ne' hu.rate.ne')

omit [NeZero n] h in
theorem chi_pos : 0 < u.chi := by
  have h1 := hu.signal
  have h2 := hu.noise
  have h3 := hu.rate
  unfold Change.chi
  positivity

theorem Rel.aT (t : ZMod n) : aT F'.phi (getiP F'.P) p' t = u.amps (aT F.phi (getiP F.P) p t) := by
  funext i
  unfold Nsmb.aT getiP Change.amps
  rw [h.sl]
  have : qt F'.phi p' t = fun k => u.signal * u.template / (u.noise * u.rate) * qt F.phi p t (u.idx k) :=
    funext fun k => h.q t k
  rw [this, pinv_solve (h.sliceSymm t) u.idx (γ_ne hu), factor_eq hu]

theorem Rel.sum_aq (t : ZMod n) (a : Fin (nb + 1) → ℝ) :
    ∑ i, u.amps a i * qt F'.phi p' t i = u.chi * ∑ i, a i * qt F.phi p t i := by
  rw [← Equiv.sum_comp u.idx fun i => a i * qt F.phi p t i, Finset.mul_sum]
  refine Finset.sum_congr rfl fun i _ => ?_
  rw [h.q]
  unfold Change.amps Change.chi
  have h1 := hu.template
  generalize a (u.idx i) = A
  generalize qt F.phi p t (u.idx i) = Q
  field_simp

theorem Rel.chi2T (t : ZMod n) : chi2T F'.psddnu F'.phi (getiP F'.P) p' t =
    u.chi * chi2T F.psddnu F.phi (getiP F.P) p t := by
  unfold Nsmb.chi2T
  rw [h.aT hu, h.sum_aq hu, h.base, mul_sub]

omit [NeZero n] h in
theorem pickIdx_change (chi : ZMod n → ℝ) (win : List ℤ) :
    pickIdx (fun t => u.chi * chi t) win = pickIdx chi win := by
  unfold pickIdx
  rw [OF.argminOn_order (OF.asIdx fun t => u.chi * chi t) (OF.asIdx chi) fun i j =>
    mul_lt_mul_iff_right₀ (chi_pos hu)]

omit hu in
theorem Rel.tdel (ind : ℤ) : tdel n fs' ind = tdel n fs ind / u.rate := by
  rw [h.fs]
  unfold Nsmb.tdel
  dsimp only
  rw [mul_comm u.rate, ← div_div]
  ring

theorem Rel.omega (f : ZMod n) : omega fs' f = u.rate * omega fs f := by
  rw [h.fs]
  have hd : ∀ fs : ℝ, (1 : ℝ) / (n * (1 / fs)) = fs / n := fun fs => by rw [mul_one_div, one_div_div]
  unfold Nsmb.omega
  simp only [hd]
  have e : (f.val : ℝ) * (u.rate * fs / n) > n * (u.rate * fs / n) / 2 ↔
      (f.val : ℝ) * (fs / n) > n * (fs / n) / 2 := by
    have e1 : (f.val : ℝ) * (u.rate * fs / n) = u.rate * ((f.val : ℝ) * (fs / n)) := by ring
    have e2 : n * (u.rate * fs / n) / 2 = u.rate * (n * (fs / n) / 2) := by ring
    rw [e1, e2, gt_iff_lt, gt_iff_lt, mul_lt_mul_iff_right₀ hu.rate]
  by_cases hc : (f.val : ℝ) * (fs / n) > n * (fs / n) / 2
  · rw [if_pos hc, if_pos (e.2 hc)]
    ring
  · rw [if_neg hc, if_neg (fun q => hc (e.1 q))]
    ring

theorem Rel.resid (a : Fin (nb + 1) → ℝ) (td : ℝ) :
    resid F'.sbf fs' p' (u.amps a) (td / u.rate) = fun m => u.signal * resid F.sbf fs p a td m := by
  funext m
  have hr' : (u.rate : ℂ) ≠ 0 := by exact_mod_cast hu.rate.ne'
  have ht' : (u.template : ℂ) ≠ 0 := by exact_mod_cast hu.template
  have hph : ∀ f : ZMod n, Complex.exp (-(Complex.I * (Nsmb.omega fs' f : ℂ) * ((td / u.rate : ℝ) : ℂ))) =
      Complex.exp (-(Complex.I * (Nsmb.omega fs f : ℂ) * (td : ℂ))) := by
    intro f
    rw [h.omega hu]
    congr 1
    push_cast
    field_simp
  unfold Nsmb.resid
  dsimp only
  have hfit : (fun f => ∑ i, ((u.amps a i : ℝ) : ℂ) * F'.sbf i f *
      (if i = 0 then Complex.exp (-(Complex.I * (Nsmb.omega fs' f : ℂ) * ((td / u.rate : ℝ) : ℂ))) else 1)) =
      fun f => (u.signal : ℂ) * ∑ i, ((a i : ℝ) : ℂ) * F.sbf i f *
      (if i = 0 then Complex.exp (-(Complex.I * (Nsmb.omega fs f : ℂ) * (td : ℂ))) else 1) := by
    funext f
    rw [← Equiv.sum_comp u.idx fun i => ((a i : ℝ) : ℂ) * F.sbf i f *
      (if i = 0 then Complex.exp (-(Complex.I * (Nsmb.omega fs f : ℂ) * (td : ℂ))) else 1), Finset.mul_sum]
    refine Finset.sum_congr rfl fun i _ => ?_
    rw [h.sbf, hph]
    have : (if u.idx i = 0 then Complex.exp (-(Complex.I * (Nsmb.omega fs f : ℂ) * (td : ℂ))) else 1) =
        if i = 0 then Complex.exp (-(Complex.I * (Nsmb.omega fs f : ℂ) * (td : ℂ))) else 1 :=
      if_congr (u.idx_eq_zero i) rfl rfl
    rw [this]
    generalize (if i = 0 then Complex.exp (-(Complex.I * (Nsmb.omega fs f : ℂ) * (td : ℂ))) else 1) = E
    unfold Change.amps
    push_cast
    field_simp
  rw [hfit, h.p]
  generalize hg : (fun f => ∑ i, ((a i : ℝ) : ℂ) * F.sbf i f *
      (if i = 0 then Complex.exp (-(Complex.I * (Nsmb.omega fs f : ℂ) * (td : ℂ))) else 1)) = G
  have hi : ifft (fun f => (u.signal : ℂ) * G f) m = (u.signal : ℂ) * ifft G m := by
    rw [ifft_apply, ifft_apply, Finset.mul_sum, Finset.mul_sum, Finset.mul_sum]
    exact Finset.sum_congr rfl fun f _ => by ring
  have hG : (fun f => (u.signal : ℂ) * ∑ i, ((a i : ℝ) : ℂ) * F.sbf i f *
      (if i = 0 then Complex.exp (-(Complex.I * (Nsmb.omega fs f : ℂ) * (td : ℂ))) else 1)) =
      fun f => (u.signal : ℂ) * G f := by
    rw [← hg]
  rw [hG, hi, mul_assoc, Complex.re_ofReal_mul, mul_sub]

omit hu in
theorem Rel.residSum (r : ZMod n → ℝ) (s : Finset (ZMod n)) :
    (∑ f ∈ s, starRingEnd ℂ (fftR (fun m => u.signal * r m) f / n) / F'.psddnu f *
      (fftR (fun m => u.signal * r m) f / n)).re =
    u.chi * (∑ f ∈ s, starRingEnd ℂ (fftR r f / n) / F.psddnu f * (fftR r f / n)).re := by
  rw [re_sum_div F'.psddnu (fun f => fftR (fun m => u.signal * r m) f / n)
    (fun f => fftR (fun m => u.signal * r m) f / n), re_sum_div F.psddnu (fun f => fftR r f / n)
    (fun f => fftR r f / n), Finset.mul_sum]
  refine Finset.sum_congr rfl fun f _ => ?_
  rw [fftR_smul, h.J]
  have : starRingEnd ℂ ((u.signal : ℂ) * fftR r f / n) * ((u.signal : ℂ) * fftR r f / n) =
      ((u.signal * u.signal : ℝ) : ℂ) * (starRingEnd ℂ (fftR r f / n) * (fftR r f / n)) := by
    rw [mul_div_assoc, map_mul, Complex.conj_ofReal]
    push_cast
    ring
  rw [this, Complex.re_ofReal_mul, Change.chi]
  ring

omit hu in
theorem Rel.residChi2 (r : ZMod n → ℝ) :
    residChi2 F'.psddnu (fun m => u.signal * r m) = u.chi * residChi2 F.psddnu r :=
  h.residSum r Finset.univ

omit hu in
theorem Rel.residChi2Lf (r : ZMod n → ℝ) (lf : ℕ) :
    residChi2Lf F'.psddnu (fun m => u.signal * r m) lf = u.chi * residChi2Lf F.psddnu r lf :=
  h.residSum r _

end

theorem disallowed_change {ι : Type*} (π : ι → ι) {a a' : ι → ℝ} {c c' : ι → ℤ} {x : ℝ} (hx : x ≠ 0)
    (ha : ∀ i, a' i = x * a (π i)) (hc : ∀ i, c' i = if x < 0 then -c (π i) else c (π i)) (i : ι) :
    disallowed a' c' i = disallowed a c (π i) := by
  unfold disallowed
  rw [ha, hc]
  rcases lt_or_gt_of_ne hx with h | h
  · rw [if_pos h]
    have e1 : x * a (π i) < 0 ↔ a (π i) > 0 := by
      constructor
      · intro q; by_contra w; push Not at w; nlinarith [mul_nonneg_of_nonpos_of_nonpos h.le w]
      · exact fun q => mul_neg_of_neg_of_pos h q
    have e2 : x * a (π i) > 0 ↔ a (π i) < 0 := by
      constructor
      · intro q; by_contra w; push Not at w; nlinarith [mul_nonneg_of_nonpos_of_nonpos h.le (neg_nonpos.2 w)]
      · exact fun q => mul_pos_of_neg_of_neg h q
    have e3 : x * a (π i) = 0 ↔ a (π i) = 0 := by simp only [mul_eq_zero, hx, false_or]
    have e4 : -c (π i) = 1 ↔ c (π i) = -1 := by omega
    have e5 : -c (π i) = -1 ↔ c (π i) = 1 := by omega
    simp only [e1, e2, e3, e4, e5]
    rw [Bool.or_comm (decide (a (π i) > 0 ∧ c (π i) = -1))]
  · rw [if_neg (not_lt.2 h.le)]
    have e1 : x * a (π i) < 0 ↔ a (π i) < 0 := by
      constructor
      · intro q; by_contra w; push Not at w; nlinarith [mul_nonneg h.le w]
      · exact fun q => mul_neg_of_pos_of_neg h q
    have e2 : x * a (π i) > 0 ↔ a (π i) > 0 := mul_pos_iff_of_pos_left h
    have e3 : x * a (π i) = 0 ↔ a (π i) = 0 := by simp only [mul_eq_zero, hx, false_or]
    simp only [e1, e2, e3]

theorem ones_change {ι : Type*} [Fintype ι] (π : Equiv.Perm ι) (m : ι → Bool) :
    ones (fun i => m (π i)) = ones m := by
  unfold ones
  refine Finset.card_bij (fun i _ => π i) ?_ (fun _ _ _ _ h => π.injective h) ?_
  · intro i hi
    simpa using hi
  · intro j hj
    exact ⟨π.symm j, by simpa using hj, by simp⟩

theorem expand_solve {ι : Type*} [Fintype ι] (π : Equiv.Perm ι) (m m' : ι → Bool)
    {A A' : Matrix ι ι ℝ} {q q' : ι → ℝ} {β γ : ℝ} (hγ : γ ≠ 0) (hm : ∀ i, m' i = m (π i))
    (hA : Aᵀ = A) (hA' : A' = γ • A.submatrix π π) (hq : ∀ i, q' i = β * q (π i)) (i : ι) :
    expand m' (pinv (A'.submatrix (fun k : {i // m' i = true} => k.1) fun k => k.1) *ᵥ fun i => q' i.1) i =
    β / γ * expand m (pinv (A.submatrix (fun k : {i // m i = true} => k.1) fun k => k.1) *ᵥ fun i => q i.1)
      (π i) := by
  let e : {i // m' i = true} ≃ {i // m i = true} :=
    π.subtypeEquiv fun k => by rw [hm]
  have h1 : A'.submatrix (fun k : {i // m' i = true} => k.1) (fun k => k.1) =
      γ • (A.submatrix (fun k : {i // m i = true} => k.1) fun k => k.1).submatrix e e := by
    rw [hA']
    rfl
  have hs : (A.submatrix (fun k : {i // m i = true} => k.1) fun k => k.1)ᵀ =
      A.submatrix (fun k : {i // m i = true} => k.1) fun k => k.1 := by
    rw [Matrix.transpose_submatrix, hA]
  have h2 : (fun i : {i // m' i = true} => q' i.1) =
      fun k => β * (fun j : {i // m i = true} => q j.1) (e k) := funext fun k => hq k.1
  unfold expand
  by_cases hi : m' i = true
  · have hi' : m (π i) = true := by rw [← hm]; exact hi
    rw [dif_pos hi, dif_pos hi', h1, h2]
    exact pinv_solve hs e hγ β (fun j : {i // m i = true} => q j.1) ⟨i, hi⟩
  · have hi' : ¬ m (π i) = true := by rw [← hm]; exact hi
    rw [dif_neg hi, dif_neg hi', mul_zero]

theorem masks_eq {ι : Type*} (π : Equiv.Perm ι) (m k : ι → Bool) :
    ((fun i => m (π i)) = fun i => k (π i)) ↔ m = k := by
  constructor
  · intro h
    funext i
    simpa using congrFun h (π.symm i)
  · rintro rfl
    rfl

theorem interpchi2_change {r κ α : ℝ} (hr : r ≠ 0) (hκ : κ ≠ 0) (ind : ℤ) (pts : List (ℝ × ℝ × ℝ)) :
    interpchi2 ind (pts.map fun x => (x.1 / r, κ * x.2.1, α * x.2.2)) =
      (interpchi2 ind pts).map fun x => (x.1 / r, κ * x.2.1, α * x.2.2) := by
  unfold interpchi2
  rw [List.length_map, ← List.map_take, ← List.map_drop]
  generalize (pts.take (Np.clipIdx pts.length (ind + 2))).drop (Np.clipIdx pts.length (ind - 1)) = l
  rcases l with _ | ⟨a, _ | ⟨b, _ | ⟨c, _ | ⟨d, l⟩⟩⟩⟩
  · rfl
  · rfl
  · rfl
  · simp only [List.map_cons, List.map_nil]
    have ed : ∀ x y : ℝ, x / r = y / r ↔ x = y := fun x y => div_left_inj' hr
    simp only [ed]
    by_cases h : a.1 = b.1 ∨ b.1 = c.1 ∨ a.1 = c.1
    · rw [if_pos h, if_pos h]
      rfl
    rw [if_neg h, if_neg h]
    push Not at h
    obtain ⟨h1, h2, h3⟩ := h
    have d1 : b.1 - a.1 ≠ 0 := sub_ne_zero.2 (Ne.symm h1)
    have d2 : c.1 - b.1 ≠ 0 := sub_ne_zero.2 (Ne.symm h2)
    have d3 : c.1 - a.1 ≠ 0 := sub_ne_zero.2 (Ne.symm h3)
    have key : ∀ (k : ℝ) (x y z : ℝ), polyfit3 (a.1 / r, k * x) (b.1 / r, k * y) (c.1 / r, k * z) =
        (k * r ^ 2 * (polyfit3 (a.1, x) (b.1, y) (c.1, z)).1,
          k * r * (polyfit3 (a.1, x) (b.1, y) (c.1, z)).2.1,
          k * (polyfit3 (a.1, x) (b.1, y) (c.1, z)).2.2) := by
      intro k x y z
      unfold polyfit3
      simp only [Prod.mk.injEq]
      have s1 : ∀ s t : ℝ, s / r - t / r = (s - t) / r := fun s t => (sub_div s t r).symm
      have s2 : ∀ s t : ℝ, k * s - k * t = k * (s - t) := fun s t => (mul_sub k s t).symm
      have e0 : ((k * z - k * y) / (c.1 / r - b.1 / r) - (k * y - k * x) / (b.1 / r - a.1 / r)) /
          (c.1 / r - a.1 / r) = k * r ^ 2 * (((z - y) / (c.1 - b.1) - (y - x) / (b.1 - a.1)) / (c.1 - a.1)) := by
        rw [s1, s1, s1, s2, s2]
        field_simp
      have e1 : (k * y - k * x) / (b.1 / r - a.1 / r) = k * r * ((y - x) / (b.1 - a.1)) := by
        rw [s1, s2]
        field_simp
      refine ⟨e0, ?_, ?_⟩
      · rw [e0, e1]
        generalize ((z - y) / (c.1 - b.1) - (y - x) / (b.1 - a.1)) / (c.1 - a.1) = A
        generalize (y - x) / (b.1 - a.1) = B
        field_simp
      · rw [e0, e1]
        generalize ((z - y) / (c.1 - b.1) - (y - x) / (b.1 - a.1)) / (c.1 - a.1) = A
        generalize (y - x) / (b.1 - a.1) = B
        field_simp
    rw [key κ, key α]
    dsimp only
    generalize polyfit3 (a.1, a.2.1) (b.1, b.2.1) (c.1, c.2.1) = z
    generalize polyfit3 (a.1, a.2.2) (b.1, b.2.2) (c.1, c.2.2) = w
    by_cases hz : z.1 = 0
    · rw [if_pos hz, if_pos (by rw [hz, mul_zero])]
      rfl
    · rw [if_neg hz, if_neg (mul_ne_zero (mul_ne_zero hκ (pow_ne_zero 2 hr)) hz)]
      simp only [Except.map, Except.ok.injEq, Prod.mk.injEq]
      have ht : -(κ * r * z.2.1) / (2 * (κ * r ^ 2 * z.1)) = -z.2.1 / (2 * z.1) / r := by field_simp
      rw [ht]
      generalize -z.2.1 / (2 * z.1) = t
      refine ⟨rfl, ?_, ?_⟩ <;> field_simp
  · rfl

section
variable {u : Change nb} (hu : u.Proper) {F F' : Filt n nb} {p p' : ZMod n → ℝ} {fs fs' : ℝ}
  (h : Rel u F F' p p' fs fs')
include hu

omit [NeZero n] hu in
theorem sign_amp (c : ℤ) : u.sign c = if u.signal / u.template < 0 then -c else c := by
  unfold Change.sign
  refine if_congr ?_ rfl rfl
  rw [div_eq_mul_inv, mul_neg_iff, mul_neg_iff, inv_lt_zero, inv_pos]

omit [NeZero n] in
theorem sign_grad (c : ℤ) : u.sign c = if u.signal * u.template / (u.noise * u.rate) < 0 then -c else c := by
  unfold Change.sign
  refine if_congr ?_ rfl rfl
  rw [div_neg_iff]
  have := mul_pos hu.noise hu.rate
  constructor
  · exact fun q => .inr ⟨q, this⟩
  · rintro (q | q)
    · exact absurd q.2 (not_lt.2 this.le)
    · exact q.1

omit [NeZero n] in
theorem amp_ne : u.signal / u.template ≠ 0 := div_ne_zero hu.signal hu.template

omit [NeZero n] in
theorem grad_ne : u.signal * u.template / (u.noise * u.rate) ≠ 0 :=
  div_ne_zero (mul_ne_zero hu.signal hu.template) (mul_ne_zero hu.noise.ne' hu.rate.ne')

include h

omit hu in
theorem Rel.fullPt (t : ZMod n) : fullPt F' t =
    (u.template ^ 2 / (u.noise * u.rate)) • (fullPt F t).submatrix u.idx u.idx := by
  ext i j
  exact h.pt t i j

omit hu in
theorem Rel.fullPt_symm (t : ZMod n) : (Nsmb.fullPt F t)ᵀ = Nsmb.fullPt F t := by
  ext i j
  exact h.ptSymm t j i

theorem Rel.maskFit (t : ZMod n) (m : Fin (nb + 1) → Bool) :
    maskFit F' p' t (fun i => m (u.idx i)) = (maskFit F p t m).map u.amps := by
  unfold Nsmb.maskFit getPt
  rw [ones_change u.idx]
  by_cases ho : ones m = 1
  · rw [if_pos ho, if_pos ho]
    rfl
  · rw [if_neg ho, if_neg ho]
    refine congrArg Except.ok (funext fun i => ?_)
    have := expand_solve u.idx m (fun i => m (u.idx i)) (A := Nsmb.fullPt F t) (A' := Nsmb.fullPt F' t)
      (q := qt F.phi p t) (q' := qt F'.phi p' t) (γ_ne hu) (fun _ => rfl) (h.fullPt_symm t) (h.fullPt t)
      (h.q t) i
    rw [factor_eq hu] at this
    exact this

theorem Rel.full (t : ZMod n) : pinv (Nsmb.fullPt F' t) *ᵥ qt F'.phi p' t =
    u.amps (pinv (Nsmb.fullPt F t) *ᵥ qt F.phi p t) := by
  funext i
  have : qt F'.phi p' t = fun k => u.signal * u.template / (u.noise * u.rate) * qt F.phi p t (u.idx k) :=
    funext fun k => h.q t k
  rw [h.fullPt, this, pinv_solve (h.fullPt_symm t) u.idx (γ_ne hu), factor_eq hu]
  rfl

theorem Rel.keep (t : ZMod n) (c : Fin (nb + 1) → ℤ) (a0 a : Fin (nb + 1) → ℝ) :
    keep (Nsmb.fullPt F' t) (u.signs c) (u.amps a0) (u.amps a) =
      fun i => keep (Nsmb.fullPt F t) c a0 a (u.idx i) := by
  funext i
  have d1 : ∀ i, disallowed (u.amps a) (u.signs c) i = disallowed a c (u.idx i) :=
    disallowed_change u.idx (amp_ne hu) (fun _ => rfl) fun i => sign_amp _
  unfold Nsmb.keep
  dsimp only
  rw [d1]
  congr 2
  refine disallowed_change u.idx (grad_ne hu) (fun i => ?_) (fun i => sign_grad hu _) i
  have hv : (fun i => if disallowed (u.amps a) (u.signs c) i = true then (0 : ℝ) else u.amps a i) - u.amps a0 =
      (u.signal / u.template) • (((fun i => if disallowed a c i = true then (0 : ℝ) else a i) - a0) ∘ u.idx) := by
    funext i
    simp only [Pi.sub_apply, Pi.smul_apply, smul_eq_mul, Function.comp, d1]
    unfold Change.amps
    by_cases hd : disallowed a c (u.idx i) = true
    · rw [if_pos hd, if_pos hd]
      ring
    · rw [if_neg hd, if_neg hd]
      ring
  rw [hv, h.fullPt, Matrix.smul_mulVec, Matrix.mulVec_smul, Matrix.submatrix_mulVec_equiv]
  simp only [Pi.smul_apply, smul_eq_mul, Function.comp]
  have e : (((fun i => if disallowed a c i = true then (0 : ℝ) else a i) - a0) ∘ u.idx) ∘ u.idx.symm =
      ((fun i => if disallowed a c i = true then (0 : ℝ) else a i) - a0) := by
    funext j
    simp
  rw [e]
  have h1 := hu.template
  generalize (Nsmb.fullPt F t *ᵥ ((fun i => if disallowed a c i = true then (0 : ℝ) else a i) - a0)) (u.idx i) = G
  field_simp

theorem Rel.conStep (c : Fin (nb + 1) → ℤ) (t : ZMod n) :
    conStep F' p' (u.signs c) t = (conStep F p c t).map u.amps := by
  unfold Nsmb.conStep
  by_cases hn : nb = 0
  · rw [if_pos hn, if_pos hn]
    rfl
  rw [if_neg hn, if_neg hn]
  dsimp only
  rw [h.full hu, h.keep hu, h.maskFit hu]
  generalize pinv (Nsmb.fullPt F t) *ᵥ qt F.phi p t = a0
  generalize Nsmb.keep (Nsmb.fullPt F t) c a0 a0 = m1
  cases h1 : Nsmb.maskFit F p t m1 with
  | error e => rfl
  | ok a1 =>
    simp only [Except.map]
    rw [h.keep hu, h.maskFit hu]
    generalize Nsmb.keep (Nsmb.fullPt F t) c a0 a1 = m2
    have h2 : (if (fun i => m1 (u.idx i)) = fun i => m2 (u.idx i) then Except.ok (u.amps a1)
        else (Nsmb.maskFit F p t m2).map u.amps) =
        (if m1 = m2 then Except.ok a1 else Nsmb.maskFit F p t m2).map u.amps := by
      by_cases hm : m1 = m2
      · rw [if_pos hm, if_pos ((masks_eq u.idx m1 m2).2 hm)]
        rfl
      · rw [if_neg hm, if_neg (fun q => hm ((masks_eq u.idx m1 m2).1 q))]
    rw [h2]
    generalize (if m1 = m2 then Except.ok a1 else Nsmb.maskFit F p t m2) = r2
    cases r2 with
    | error e => rfl
    | ok a2 =>
      dsimp only
      have d : (fun i => !disallowed (u.amps a2) (u.signs c) i) = fun i => (fun i => !disallowed a2 c i) (u.idx i) := by
        funext i
        have := disallowed_change u.idx (a := a2) (a' := u.amps a2) (c := c) (c' := u.signs c) (amp_ne hu)
          (fun _ => rfl) (fun i => sign_amp _) i
        rw [this]
      simp only [Except.map]
      rw [d, h.maskFit hu t fun i => !disallowed a2 c i]
      by_cases hm : m2 = fun i => !disallowed a2 c i
      · rw [if_pos hm, if_pos ((masks_eq u.idx m2 _).2 hm)]
      · rw [if_neg hm, if_neg (fun q => hm ((masks_eq u.idx m2 _).1 q))]
        rfl

theorem Rel.firstErr (c : Fin (nb + 1) → ℤ) : firstErr F' p' (u.signs c) = firstErr F p c := by
  unfold Nsmb.firstErr
  congr 1
  funext ii
  rw [h.conStep hu]
  cases Nsmb.conStep F p c (ii : ZMod n) <;> rfl

theorem Rel.conAmps (c : Fin (nb + 1) → ℤ) (t : ZMod n) :
    conAmps F' p' (u.signs c) t = u.amps (conAmps F p c t) := by
  unfold Nsmb.conAmps
  rw [h.conStep hu]
  cases Nsmb.conStep F p c t with
  | ok a => rfl
  | error e =>
    funext i
    simp [Except.map, Change.amps]

theorem Rel.conChi2 (t : ZMod n) (a : Fin (nb + 1) → ℝ) :
    conChi2 F' p' t (u.amps a) = u.chi * conChi2 F p t a := by
  unfold Nsmb.conChi2
  rw [h.base, h.sum_aq hu, mul_sub]

theorem Rel.winFit (chi asig : ZMod n → ℝ) (win : List ℤ) :
    winFit (fun t => u.chi * chi t) (fun t => u.signal / u.template * asig t) fs' win =
      (winFit chi asig fs win).map u.win := by
  have hd : ∀ x : ℝ, x * (1 / fs') = x * (1 / fs) / u.rate := by
    intro x
    rw [h.fs, mul_comm u.rate, ← div_div, mul_div_assoc]
  unfold Nsmb.winFit
  dsimp only
  have hr : ∀ (x : ℝ) (f : ZMod n → ℝ) (k : ZMod n), roll (fun t => x * f t) k = fun t => x * roll f k t :=
    fun x f k => rfl
  rw [hr, hr, pickIdx_change hu]
  cases pickIdx (roll chi ((n / 2 : ℕ) : ZMod n)) win with
  | error e => rfl
  | ok ind =>
    dsimp only
    by_cases hl : win.length = 1
    · rw [if_pos hl, if_pos hl]
      rfl
    rw [if_neg hl, if_neg hl]
    simp only [Except.map, Except.ok.injEq, Change.win, WinFit.mk.injEq]
    refine ⟨trivial, trivial, hd _, ?_⟩
    have hp : (win.map fun (i : ℤ) => ((i : ℝ) * (1 / fs'), u.chi * roll chi ((n / 2 : ℕ) : ZMod n) (i : ZMod n),
        u.signal / u.template * roll asig ((n / 2 : ℕ) : ZMod n) (i : ZMod n))) =
        (win.map fun (i : ℤ) => ((i : ℝ) * (1 / fs), roll chi ((n / 2 : ℕ) : ZMod n) (i : ZMod n),
        roll asig ((n / 2 : ℕ) : ZMod n) (i : ZMod n))).map
        fun x => (x.1 / u.rate, u.chi * x.2.1, u.signal / u.template * x.2.2) := by
      rw [List.map_map]
      refine List.map_congr_left fun i _ => ?_
      simp only [Function.comp, hd]
    rw [hp, interpchi2_change hu.rate.ne' (chi_pos hu).ne', hd]
    by_cases hs : List.findIdx (fun x => decide (x = ind)) win = 0 ∨
        List.findIdx (fun x => decide (x = ind)) win = win.length - 1
    · rw [if_pos hs, if_pos hs]
      rfl
    · rw [if_neg hs, if_neg hs]
      rfl

theorem Rel.winFits (chi asig : ZMod n → ℝ) (wins : List (List ℤ)) :
    winFits (fun t => u.chi * chi t) (fun t => u.signal / u.template * asig t) fs' wins =
      (winFits chi asig fs wins).map fun l => l.map u.win := by
  induction wins with
  | nil => rfl
  | cons w ws ih =>
    unfold Nsmb.winFits
    rw [h.winFit hu, ih]
    cases Nsmb.winFit chi asig fs w with
    | error e => rfl
    | ok r =>
      cases Nsmb.winFits chi asig fs ws with
      | error e => rfl
      | ok rs => rfl

theorem Rel.ofNsmb (window : List ℤ) (lf : ℕ) :
    ofNsmb p' F' (getiP F'.P) fs' window lf = (ofNsmb p F (getiP F.P) fs window lf).map u.fit := by
  unfold Nsmb.ofNsmb
  dsimp only
  by_cases hn : nb = 0
  · rw [if_pos hn, if_pos hn]
    split_ifs <;> rfl
  rw [if_neg hn, if_neg hn]
  have hc : Nsmb.chi2T F'.psddnu F'.phi (getiP F'.P) p' =
      fun t => u.chi * Nsmb.chi2T F.psddnu F.phi (getiP F.P) p t := funext fun t => h.chi2T hu t
  rw [hc, pickIdx_change hu]
  cases pickIdx (Nsmb.chi2T F.psddnu F.phi (getiP F.P) p) (window.map (wrapIdx n)) with
  | error e => rfl
  | ok ind =>
    simp only [Except.map, Except.ok.injEq, Change.fit, Fit.mk.injEq]
    rw [h.aT hu, h.tdel, h.resid hu, h.residChi2Lf]
    refine ⟨?_, ?_, ?_, ?_, ?_, ?_⟩ <;> trivial

theorem Rel.ofMb (c : Fin nb → ℤ) (lf : ℕ) :
    ofMb p' F' (fun i => u.sign (c (u.order i))) lf = (ofMb p F c lf).map u.mb := by
  unfold Nsmb.ofMb
  dsimp only
  set b : Fin nb → ℝ := fun i => (∑ f, qf F.phi p i.succ f).re with hb
  set b' : Fin nb → ℝ := fun i => (∑ f, qf F'.phi p' i.succ f).re with hb'
  have hbb : ∀ i, b' i = u.signal * u.template / (u.noise * u.rate) * b (u.order i) := h.bsum
  have ha : ∀ i, (F'.iB *ᵥ b') i = u.signal / u.template * (F.iB *ᵥ b) (u.order i) := by
    intro i
    have : b' = fun k => u.signal * u.template / (u.noise * u.rate) * b (u.order k) := funext hbb
    rw [h.iB', h.B, h.iB, this, pinv_solve h.BSymm u.order (γ_ne hu), factor_eq hu]
  have hm : ∀ i, (!disallowed (F'.iB *ᵥ b') (fun i => u.sign (c (u.order i))) i) =
      !disallowed (F.iB *ᵥ b) c (u.order i) := by
    intro i
    rw [disallowed_change u.order (amp_ne hu) ha (fun i => sign_amp _)]
  have ho : ones (fun i => !disallowed (F'.iB *ᵥ b') (fun i => u.sign (c (u.order i))) i) =
      ones fun i => !disallowed (F.iB *ᵥ b) c i := by
    rw [funext hm]
    exact ones_change u.order fun i => !disallowed (F.iB *ᵥ b) c i
  rw [ho]
  by_cases h1 : ones (fun i => !disallowed (F.iB *ᵥ b) c i) = 1
  · rw [if_pos h1, if_pos h1]
    rfl
  rw [if_neg h1, if_neg h1]
  have hx := fun i => expand_solve u.order (fun i => !disallowed (F.iB *ᵥ b) c i)
    (fun i => !disallowed (F'.iB *ᵥ b') (fun i => u.sign (c (u.order i))) i) (γ_ne hu) hm h.BSymm h.B hbb i
  simp only [factor_eq hu] at hx
  have hr : (fun τ => p' τ - ∑ i, F'.sbt i.succ τ *
      expand (fun i => !disallowed (F'.iB *ᵥ b') (fun i => u.sign (c (u.order i))) i)
        (pinv (F'.B.submatrix (fun k : {i // (!disallowed (F'.iB *ᵥ b') (fun i => u.sign (c (u.order i))) i) = true} => k.1)
          fun k => k.1) *ᵥ fun i => b' i.1) i) =
      fun τ => u.signal * (p τ - ∑ i, F.sbt i.succ τ * expand (fun i => !disallowed (F.iB *ᵥ b) c i)
        (pinv (F.B.submatrix (fun k : {i // (!disallowed (F.iB *ᵥ b) c i) = true} => k.1)
          fun k => k.1) *ᵥ fun i => b i.1) i) := by
    funext τ
    rw [h.p, mul_sub]
    congr 1
    refine Eq.trans ?_ (congrArg (u.signal * ·) (Equiv.sum_comp u.order _))
    rw [Finset.mul_sum]
    refine Finset.sum_congr rfl fun i _ => ?_
    rw [hx, h.sbt, u.idx_succ]
    have h1 := hu.template
    generalize expand (fun i => !disallowed (F.iB *ᵥ b) c i) _ _ = E
    field_simp
  rw [hr, h.residChi2, h.residChi2Lf, funext hx]
  rfl

theorem Rel.ofNsmbCon (c : Fin (nb + 1) → ℤ) (window : List ℤ) (wins : List (List ℤ)) (lf : ℕ) :
    ofNsmbCon p' F' fs' (u.signs c) window wins lf = (ofNsmbCon p F fs c window wins lf).map u.con := by
  have hd : ∀ x : ℝ, x * (1 / fs') = x * (1 / fs) / u.rate := by
    intro x
    rw [h.fs, mul_comm u.rate, ← div_div, mul_div_assoc]
  unfold Nsmb.ofNsmbCon
  rw [h.firstErr hu]
  cases Nsmb.firstErr F p c with
  | some e => rfl
  | none =>
    dsimp only
    have hc : (fun t => Nsmb.conChi2 F' p' t (Nsmb.conAmps F' p' (u.signs c) t)) =
        fun t => u.chi * (fun t => Nsmb.conChi2 F p t (Nsmb.conAmps F p c t)) t := by
      funext t
      rw [h.conAmps hu, h.conChi2 hu]
    have ha : (fun t => Nsmb.conAmps F' p' (u.signs c) t 0) =
        fun t => u.signal / u.template * (fun t => Nsmb.conAmps F p c t 0) t := by
      funext t
      rw [h.conAmps hu]
      rfl
    have hpts : ((List.range n).map fun (k : ℕ) => ((k : ℝ) * (1 / fs'),
        Nsmb.conChi2 F' p' (k : ZMod n) (Nsmb.conAmps F' p' (u.signs c) (k : ZMod n)),
        Nsmb.conAmps F' p' (u.signs c) (k : ZMod n) 0)) =
        ((List.range n).map fun (k : ℕ) => ((k : ℝ) * (1 / fs),
        Nsmb.conChi2 F p (k : ZMod n) (Nsmb.conAmps F p c (k : ZMod n)),
        Nsmb.conAmps F p c (k : ZMod n) 0)).map
        fun x => (x.1 / u.rate, u.chi * x.2.1, u.signal / u.template * x.2.2) := by
      rw [List.map_map]
      refine List.map_congr_left fun k _ => ?_
      simp only [Function.comp, hd, h.conAmps hu, h.conChi2 hu]
      rfl
    rw [hc, pickIdx_change hu, ha, h.winFits hu]
    simp only [hpts]
    generalize (fun t => Nsmb.conChi2 F p t (Nsmb.conAmps F p c t)) = chi
    cases pickIdx chi window with
    | error e => rfl
    | ok ind =>
      dsimp only
      rw [interpchi2_change hu.rate.ne' (chi_pos hu).ne']
      generalize interpchi2 ind _ = it
      have hfin : ∀ ws : List WinFit, ∀ it : Except Err (ℝ × ℝ × ℝ), ConFit.mk (nb := nb)
          (Nsmb.conAmps F' p' (u.signs c) (ind : ZMod n)) (Nsmb.tdel n fs' ind)
          (Nsmb.residChi2 F'.psddnu (Nsmb.resid F'.sbf fs' p' (Nsmb.conAmps F' p' (u.signs c) (ind : ZMod n))
            (Nsmb.tdel n fs' ind)))
          (Nsmb.residChi2Lf F'.psddnu (Nsmb.resid F'.sbf fs' p' (Nsmb.conAmps F' p' (u.signs c) (ind : ZMod n))
            (Nsmb.tdel n fs' ind)) lf)
          (Nsmb.resid F'.sbf fs' p' (Nsmb.conAmps F' p' (u.signs c) (ind : ZMod n)) (Nsmb.tdel n fs' ind))
          (match it.map fun x => (x.1 / u.rate, u.chi * x.2.1, u.signal / u.template * x.2.2) with
            | .ok (t, x, y) => .ok (t - n * (1 / fs') * (if t > n * (1 / fs') / 2 then 1 else 0), x, y)
            | .error e => .error e) (ws.map u.win) =
          u.con { amps := Nsmb.conAmps F p c (ind : ZMod n), tdelmin := Nsmb.tdel n fs ind,
                  chi2min := Nsmb.residChi2 F.psddnu (Nsmb.resid F.sbf fs p (Nsmb.conAmps F p c (ind : ZMod n))
                    (Nsmb.tdel n fs ind)),
                  chi2minlf := Nsmb.residChi2Lf F.psddnu (Nsmb.resid F.sbf fs p (Nsmb.conAmps F p c (ind : ZMod n))
                    (Nsmb.tdel n fs ind)) lf,
                  residT := Nsmb.resid F.sbf fs p (Nsmb.conAmps F p c (ind : ZMod n)) (Nsmb.tdel n fs ind),
                  interp := match it with
                    | .ok (t, x, y) => .ok (t - n * (1 / fs) * (if t > n * (1 / fs) / 2 then 1 else 0), x, y)
                    | .error e => .error e,
                  wins := ws } := by
        intro ws it
        rw [h.conAmps hu, h.tdel, h.resid hu, h.residChi2, h.residChi2Lf]
        simp only [Change.con, ConFit.mk.injEq, true_and, and_true]
        cases it with
        | error e => rfl
        | ok x =>
          obtain ⟨t, x, y⟩ := x
          simp only [Except.map, Change.point, hd]
          have e : t / u.rate > n * (1 / fs) / u.rate / 2 ↔ t > n * (1 / fs) / 2 := by
            rw [div_right_comm, gt_iff_lt, gt_iff_lt, div_lt_div_iff_of_pos_right hu.rate]
          by_cases ht : t > n * (1 / fs) / 2
          · rw [if_pos ht, if_pos (e.2 ht)]
            congr 2
            ring
          · rw [if_neg ht, if_neg (fun q => ht (e.1 q))]
            congr 2
            ring
      cases it with
      | error e =>
        cases e
        case typeError => rfl
        all_goals
          cases hw : Nsmb.winFits chi (fun t => Nsmb.conAmps F p c t 0) fs wins with
          | error e => rfl
          | ok ws =>
            first
            | exact congrArg Except.ok (hfin ws (.error .valueError))
            | exact congrArg Except.ok (hfin ws (.error .indexError))
            | exact congrArg Except.ok (hfin ws (.error .nameError))
            | exact congrArg Except.ok (hfin ws (.error .attributeError))
            | exact congrArg Except.ok (hfin ws (.error .zeroDivision))
            | exact congrArg Except.ok (hfin ws (.error .linAlgError))
            | exact congrArg Except.ok (hfin ws (.error .keyError))
            | exact congrArg Except.ok (hfin ws (.error .nan))
      | ok x =>
        cases hw : Nsmb.winFits chi (fun t => Nsmb.conAmps F p c t 0) fs wins with
        | error e => rfl
        | ok ws => exact congrArg Except.ok (hfin ws (.ok x))

end

theorem run_change {α : Type*} (u : Change nb) (T : Fin (nb + 1) → ZMod n → ℝ) (psd : ZMod n → ℝ) (fs : ℝ)
    (p : ZMod n → ℝ) (f f' : Filt n nb → Except Err α) (g : α → α)
    (h : ∀ F F', Rel u F F' p (u.trace p) fs (u.rate * fs) → f' F' = (f F).map g) :
    (setup (u.templates T) (u.psd psd) (u.rate * fs)).bind f' = ((setup T psd fs).bind f).map g := by
  cases hs : setup T psd fs with
  | error e =>
    have : setup (u.templates T) (u.psd psd) (u.rate * fs) = .error e := by
      unfold setup at hs ⊢
      by_cases h1 : n = 1
      · rw [if_pos h1] at hs ⊢
        exact hs
      · rw [if_neg h1] at hs ⊢
        by_cases h2 : nb = 1
        · rw [if_pos h2] at hs ⊢
          exact hs
        · rw [if_neg h2] at hs
          exact absurd hs (fun q => nomatch q)
    rw [this]
    rfl
  | ok F =>
    obtain ⟨h1, h2, -⟩ := setup_ok hs
    have : ∃ F', setup (u.templates T) (u.psd psd) (u.rate * fs) = .ok F' := by
      unfold setup
      rw [if_neg h1, if_neg h2]
      exact ⟨_, rfl⟩
    obtain ⟨F', hF'⟩ := this
    rw [hF']
    exact h F F' (rel_setup u hs hF' p)

end Verif.Nsmb
