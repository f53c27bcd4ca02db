import Verif.OF
import Verif.OFSpec
import Verif.DftLemmas
import Verif.ArgminProps
import Mathlib.Tactic.LinearCombination

/-! Helper lemmas for the optimum-filter properties: everything the class computes is an inner
product of traces weighted by the inverse noise power. -/

namespace Verif.OF
open Verif Verif.Dft

variable {n : ℕ} [NeZero n]

/-- Noise-weighted inner product of two traces. -/
noncomputable def ip (fs : ℝ) (wt : ZMod n → ℝ) (x y : ZMod n → ℝ) : ℝ :=
  ∑ k, (starRingEnd ℂ (fftR x k / (fs : ℂ)) * (fftR y k / (fs : ℂ))).re * wt k * (fs / n)

theorem ip_self (fs : ℝ) (wt : ZMod n → ℝ) (x : ZMod n → ℝ) : ip fs wt x x = traceChi2 fs wt x := by
  unfold ip traceChi2
  refine Finset.sum_congr rfl fun k _ => ?_
  rw [mul_comm (starRingEnd ℂ _), Complex.mul_conj, Complex.ofReal_re, Complex.normSq_eq_norm_sq]

theorem ip_comm (fs : ℝ) (wt : ZMod n → ℝ) (x y : ZMod n → ℝ) : ip fs wt x y = ip fs wt y x := by
  unfold ip
  refine Finset.sum_congr rfl fun k _ => ?_
  congr 2
  simp only [Complex.mul_re, Complex.conj_re, Complex.conj_im]; ring

theorem ip_add_right (fs : ℝ) (wt x y z : ZMod n → ℝ) :
    ip fs wt x (fun j => y j + z j) = ip fs wt x y + ip fs wt x z := by
  unfold ip
  rw [← Finset.sum_add_distrib]
  refine Finset.sum_congr rfl fun k _ => ?_
  rw [fftR_add, add_div, mul_add, Complex.add_re]; ring

theorem ip_sub_right (fs : ℝ) (wt x y z : ZMod n → ℝ) :
    ip fs wt x (fun j => y j - z j) = ip fs wt x y - ip fs wt x z := by
  unfold ip
  rw [← Finset.sum_sub_distrib]
  refine Finset.sum_congr rfl fun k _ => ?_
  rw [fftR_sub, sub_div, mul_sub, Complex.sub_re]; ring

theorem ip_smul_right (fs : ℝ) (wt x y : ZMod n → ℝ) (c : ℝ) :
    ip fs wt x (fun j => c * y j) = c * ip fs wt x y := by
  unfold ip
  rw [Finset.mul_sum]
  refine Finset.sum_congr rfl fun k _ => ?_
  rw [fftR_smul, mul_div_assoc, mul_left_comm, Complex.re_ofReal_mul]; ring

theorem ip_nonneg (fs : ℝ) (wt x : ZMod n → ℝ) (hfs : 0 ≤ fs) (hw : ∀ k, 0 ≤ wt k) :
    0 ≤ traceChi2 fs wt x := by
  unfold traceChi2
  refine Finset.sum_nonneg fun k _ => ?_
  have := hw k
  positivity

/-- Expansion of the chi-square of `x - a y - b z`. -/
theorem traceChi2_expand (fs : ℝ) (wt x y z : ZMod n → ℝ) (a b : ℝ) :
    traceChi2 fs wt (fun j => x j - a * y j - b * z j) =
      traceChi2 fs wt x - 2 * a * ip fs wt y x - 2 * b * ip fs wt z x
      + a ^ 2 * traceChi2 fs wt y + 2 * a * b * ip fs wt y z + b ^ 2 * traceChi2 fs wt z := by
  have e1 : ∀ u : ZMod n → ℝ, ip fs wt u (fun j => x j - a * y j - b * z j) =
      ip fs wt u x - a * ip fs wt u y - b * ip fs wt u z := by
    intro u
    rw [ip_sub_right fs wt u (fun j => x j - a * y j) (fun j => b * z j), ip_smul_right,
      ip_sub_right fs wt u x (fun j => a * y j), ip_smul_right]
  rw [← ip_self, e1, ip_comm fs wt _ x, ip_comm fs wt _ y, ip_comm fs wt _ z, e1, e1, e1,
    ip_self, ip_self, ip_self, ip_comm fs wt x y, ip_comm fs wt x z, ip_comm fs wt z y]
  ring

theorem traceChi2_expand1 (fs : ℝ) (wt x y : ZMod n → ℝ) (a : ℝ) :
    traceChi2 fs wt (fun j => x j - a * y j) =
      traceChi2 fs wt x - 2 * a * ip fs wt y x + a ^ 2 * traceChi2 fs wt y := by
  have := traceChi2_expand fs wt x y (fun _ => 0) a 0
  simp only [zero_mul, sub_zero, mul_zero, add_zero, ne_eq, OfNat.ofNat_ne_zero, not_false_eq_true,
    zero_pow] at this
  exact this

theorem traceChi2_roll (fs : ℝ) (wt x : ZMod n → ℝ) (m : ZMod n) :
    traceChi2 fs wt (roll x m) = traceChi2 fs wt x := by
  unfold traceChi2
  refine Finset.sum_congr rfl fun k _ => ?_
  rw [fftR_roll, mul_div_assoc, norm_mul, norm_e, one_mul]

theorem toFreq_eq (fs : ℝ) (x : ZMod n → ℝ) (k : ZMod n) : toFreq fs x k = fftR x k / (fs : ℂ) := by
  have hn : (n : ℂ) ≠ 0 := Nat.cast_ne_zero.2 (NeZero.ne n)
  unfold toFreq
  push_cast
  rw [div_div, mul_div_cancel₀ _ hn]

section init
variable (x T : ZMod n → ℝ) (psd : ZMod n → WithTop ℝ) (fs : ℝ) (ac : Bool)

theorem init_w (b : Bool) (k : ZMod n) : (init x T psd fs ac b).w k = weight psd ac k := by
  simp only [State.w, init, weight]
  split_ifs
  · simp [recip]
  · rfl

theorem init_s (k : ZMod n) : (init x T psd fs ac false).s k = fftR T k / (fs : ℂ) := by
  simp [init, toFreq_eq]

theorem init_v (b : Bool) (k : ZMod n) : (init x T psd fs ac b).v k = fftR x k / (fs : ℂ) := by
  simp [init, toFreq_eq]

theorem init_phi (k : ZMod n) : (init x T psd fs ac false).phi k =
    starRingEnd ℂ (fftR T k / (fs : ℂ)) * (weight psd ac k : ℂ) := by
  rw [← init_w x T psd fs ac false, ← init_s x T psd fs ac]; rfl

theorem init_df (b : Bool) : (init x T psd fs ac b).df = fs / n := rfl

theorem init_norm : (init x T psd fs ac false).norm = traceChi2 fs (weight psd ac) T := by
  have : (init x T psd fs ac false).norm = (∑ k, (init x T psd fs ac false).phi k
      * (init x T psd fs ac false).s k).re * (fs / n) := rfl
  rw [this, ← ip_self, ip, Complex.re_sum, Finset.sum_mul]
  refine Finset.sum_congr rfl fun k _ => ?_
  rw [init_phi, init_s]
  congr 1
  rw [mul_right_comm, Complex.re_mul_ofReal]

theorem init_chi0 (b : Bool) : readChi0 (init x T psd fs ac b) = traceChi2 fs (weight psd ac) x := by
  have : readChi0 (init x T psd fs ac b) = ((∑ k, starRingEnd ℂ ((init x T psd fs ac b).v k) *
      ((init x T psd fs ac b).w k : ℂ) * (init x T psd fs ac b).v k) * ((fs / n : ℝ) : ℂ)).re := rfl
  rw [this, Complex.re_mul_ofReal, Complex.re_sum, ← ip_self, ip, Finset.sum_mul]
  refine Finset.sum_congr rfl fun k _ => ?_
  rw [init_w, init_v]
  congr 1
  rw [mul_right_comm, Complex.re_mul_ofReal]

/-- The filtered signal at delay `m` is the inner product with the delayed template. -/
theorem init_sfTd (m : ZMod n) : readSfTd (init x T psd fs ac false) m =
    ip fs (weight psd ac) (roll T m) x / (init x T psd fs ac false).norm := by
  have : readSfTd (init x T psd fs ac false) m = (ifft (fun k =>
      ((init x T psd fs ac false).phi k * (init x T psd fs ac false).v k
        / ((init x T psd fs ac false).norm : ℂ)) * (n : ℂ)) m).re * (fs / n) := rfl
  rw [this, ifft_mul_n, Complex.re_sum, Finset.sum_mul, ip, Finset.sum_div]
  refine Finset.sum_congr rfl fun k _ => ?_
  rw [init_phi, init_v, fftR_roll, mul_div_assoc (e _), map_mul, conj_e, neg_neg, mul_comm k m]
  generalize (init x T psd fs ac false).norm = N
  generalize fftR T k / (fs : ℂ) = t
  generalize fftR x k / (fs : ℂ) = y
  have : e (m * k) * (starRingEnd ℂ t * (weight psd ac k : ℂ) * y / (N : ℂ)) =
      (e (m * k) * starRingEnd ℂ t * y) * ((weight psd ac k / N : ℝ) : ℂ) := by
    push_cast; ring
  rw [this, Complex.re_mul_ofReal]; ring

/-- Template autocorrelation. -/
theorem init_tfTd (m : ZMod n) : tfTd (init x T psd fs ac false) m =
    ip fs (weight psd ac) (roll T m) T := by
  have : tfTd (init x T psd fs ac false) m = (ifft (fun k =>
      ((init x T psd fs ac false).phi k * (init x T psd fs ac false).s k) * (n : ℂ)) m).re
        * (fs / n) := rfl
  rw [this, ifft_mul_n, Complex.re_sum, Finset.sum_mul, ip]
  refine Finset.sum_congr rfl fun k _ => ?_
  rw [init_phi, init_s, fftR_roll, mul_div_assoc (e _), map_mul, conj_e, neg_neg, mul_comm k m]
  generalize fftR T k / (fs : ℂ) = t
  have : e (m * k) * (starRingEnd ℂ t * (weight psd ac k : ℂ) * t) =
      (e (m * k) * starRingEnd ℂ t * t) * ((weight psd ac k : ℝ) : ℂ) := by ring
  rw [this, Complex.re_mul_ofReal]

theorem init_freqs (b : Bool) : readFreqs (init x T psd fs ac b) = fftfreq fs := rfl

theorem init_tfTdAt (hfs : fs ≠ 0) (m : ZMod n) (m1 : ℤ) (t1 : ℝ) (ht : t1 = m1 / fs) :
    tfTdAt (init x T psd fs ac false) t1 m =
      ip fs (weight psd ac) (roll T m) (roll T (m1 : ZMod n)) := by
  have h0 : tfTdAt (init x T psd fs ac false) t1 m = (ifft (fun k =>
      (Complex.exp (-2 * Complex.I * Real.pi * (fftfreq fs k : ℝ) * t1) *
      (init x T psd fs ac false).phi k * (init x T psd fs ac false).s k) * (n : ℂ)) m).re
        * (fs / n) := rfl
  rw [h0, ifft_mul_n, Complex.re_sum, Finset.sum_mul, ip]
  refine Finset.sum_congr rfl fun k _ => ?_
  have hexp : Complex.exp (-2 * Complex.I * Real.pi * (fftfreq fs k : ℝ) * t1) =
      e (-((m1 : ZMod n) * k)) := by
    have := exp_freq fs hfs (-m1) k (-t1) (by rw [ht]; push_cast; ring)
    push_cast at this
    rw [← neg_mul, ← this]
    congr 1; ring
  rw [hexp, init_phi, init_s, fftR_roll, fftR_roll, mul_div_assoc (e _), mul_div_assoc (e _),
    map_mul, conj_e, neg_neg, mul_comm k m]
  generalize fftR T k / (fs : ℂ) = t
  have : e (m * k) * (e (-((m1 : ZMod n) * k)) * (starRingEnd ℂ t * (weight psd ac k : ℂ)) * t) =
      (e (m * k) * starRingEnd ℂ t * (e (-((m1 : ZMod n) * k)) * t)) * ((weight psd ac k : ℝ) : ℂ) := by
    ring
  rw [this, Complex.re_mul_ofReal]

/-- Amplitude of `ofamp_nodelay` at any bin offset. -/
theorem init_nodelay_amp (hfs : fs ≠ 0) (wc : ℤ) :
    (nodelay (init x T psd fs ac false) wc).1.1 =
      readSfTd (init x T psd fs ac false) (wc : ZMod n) := by
  have hsf : readSfTd (init x T psd fs ac false) (wc : ZMod n) = (∑ k, e (k * (wc : ZMod n)) *
      (init x T psd fs ac false).signalfilt k).re * (fs / n) := by
    rw [← ifft_mul_n]; rfl
  rw [hsf]
  simp only [nodelay, init_freqs, init_df]
  split_ifs with h
  · congr 2
    refine Finset.sum_congr rfl fun k _ => ?_
    have := exp_freq fs hfs wc k ((wc : ℝ) / fs) rfl
    rw [mul_comm k, ← this, mul_comm]
    congr 2
    push_cast
    simp only [init]
    ring
  · simp only [not_not] at h
    subst h
    simp

/-- Amplitudes by array index. -/
theorem init_amps (b : Bool) (i : ZMod n) : readAmps (init x T psd fs ac b) i =
    readSfTd (init x T psd fs ac b) (i - ((n / 2 : ℕ) : ZMod n)) := rfl

/-- Chi-squares by array index. -/
theorem init_chi (b : Bool) (i : ZMod n) : readChi (init x T psd fs ac b) i =
    readChi0 (init x T psd fs ac b) - readSfTd (init x T psd fs ac b) (i - ((n / 2 : ℕ) : ZMod n)) ^ 2
      * (init x T psd fs ac b).norm := rfl

/-- The residual chi-square is a parabola in the amplitude. -/
theorem resid_expand (hN : traceChi2 fs (weight psd ac) T ≠ 0) (a : ℝ) (m : ZMod n) :
    traceChi2 fs (weight psd ac) (resid x T a m) =
      readChi0 (init x T psd fs ac false)
      - 2 * a * readSfTd (init x T psd fs ac false) m * (init x T psd fs ac false).norm
      + a ^ 2 * (init x T psd fs ac false).norm := by
  unfold resid
  rw [traceChi2_expand1, traceChi2_roll, init_chi0, init_sfTd, init_norm]
  field_simp

theorem resid_expand2 (hN : traceChi2 fs (weight psd ac) T ≠ 0) (a1 a2 : ℝ) (m1 m2 : ZMod n) :
    traceChi2 fs (weight psd ac) (resid2 x T a1 m1 a2 m2) =
      readChi0 (init x T psd fs ac false)
      - 2 * a1 * readSfTd (init x T psd fs ac false) m1 * (init x T psd fs ac false).norm
      - 2 * a2 * readSfTd (init x T psd fs ac false) m2 * (init x T psd fs ac false).norm
      + a1 ^ 2 * (init x T psd fs ac false).norm
      + 2 * a1 * a2 * ip fs (weight psd ac) (roll T m2) (roll T m1)
      + a2 ^ 2 * (init x T psd fs ac false).norm := by
  unfold resid2
  rw [traceChi2_expand, traceChi2_roll, traceChi2_roll, init_chi0, init_sfTd, init_sfTd, init_norm,
    ip_comm fs _ (roll T m1) (roll T m2)]
  field_simp

/-- Completing the square. -/
theorem resid_square (hN : traceChi2 fs (weight psd ac) T ≠ 0) (a : ℝ) (m : ZMod n) :
    traceChi2 fs (weight psd ac) (resid x T a m) =
      readChi0 (init x T psd fs ac false)
      - readSfTd (init x T psd fs ac false) m ^ 2 * (init x T psd fs ac false).norm
      + (a - readSfTd (init x T psd fs ac false) m) ^ 2 * (init x T psd fs ac false).norm := by
  rw [resid_expand x T psd fs ac hN]; ring

end init

omit [NeZero n] in
theorem weight_nonneg (psd : ZMod n → WithTop ℝ) (ac : Bool) (hpsd : ∀ k, 0 < psd k) (k : ZMod n) :
    0 ≤ weight psd ac k := by
  unfold weight
  split_ifs
  · exact le_rfl
  · exact recip_nonneg (hpsd k)

theorem fftR_congr {x y : ZMod n → ℝ} (h : ∀ j, x j = y j) : fftR x = fftR y := by
  rw [funext h]

/-- `integralnorm=True` is the same object as one built from the template divided by its integral. -/
theorem init_integralnorm (x T : ZMod n → ℝ) (psd : ZMod n → WithTop ℝ) (fs : ℝ) (ac : Bool) :
    init x T psd fs ac true = init x (fun j => (fs / ∑ i, T i) * T j) psd fs ac false := by
  have : (fun k => toFreq fs T k / toFreq fs T 0) = toFreq fs (fun j => (fs / ∑ i, T i) * T j) := by
    funext k
    rw [toFreq_eq, toFreq_eq, toFreq_eq, fftR_smul, fftR_zero_bin]
    push_cast
    by_cases hfs : (fs : ℂ) = 0
    · simp [hfs]
    by_cases hs : (∑ i, (T i : ℂ)) = 0
    · simp [hs]
    field_simp
  unfold init
  simp only [if_true, Bool.false_eq_true, if_false, this]

omit [NeZero n] in
theorem half_cast : (((n : ℤ) / 2 : ℤ) : ZMod n) = ((n / 2 : ℕ) : ZMod n) := by
  rw [show (n : ℤ) / 2 = ((n / 2 : ℕ) : ℤ) by simp, Int.cast_natCast]

omit [NeZero n] in
theorem add_half_cast (d : ℤ) :
    ((d + (n : ℤ) / 2 : ℤ) : ZMod n) - ((n / 2 : ℕ) : ZMod n) = (d : ZMod n) := by
  rw [Int.cast_add, half_cast, add_sub_cancel_right]

omit [NeZero n] in
theorem sub_half_cast (i : ℤ) :
    ((i - (n : ℤ) / 2 : ℤ) : ZMod n) = (i : ZMod n) - ((n / 2 : ℕ) : ZMod n) := by
  rw [Int.cast_sub, half_cast]

/-- The index of a delay. -/
theorem exists_index (m : ZMod n) : ∃ d : ℤ, (d : ZMod n) = m ∧ 0 ≤ d + (n : ℤ) / 2 ∧
    d + (n : ℤ) / 2 < n := by
  refine ⟨(m + ((n / 2 : ℕ) : ZMod n)).val - (n : ℤ) / 2, ?_, by omega, ?_⟩
  · rw [sub_half_cast, Int.cast_natCast, ZMod.natCast_zmod_val, add_sub_cancel_right]
  · have := ZMod.val_lt (m + ((n / 2 : ℕ) : ZMod n))
    omega

/-- The search only depends on the order of the chi-squares. -/
theorem argminGo_order (f g : ℤ → ℝ) (h : ∀ i j, f i < f j ↔ g i < g j) :
    ∀ (l : List ℤ) (b : ℤ), argminGo f b l = argminGo g b l
  | [], b => rfl
  | a :: l, b => by
    unfold argminGo
    simp only [h a b, argminGo_order f g h l]

theorem argminOn_order (f g : ℤ → ℝ) (h : ∀ i j, f i < f j ↔ g i < g j) (l : List ℤ) :
    argminOn f l = argminOn g l := by
  cases l with
  | nil => rfl
  | cons a l => simp only [argminOn, argminGo_order f g h]

omit [NeZero n] in
theorem argminChi2_order (f g : ℤ → ℝ) (h : ∀ i j, f i < f j ↔ g i < g j) (nc o mask wc) :
    argminChi2 n f nc o mask wc = argminChi2 n g nc o mask wc := by
  unfold argminChi2
  simp only [argminOn_order f g h]

omit [NeZero n] in
/-- What a search result means, independently of the search code. -/
theorem search_spec (amps chi : ZMod n → ℝ) (nc : Option ℤ) (o : Bool) (dir wc : ℤ) (r : Option ℤ)
    (h : search amps chi nc o dir wc = .ok r) :
    (dir = -1 ∨ dir = 0 ∨ dir = 1) ∧
    match r with
    | none => ∀ i, ¬ (Admissible n nc o none wc i ∧ (dir = 1 → 0 < amps (i : ZMod n))
        ∧ (dir = -1 → amps (i : ZMod n) < 0))
    | some i => (Admissible n nc o none wc i ∧ (dir = 1 → 0 < amps (i : ZMod n))
        ∧ (dir = -1 → amps (i : ZMod n) < 0)) ∧
      ∀ j : ℤ, Admissible n nc o none wc j ∧ (dir = 1 → 0 < amps (j : ZMod n))
        ∧ (dir = -1 → amps (j : ZMod n) < 0) → chi (i : ZMod n) ≤ chi (j : ZMod n) := by
  unfold search at h
  have hd : dir = -1 ∨ dir = 0 ∨ dir = 1 := by
    by_contra hc
    unfold directionMask at h
    rw [if_pos hc] at h
    simp at h
  refine ⟨hd, ?_⟩
  split at h
  · simp at h
  · rename_i mask hmask
    cases r with
    | none =>
      intro i hi
      exact (argmin_none_iff n _ nc o mask wc none h).1 rfl i
        ((direction_admissible n nc o (asIdx amps) dir mask wc i hmask).2 hi)
    | some i =>
      obtain ⟨h1, h2, -⟩ := argmin_ok_admissible n _ nc o mask wc i h
      refine ⟨(direction_admissible n nc o (asIdx amps) dir mask wc i hmask).1 h1, fun j hj => ?_⟩
      exact h2 j ((direction_admissible n nc o (asIdx amps) dir mask wc j hmask).2 hj)

omit [NeZero n] in
/-- A search over a family of parabolas `c₀ - A² N + (a - A)² N` returns the optimum over all
admissible delays and all amplitudes of the allowed sign. -/
theorem search_optimum (amps chi : ZMod n → ℝ) (c0 N : ℝ) (hN : 0 < N)
    (hchi : ∀ i, chi i = c0 - amps i ^ 2 * N) (nc : Option ℤ) (o : Bool) (dir wc : ℤ)
    (r : Option ℤ) (h : search amps chi nc o dir wc = .ok r) (a c : ℝ)
    (hr : (r = none ∧ a = 0 ∧ c = c0) ∨
      ∃ i : ℤ, r = some i ∧ a = amps (i : ZMod n) ∧ c = chi (i : ZMod n)) :
    (dir = 1 → 0 ≤ a) ∧ (dir = -1 → a ≤ 0) ∧ c ≤ c0 ∧
    ∀ (j : ℤ) (b : ℝ), Admissible n nc o none wc j → (dir = 1 → 0 ≤ b) → (dir = -1 → b ≤ 0) →
      c ≤ c0 - amps (j : ZMod n) ^ 2 * N + (b - amps (j : ZMod n)) ^ 2 * N := by
  obtain ⟨hd, hs⟩ := search_spec amps chi nc o dir wc r h
  have key : c ≤ c0 ∧ ∀ (j : ℤ), (Admissible n nc o none wc j ∧ (dir = 1 → 0 < amps (j : ZMod n))
        ∧ (dir = -1 → amps (j : ZMod n) < 0)) → c ≤ c0 - amps (j : ZMod n) ^ 2 * N := by
    rcases hr with ⟨rfl, rfl, rfl⟩ | ⟨i, rfl, rfl, rfl⟩
    · exact ⟨le_rfl, fun j hj => absurd hj (hs j)⟩
    · refine ⟨?_, fun j hj => ?_⟩
      · rw [hchi]; nlinarith [sq_nonneg (amps (i : ZMod n))]
      · rw [← hchi]; exact hs.2 j hj
  refine ⟨?_, ?_, key.1, ?_⟩
  · intro h1
    rcases hr with ⟨rfl, rfl, -⟩ | ⟨i, rfl, rfl, -⟩
    · exact le_rfl
    · exact (hs.1.2.1 h1).le
  · intro h1
    rcases hr with ⟨rfl, rfl, -⟩ | ⟨i, rfl, rfl, -⟩
    · exact le_rfl
    · exact (hs.1.2.2 h1).le
  · intro j b hj hb1 hb2
    by_cases hq : (dir = 1 → 0 < amps (j : ZMod n)) ∧ (dir = -1 → amps (j : ZMod n) < 0)
    · have := key.2 j ⟨hj, hq⟩
      have h2 : 0 ≤ (b - amps (j : ZMod n)) ^ 2 * N := by positivity
      linarith
    · refine key.1.trans ?_
      have hab : b * amps (j : ZMod n) ≤ 0 := by
        rw [not_and_or] at hq
        rcases hq with hq | hq <;> push Not at hq
        · exact mul_nonpos_of_nonneg_of_nonpos (hb1 hq.1) hq.2
        · exact mul_nonpos_of_nonpos_of_nonneg (hb2 hq.1) hq.2
      have e1 : c0 - amps (j : ZMod n) ^ 2 * N + (b - amps (j : ZMod n)) ^ 2 * N
          = c0 + b ^ 2 * N + 2 * (-(b * amps (j : ZMod n))) * N := by ring
      rw [e1]
      have : 0 ≤ b ^ 2 * N := by positivity
      have : 0 ≤ 2 * (-(b * amps (j : ZMod n))) * N := by
        apply mul_nonneg _ hN.le; linarith
      linarith

/-- Sampled frequencies do not exceed the Nyquist frequency. -/
theorem abs_fftfreq_le (fs : ℝ) (hfs : 0 < fs) (k : ZMod n) : |fftfreq fs k| ≤ fs / 2 := by
  have hn : (0 : ℝ) < n := Nat.cast_pos.2 (Nat.pos_of_ne_zero (NeZero.ne n))
  have h1 : |(freqIdx k : ℝ)| ≤ n / 2 := by
    have := ZMod.val_lt k
    have h2 : 2 * |freqIdx k| ≤ n := by
      unfold freqIdx
      split_ifs with h
      · rw [abs_of_nonneg (by omega)]; omega
      · rw [abs_of_nonpos (by omega)]; omega
    have h3 : (2 : ℝ) * |(freqIdx k : ℝ)| ≤ n := by exact_mod_cast h2
    linarith
  unfold fftfreq
  rw [abs_div, abs_mul, abs_of_pos hfs, abs_of_pos hn, div_le_iff₀ hn]
  calc |(freqIdx k : ℝ)| * fs ≤ n / 2 * fs := by gcongr
    _ = fs / 2 * n := by ring

/-! ### White noise -/

/-- Unit white noise. -/
def white : ZMod n → WithTop ℝ := fun _ => ((1 : ℝ) : WithTop ℝ)

omit [NeZero n] in
theorem white_weight (k : ZMod n) : weight white false k = 1 := by
  simp [weight, white, recip]

/-- For white noise the chi-square is the sum of squares of the trace. -/
theorem traceChi2_white (fs : ℝ) (r : ZMod n → ℝ) :
    traceChi2 fs (weight white false) r = (∑ j, r j ^ 2) / fs := by
  have hn : (n : ℝ) ≠ 0 := Nat.cast_ne_zero.2 (NeZero.ne n)
  have h := parseval r
  unfold traceChi2
  simp only [white_weight, mul_one, norm_div, div_pow, Complex.norm_real]
  rw [← Finset.sum_mul, ← Finset.sum_div, h, Real.norm_eq_abs, sq_abs]
  by_cases hfs : fs = 0
  · simp [hfs]
  field_simp

theorem ip_white (fs : ℝ) (x y : ZMod n → ℝ) :
    ip fs (weight white false) x y = (∑ j, x j * y j) / fs := by
  have h := traceChi2_expand1 fs (weight white false) x y 1
  simp only [traceChi2_white] at h
  rw [ip_comm]
  have e1 : ∑ j, (x j - 1 * y j) ^ 2 = (∑ j, x j ^ 2) - 2 * (∑ j, x j * y j) + ∑ j, y j ^ 2 := by
    rw [Finset.mul_sum, ← Finset.sum_sub_distrib, ← Finset.sum_add_distrib]
    exact Finset.sum_congr rfl fun j _ => by ring
  rw [e1] at h
  rw [sub_add, sub_div, sub_div] at h
  linear_combination (1 / 2) * h

/-- The unit pulse in bin 0. -/
def delta : ZMod n → ℝ := fun j => if j = 0 then 1 else 0

theorem fftR_delta (k : ZMod n) : fftR (delta : ZMod n → ℝ) k = 1 := by
  rw [fftR_apply, Finset.sum_eq_single 0]
  · simp [delta]
  · intro j _ hj; simp [delta, hj]
  · simp

theorem delta_norm (fs : ℝ) : traceChi2 fs (weight white false) (delta : ZMod n → ℝ) = 1 / fs := by
  rw [traceChi2_white]
  simp [delta]

/-- With white noise and a one-bin template the filtered trace is the trace. -/
theorem delta_sfTd (fs : ℝ) (hfs : fs ≠ 0) (x : ZMod n → ℝ) (m : ZMod n) :
    readSfTd (init x delta white fs false false) m = x m := by
  rw [init_sfTd, init_norm, delta_norm, ip_white]
  simp [delta, roll, sub_eq_zero, hfs]

theorem delta_chi0 (fs : ℝ) (x : ZMod n → ℝ) (b : Bool) :
    readChi0 (init x delta white fs false b) = (∑ j, x j ^ 2) / fs := by
  rw [init_chi0, traceChi2_white]

end Verif.OF
