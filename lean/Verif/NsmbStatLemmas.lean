import Verif.OFStatLemmas
import Verif.NsmbOFLemmas
import Verif.NsmbOFSpec
import Verif.NsmbLemmas
import Verif.OFPairLemmas
import Verif.OFRecLemmas
import Verif.ArgminProps
import Verif.NsmbStatSpec
import Mathlib.LinearAlgebra.Trace
import Mathlib.LinearAlgebra.Matrix.Rank

/-! Lemmas for C119: mean and covariance of linear least-squares amplitudes. -/

namespace Verif.OF
open Verif Verif.Dft MeasureTheory Matrix

variable {n : ℕ} [NeZero n]
variable {Ω : Type*} [MeasurableSpace Ω] {μ : Measure Ω} {noise : Ω → ZMod n → ℝ} {R : ZMod n → ℝ}
  {psd : ZMod n → WithTop ℝ} {fs : ℝ}

theorem Stationary.int_ip_mul (h : Stationary μ noise R) (hs : ∀ k, psd (-k) = psd k) (fs : ℝ) (ac : Bool)
    (p q : ZMod n → ℝ) :
    Integrable (fun ω => ip fs (weight psd ac) p (noise ω) * ip fs (weight psd ac) q (noise ω)) μ := by
  simp only [ip_gOpt fs _ _ _ (weight_symm hs ac)]
  exact h.int_lin2 _ _

theorem Stationary.int_ip [IsFiniteMeasure μ] (h : Stationary μ noise R) (hs : ∀ k, psd (-k) = psd k) (fs : ℝ)
    (ac : Bool) (p : ZMod n → ℝ) :
    Integrable (fun ω => ip fs (weight psd ac) p (noise ω)) μ := by
  simp only [ip_gOpt fs _ _ _ (weight_symm hs ac)]
  exact h.int_lin _

theorem Stationary.ip_mean [IsFiniteMeasure μ] (h : Stationary μ noise R) (hs : ∀ k, psd (-k) = psd k) (fs : ℝ)
    (ac : Bool) (p : ZMod n → ℝ) : ∫ ω, ip fs (weight psd ac) p (noise ω) ∂μ = 0 := by
  simp only [ip_gOpt fs _ _ _ (weight_symm hs ac)]
  exact h.lin _

/-- The covariance of the inner products of the noise with two pulses is their inner product. -/
theorem Stationary.ip_mul (h : Stationary μ noise R) (hR : HasPsd R fs psd) (hpsd : ∀ k, 0 < psd k)
    (hs : ∀ k, psd (-k) = psd k) (hfs : 0 < fs) (ac : Bool) (p q : ZMod n → ℝ) :
    ∫ ω, ip fs (weight psd ac) p (noise ω) * ip fs (weight psd ac) q (noise ω) ∂μ =
      ip fs (weight psd ac) p q := by
  have hadd : ∀ x, ip fs (weight psd ac) (fun j => p j + q j) x =
      ip fs (weight psd ac) p x + ip fs (weight psd ac) q x := by
    intro x
    rw [ip_comm, ip_add_right, ip_comm _ _ x, ip_comm _ _ x]
  have h1 := h.ip_sq hR hpsd hs hfs ac (fun j => p j + q j)
  rw [← ip_self, hadd, ip_add_right, ip_add_right, ip_self, ip_self, ip_comm _ _ q p] at h1
  have e : ∀ ω, ip fs (weight psd ac) (fun j => p j + q j) (noise ω) ^ 2 =
      ip fs (weight psd ac) p (noise ω) ^ 2 +
        2 * (ip fs (weight psd ac) p (noise ω) * ip fs (weight psd ac) q (noise ω)) +
        ip fs (weight psd ac) q (noise ω) ^ 2 := by
    intro ω; rw [hadd]; ring
  simp only [e] at h1
  have hi2 : ∀ p, Integrable (fun ω => ip fs (weight psd ac) p (noise ω) ^ 2) μ := by
    intro p
    simpa only [pow_two] using h.int_ip_mul hs fs ac p p
  have hi3 : Integrable (fun ω => ip fs (weight psd ac) p (noise ω) ^ 2 +
      2 * (ip fs (weight psd ac) p (noise ω) * ip fs (weight psd ac) q (noise ω))) μ :=
    (hi2 p).add ((h.int_ip_mul hs fs ac p q).const_mul 2)
  rw [integral_add hi3 (hi2 q),
    integral_add (hi2 p) ((h.int_ip_mul hs fs ac p q).const_mul 2), integral_const_mul,
    h.ip_sq hR hpsd hs hfs ac, h.ip_sq hR hpsd hs hfs ac] at h1
  linarith

theorem ip_sum_right {ι : Type*} [Fintype ι] (fs : ℝ) (wt x : ZMod n → ℝ) (A : ι → ℝ) (S : ι → ZMod n → ℝ) :
    ip fs wt x (fun j => ∑ i, A i * S i j) = ∑ i, A i * ip fs wt x (S i) := by
  classical
  have h0 : ip fs wt x (fun _ => 0) = 0 := by
    have := ip_smul_right fs wt x x 0
    simpa using this
  have : ∀ s : Finset ι, ip fs wt x (fun j => ∑ i ∈ s, A i * S i j) = ∑ i ∈ s, A i * ip fs wt x (S i) := by
    intro s
    induction s using Finset.induction_on with
    | empty => simpa using h0
    | insert i s hi ih =>
      simp only [Finset.sum_insert hi]
      rw [ip_add_right fs wt x (fun j => A i * S i j), ip_smul_right, ih]
  exact this _

section lin
variable {ι : Type*} [Fintype ι] (S : ι → ZMod n → ℝ)

/-- Integral of the product of two linear combinations of inner products. -/
theorem Stationary.comb (h : Stationary μ noise R) (hR : HasPsd R fs psd) (hpsd : ∀ k, 0 < psd k)
    (hs : ∀ k, psd (-k) = psd k) (hfs : 0 < fs) (ac : Bool) (a b : ι → ℝ) :
    Integrable (fun ω => (∑ i, a i * ip fs (weight psd ac) (S i) (noise ω)) *
      ∑ i, b i * ip fs (weight psd ac) (S i) (noise ω)) μ ∧
    ∫ ω, (∑ i, a i * ip fs (weight psd ac) (S i) (noise ω)) *
      (∑ i, b i * ip fs (weight psd ac) (S i) (noise ω)) ∂μ =
      ∑ i, ∑ j, a i * b j * ip fs (weight psd ac) (S i) (S j) := by
  have e : ∀ ω, (∑ i, a i * ip fs (weight psd ac) (S i) (noise ω)) *
      (∑ i, b i * ip fs (weight psd ac) (S i) (noise ω)) =
      ∑ i, ∑ j, a i * b j * (ip fs (weight psd ac) (S i) (noise ω) * ip fs (weight psd ac) (S j) (noise ω)) := by
    intro ω
    rw [Finset.sum_mul_sum]
    exact Finset.sum_congr rfl fun i _ => Finset.sum_congr rfl fun j _ => by ring
  have hi : ∀ i j, Integrable (fun ω => a i * b j * (ip fs (weight psd ac) (S i) (noise ω) *
      ip fs (weight psd ac) (S j) (noise ω))) μ := fun i j => (h.int_ip_mul hs fs ac _ _).const_mul _
  simp only [e]
  refine ⟨integrable_finsetSum _ fun i _ => integrable_finsetSum _ fun j _ => hi i j, ?_⟩
  rw [integral_finsetSum _ fun i _ => integrable_finsetSum _ fun j _ => hi i j]
  refine Finset.sum_congr rfl fun i _ => ?_
  rw [integral_finsetSum _ fun j _ => hi i j]
  refine Finset.sum_congr rfl fun j _ => ?_
  rw [integral_const_mul, h.ip_mul hR hpsd hs hfs ac]

end lin

/-! ### Two pulses -/

theorem overlap_eq (fs : ℝ) (wt x y : ZMod n → ℝ) : overlap fs wt x y = ip fs wt x y := by
  have := traceChi2_expand1 fs wt x y (-1)
  simp only [neg_mul, one_mul, sub_neg_eq_add] at this
  rw [overlap, this, ip_comm fs wt y x]
  ring

/-- With a window of one bin the search returns that bin. -/
theorem argmin_one (f : ℤ → ℝ) {k : ℤ} (hk : -((n : ℤ) / 2) ≤ k ∧ k ≤ (n : ℤ) / 2 - ((n : ℤ) + 1) % 2) :
    argminChi2 n f (some 1) false none k = .ok (some (k + (n : ℤ) / 2)) := by
  have hn : (1 : ℤ) ≤ n := by exact_mod_cast NeZero.pos n
  have hok : ∃ r, argminChi2 n f (some 1) false none k = .ok r := by
    unfold argminChi2
    rw [if_neg (not_not.2 hk)]
    simp only
    rw [if_neg (by omega)]
    exact ⟨_, rfl⟩
  obtain ⟨r, hr⟩ := hok
  obtain ⟨l, h1, h2, h3⟩ := argminChi2_search n f _ _ _ _ _ hr
  have hadm : ∀ i, Admissible n (some 1) false none k i ↔ i = k + (n : ℤ) / 2 := by
    intro i
    unfold Admissible InWindow
    simp only [Option.some.injEq, forall_eq', reduceCtorEq, false_imp_iff, implies_true, and_true,
      Bool.false_eq_true, if_false, min_eq_left hn]
    omega
  rw [hr]
  cases hl : argminOn f l with
  | none =>
    rw [argminOn_none] at hl
    have := (h3 (k + (n : ℤ) / 2)).2 ((hadm _).2 rfl)
    rw [hl] at this
    simp at this
  | some i =>
    rw [h1, hl]
    have := (argminOn_spec f l h2 i hl).1
    rw [(hadm i).1 ((h3 i).1 this)]

/-- A pulse and a delayed pulse are not proportional. -/
theorem two_denom {wt T : ZMod n → ℝ} (hT : Distinguishable fs wt T 2) {m : ZMod n} (hm : m ≠ 0) :
    traceChi2 fs wt T ^ 2 - ip fs wt T (roll T m) ^ 2 ≠ 0 := by
  have hroll0 : roll T 0 = T := by funext j; simp [roll]
  intro h0
  have hfac : (traceChi2 fs wt T - ip fs wt T (roll T m)) * (traceChi2 fs wt T + ip fs wt T (roll T m)) = 0 := by
    linear_combination h0
  have key : ∀ s : ℝ, s ^ 2 = 1 → traceChi2 fs wt T = s * ip fs wt T (roll T m) → False := by
    intro s hs he
    have e : pulses T (Pi.single 0 1 - Pi.single m s) 0 = fun j => T j - s * roll T m j := by
      have e1 := pulses_sub T (Pi.single 0 1) (Pi.single m s) 0 0
      simp only [pulses_single, sub_self, add_zero] at e1
      rw [e1, hroll0]
      funext j; ring
    have h1 := hT (Pi.single 0 1 - Pi.single m s) (ncard_le {0, m} (fun x hx => by
      by_contra hn
      simp only [Finset.mem_insert, Finset.mem_singleton, not_or] at hn
      exact hx (by simp [Pi.single_eq_of_ne hn.1, Pi.single_eq_of_ne hn.2])) Finset.card_le_two) (by
      rw [e, traceChi2_expand1, traceChi2_roll, ip_comm fs wt _ T, hs]
      linarith)
    have h2 := congrFun h1 0
    simp [Pi.single_eq_of_ne (Ne.symm hm)] at h2
  rcases mul_eq_zero.1 hfac with h | h
  · exact key 1 (by norm_num) (by linarith)
  · exact key (-1) (by norm_num) (by linarith)

/-- The stationary pile-up fit with the second delay given, on two pulses with noise. -/
theorem stationary_pair (hfs : 0 < fs) (hpsd : ∀ k, 0 < psd k) (ac : Bool) (T : ZMod n → ℝ)
    (hT : Distinguishable fs (weight psd ac) T 2) {k : ℤ}
    (hk : -((n : ℤ) / 2) ≤ k ∧ k ≤ (n : ℤ) / 2 - ((n : ℤ) + 1) % 2) (hk0 : k ≠ 0) (A1 A2 : ℝ) (x : ZMod n → ℝ) :
    let N := traceChi2 fs (weight psd ac) T
    let C := ip fs (weight psd ac) T (roll T (k : ZMod n))
    let e1 := ip fs (weight psd ac) T x
    let e2 := ip fs (weight psd ac) (roll T (k : ZMod n)) x
    0 < N ∧ 0 < N ^ 2 - C ^ 2 ∧
    (pileupStationary (init (twoPulses T A1 A2 k x) T psd fs ac false) (some 1) false k).1 =
      .ok (A1 + (N * e1 - C * e2) / (N ^ 2 - C ^ 2), A2 + (N * e2 - C * e1) / (N ^ 2 - C ^ 2), k / fs,
        traceChi2 fs (weight psd ac) x -
          (N * (e1 * e1) - 2 * C * (e1 * e2) + N * (e2 * e2)) / (N ^ 2 - C ^ 2)) := by
  intro N C e1 e2
  have hroll0 : roll T 0 = T := by funext j; simp [roll]
  have hnn : ∀ r, 0 ≤ traceChi2 fs (weight psd ac) r := fun r => ip_nonneg _ _ _ hfs.le (weight_nonneg psd ac hpsd)
  have hkz : (k : ZMod n) ≠ 0 := by
    intro e
    refine hk0 (same_delay (n := n) (by rw [e]; simp) ⟨by omega, by omega⟩ ⟨by omega, ?_⟩)
    have : (0 : ℤ) < n := by exact_mod_cast NeZero.pos n
    omega
  have hD : N ^ 2 - C ^ 2 ≠ 0 := two_denom hT hkz
  have hDp : 0 < N ^ 2 - C ^ 2 := by
    refine lt_of_le_of_ne ?_ hD.symm
    have h1 := hnn (fun j => T j - 1 * roll T (k : ZMod n) j)
    have h2 := hnn (fun j => T j - (-1) * roll T (k : ZMod n) j)
    rw [traceChi2_expand1, traceChi2_roll, ip_comm fs _ _ T] at h1 h2
    change 0 ≤ N - 2 * 1 * C + 1 ^ 2 * N at h1
    change 0 ≤ N - 2 * (-1) * C + (-1) ^ 2 * N at h2
    nlinarith
  have hN : 0 < N := by
    refine lt_of_le_of_ne (hnn T) fun h => ?_
    rw [← h] at hDp
    nlinarith [sq_nonneg C]
  refine ⟨hN, hDp, ?_⟩
  set y := twoPulses T A1 A2 k x with hy
  have hne : ¬ ∃ m : ZMod n, m ≠ 0 ∧ (init y T psd fs ac false).norm ^ 2 - tfTd (init y T psd fs ac false) m ^ 2 = 0 := by
    rintro ⟨m, hm, h⟩
    rw [init_norm, init_tfTd, ip_comm] at h
    exact two_denom hT hm h
  obtain ⟨n1, n2⟩ := stat_normal y T psd fs ac hN.ne' (k : ZMod n) hkz (by
    intro h; exact hne ⟨_, hkz, h⟩)
  have hip : ∀ u, ip fs (weight psd ac) u y = A1 * ip fs (weight psd ac) u T +
      A2 * ip fs (weight psd ac) u (roll T (k : ZMod n)) + ip fs (weight psd ac) u x := by
    intro u
    rw [hy]
    unfold twoPulses
    rw [ip_add_right fs _ u (fun j => A1 * T j + A2 * roll T (k : ZMod n) j), ip_add_right, ip_smul_right,
      ip_smul_right]
  rw [traceChi2_roll, hip, ip_self, ip_comm fs _ (roll T (k : ZMod n)) T, traceChi2_roll] at n2
  rw [hip, ip_self] at n1
  set s1 := statA1 (init y T psd fs ac false) (k : ZMod n) with hs1
  set s2 := statA2 (init y T psd fs ac false) (k : ZMod n) with hs2
  change s1 * N + s2 * C = A1 * N + A2 * C + e1 at n1
  change s1 * C + s2 * N = A1 * C + A2 * N + e2 at n2
  have r1 : s1 = A1 + (N * e1 - C * e2) / (N ^ 2 - C ^ 2) := by
    field_simp
    linear_combination N * n1 - C * n2
  have r2 : s2 = A2 + (N * e2 - C * e1) / (N ^ 2 - C ^ 2) := by
    field_simp
    linear_combination N * n2 - C * n1
  have r3 : statChi (init y T psd fs ac false) (k : ZMod n) = traceChi2 fs (weight psd ac) x -
      (N * (e1 * e1) - 2 * C * (e1 * e2) + N * (e2 * e2)) / (N ^ 2 - C ^ 2) := by
    rw [stat_chi y T psd fs ac hN.ne', ← hs1, ← hs2]
    have e : resid2 y T s1 0 s2 (k : ZMod n) =
        fun j => x j - (s1 - A1) * T j - (s2 - A2) * roll T (k : ZMod n) j := by
      funext j
      simp only [resid2, hy, twoPulses, hroll0]
      ring
    rw [e, traceChi2_expand, traceChi2_roll]
    change traceChi2 fs (weight psd ac) x - 2 * (s1 - A1) * e1 - 2 * (s2 - A2) * e2 + (s1 - A1) ^ 2 * N +
      2 * (s1 - A1) * (s2 - A2) * C + (s2 - A2) ^ 2 * N = _
    rw [r1, r2]
    field_simp
    ring
  have r4 : readTimes (init y T psd fs ac false) ((k + (n : ℤ) / 2 : ℤ) : ZMod n) = k / fs := by
    have h0 : 0 ≤ k + (n : ℤ) / 2 := by omega
    have h1 : k + (n : ℤ) / 2 < n := by omega
    obtain ⟨i, hi⟩ := Int.eq_ofNat_of_zero_le h0
    have : (((k + (n : ℤ) / 2 : ℤ) : ZMod n)).val = i := by
      rw [hi, Int.cast_natCast, ZMod.val_natCast, Nat.mod_eq_of_lt (by exact_mod_cast hi ▸ h1)]
    show ((((k + (n : ℤ) / 2 : ℤ) : ZMod n).val : ℝ) - ((n / 2 : ℕ) : ℝ)) / fs = _
    rw [this]
    have h2 : (i : ℝ) = ((k + ((n / 2 : ℕ) : ℤ) : ℤ) : ℝ) := by
      rw [← Int.cast_natCast, ← hi]; simp
    rw [h2, Int.cast_add, Int.cast_natCast]
    ring
  have hidx : ((k + (n : ℤ) / 2 : ℤ) : ZMod n) - ((n / 2 : ℕ) : ZMod n) = (k : ZMod n) := by
    rw [show (n : ℤ) / 2 = ((n / 2 : ℕ) : ℤ) by simp, Int.cast_add, Int.cast_natCast]
    ring
  unfold pileupStationary
  simp only
  rw [argmin_one _ hk]
  simp only
  rw [if_neg (by rintro ⟨j, -, hj⟩; exact hne ⟨_, hj⟩)]
  simp only [roll, r4, hidx, r3, ← hs1, ← hs2]
  rw [← r1, ← r2]

end Verif.OF

namespace Verif
open Matrix

variable {ι : Type*} [Fintype ι]

theorem pinv_symm {G : Matrix ι ι ℝ} (hG : Gᵀ = G) : (pinv G)ᵀ = pinv G := by
  have h := isPinv_pinv hG
  refine IsPinv.unique ⟨?_, ?_, ?_, ?_⟩ h
  · have := congrArg transpose h.axa
    simpa only [transpose_mul, hG, ← mul_assoc] using this
  · have := congrArg transpose h.xax
    simpa only [transpose_mul, hG, ← mul_assoc] using this
  · have := h.xa
    rw [transpose_mul, hG] at this
    rw [transpose_mul, transpose_transpose, hG, this]
  · have := h.ax
    rw [transpose_mul, hG] at this
    rw [transpose_mul, transpose_transpose, hG, this]

/-- The trace of `pinv G * G` counts the independent columns. -/
theorem trace_pinv_mul [DecidableEq ι] {G : Matrix ι ι ℝ} (hG : Gᵀ = G) : (pinv G * G).trace = G.rank := by
  have h := isPinv_pinv hG
  set Q := pinv G * G with hQ
  have hidem : Q * Q = Q := by
    rw [hQ, ← mul_assoc, mul_assoc (pinv G) G (pinv G), ← mul_assoc, h.xax]
  have hproj : LinearMap.IsProj (LinearMap.range Q.mulVecLin) Q.mulVecLin := by
    refine ⟨fun x => ⟨x, rfl⟩, ?_⟩
    rintro _ ⟨x, rfl⟩
    simp only [mulVecLin_apply, mulVec_mulVec, hidem]
  have h1 := hproj.trace
  rw [show Q.mulVecLin = toLin' Q from rfl, Matrix.trace_toLin'_eq] at h1
  rw [h1]
  have h2 : Q.rank = G.rank := by
    refine le_antisymm (rank_mul_le_right _ _) ?_
    calc G.rank = (G * Q).rank := by rw [hQ, ← mul_assoc, h.axa]
      _ ≤ Q.rank := rank_mul_le_right _ _
  rw [← h2]
  rfl

end Verif

namespace Verif.Nsmb
open Verif.Dft Verif.Nsmb.Spec Matrix MeasureTheory

variable {n : ℕ} [NeZero n] {nb : ℕ}

/-- The inner product of the multi-template fit is the one of `OptimumFilter`. -/
theorem ipR_eq (psd : ZMod n → ℝ) {fs : ℝ} (hfs : 0 < fs) (x y : ZMod n → ℝ) :
    ipR (noise psd fs) x y = OF.ip fs (OF.weight (dcPsd psd) false) x y := by
  have hn : (n : ℝ) ≠ 0 := by exact_mod_cast NeZero.ne n
  unfold ipR ip OF.ip
  refine Finset.sum_congr rfl fun k _ => ?_
  have hw : OF.weight (dcPsd psd) false k = 1 / (if k = 0 then psd 1 else psd k) := by
    simp [OF.weight, dcPsd, recip]
  rw [hw, Spec.noise]
  generalize (if k = 0 then psd 1 else psd k) = P
  have e1 : starRingEnd ℂ (fftR x k / n) * (fftR y k / n) =
      (starRingEnd ℂ (fftR x k) * fftR y k) * ((1 / n ^ 2 : ℝ) : ℂ) := by
    rw [map_div₀, Complex.conj_natCast]; push_cast; ring
  have e2 : starRingEnd ℂ (fftR x k / (fs : ℂ)) * (fftR y k / (fs : ℂ)) =
      (starRingEnd ℂ (fftR x k) * fftR y k) * ((1 / fs ^ 2 : ℝ) : ℂ) := by
    rw [map_div₀, Complex.conj_ofReal]; push_cast; ring
  rw [e1, e2, Complex.re_mul_ofReal, Complex.re_mul_ofReal]
  rcases eq_or_ne P 0 with rfl | hP
  · simp
  field_simp

/-- The rank of the matrix of the fit is the number of independent templates. -/
theorem gram_rank {ι : Type*} [Fintype ι] {J : ZMod n → ℝ} (hJ : ∀ f, 0 < J f) (S : ι → ZMod n → ℝ) :
    (of fun i j => ipR J (S i) (S j) : Matrix ι ι ℝ).rank = Set.finrank ℝ (Set.range S) := by
  classical
  set G : Matrix ι ι ℝ := of fun i j => ipR J (S i) (S j) with hG
  set L := Fintype.linearCombination ℝ S with hL
  have hLx : ∀ x, L x = fun τ => ∑ i, x i * S i τ := by
    intro x; funext τ
    simp [hL, Fintype.linearCombination_apply]
  have hzero : ∀ y, ipR J y (fun _ => 0) = 0 := by
    intro y
    refine Finset.sum_eq_zero fun f _ => ?_
    simp [fftR_const]
  have hker : LinearMap.ker G.mulVecLin = LinearMap.ker L := by
    ext x
    rw [LinearMap.mem_ker, LinearMap.mem_ker, mulVecLin_apply, hLx]
    constructor
    · intro hx
      have h1 : power J (resTrace (fun _ => 0) S x) = 0 := by
        rw [power_resTrace, ← hG, hx]
        simp only [hzero]
        simp [dotProduct]
      funext τ
      have := power_eq_zero hJ h1 τ
      simpa [resTrace] using this
    · intro hx
      funext i
      have h1 := ipR_resTrace J (S i) (fun _ => 0) S x
      have h2 : resTrace (fun _ => 0) S x = fun _ => 0 := by
        funext τ
        have := congrFun hx τ
        simpa [resTrace] using this
      rw [h2, hzero] at h1
      rw [mulVec, dotProduct, Pi.zero_apply]
      have h3 : ∑ j, x j * ipR J (S i) (S j) = 0 := by linarith
      rw [← h3]
      exact Finset.sum_congr rfl fun j _ => mul_comm _ _
  have h1 := LinearMap.finrank_range_add_finrank_ker G.mulVecLin
  have h2 := LinearMap.finrank_range_add_finrank_ker L
  rw [hker] at h1
  rw [Matrix.rank, Set.finrank, ← Fintype.range_linearCombination, ← hL]
  omega


/-! ### The fit at one delay -/

/-- With one delay in the window the fit is the linear fit at that delay. -/
theorem ofNsmb_one (hnb : nb ≠ 0) (p : ZMod n → ℝ) (F : Filt n nb) (iP) (fs : ℝ) {k : ℤ} (hk : -(n : ℤ) ≤ k)
    (lf : ℕ) : ∃ r, ofNsmb p F iP fs [k] lf = .ok r ∧ r.amps = aT F.phi iP p (k : ZMod n) ∧
      r.chi2min = chi2T F.psddnu F.phi iP p (k : ZMod n) := by
  obtain ⟨h1, h2⟩ := wrapIdx_range (n := n) hk
  have hpick : pickIdx (chi2T F.psddnu F.phi iP p) ([k].map (wrapIdx n)) = .ok (wrapIdx n k) := by
    unfold pickIdx
    rw [if_neg]
    · rfl
    · rintro ⟨i, hi, hni⟩
      simp only [List.map_cons, List.map_nil, List.mem_singleton] at hi
      subst hi
      exact hni ⟨by omega, h2⟩
  unfold ofNsmb
  simp only
  rw [if_neg hnb, hpick]
  refine ⟨_, rfl, ?_, ?_⟩
  · simp only [wrapIdx_cast]
  · simp only [wrapIdx_cast]

/-- Amplitudes of an event with noise: those of the noise-free event plus those of the noise. -/
theorem fit_event {T : Fin (nb + 1) → ZMod n → ℝ} {psd : ZMod n → ℝ} {fs : ℝ} {F : Filt n nb}
    (h : setup T psd fs = .ok F) (hpsd : ∀ f, f ≠ 0 → 0 < psd f) (hfs : 0 < fs) (k : ZMod n)
    (A : Fin (nb + 1) → ℝ) (x : ZMod n → ℝ) :
    let S := delayed T k
    let G : Matrix (Fin (nb + 1)) (Fin (nb + 1)) ℝ := of fun i j => ipR (noise psd fs) (S i) (S j)
    let ε := fun i => ipR (noise psd fs) (S i) x
    getiP F.P k = pinv G ∧
    aT F.phi (getiP F.P) (event T k A x) k = pinv G *ᵥ (G *ᵥ A) + pinv G *ᵥ ε ∧
    chi2T F.psddnu F.phi (getiP F.P) (event T k A x) k = ipR (noise psd fs) x x - (pinv G *ᵥ ε) ⬝ᵥ ε := by
  intro S G ε
  obtain ⟨h1, -, hJ, hphi, -, hP, -⟩ := setup_ok h
  have hpos := noise_pos h1 hpsd hfs
  have hi : getiP F.P k = pinv G := by rw [getiP, hP, slice_P_eq]
  have hq : qt F.phi (event T k A x) k = G *ᵥ A + ε := by
    funext i
    rw [hphi, qt_eq]
    have e : event T k A x = resTrace x S (-A) := by
      funext j
      simp [event, resTrace, S]
      ring
    rw [e, ipR_resTrace, Pi.add_apply, mulVec, dotProduct]
    simp only [Pi.neg_apply, neg_mul, Finset.sum_neg_distrib, sub_neg_eq_add, ε, S, G, of_apply]
    rw [add_comm]
    congr 1
    exact Finset.sum_congr rfl fun j _ => mul_comm _ _
  have ha : aT F.phi (getiP F.P) (event T k A x) k = pinv G *ᵥ (G *ᵥ A + ε) := by
    rw [aT, hi, hq]
  refine ⟨hi, by rw [ha, mulVec_add], ?_⟩
  have hres : ∀ a, resTrace (event T k A x) S a = resTrace x S (a - A) := by
    intro a; funext j
    simp only [event, resTrace, S, Pi.sub_apply, sub_mul, Finset.sum_sub_distrib]
    ring
  obtain ⟨k1, k2⟩ := delay_fit h hpsd hfs (event T k A x) k
  rw [k1]
  obtain ⟨-, g2, g3⟩ := gram_lsq hpos x S
  rw [show ipR (noise psd fs) x x - (pinv G *ᵥ ε) ⬝ᵥ ε = _ from g2]
  refine le_antisymm ?_ ?_
  · refine (k2 (pinv G *ᵥ ε + A)).trans_eq ?_
    unfold chi2
    rw [hres, add_sub_cancel_right]
  · unfold chi2
    rw [hres]
    exact g3 _

end Verif.Nsmb
