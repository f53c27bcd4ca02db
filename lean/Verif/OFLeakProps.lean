import Verif.OFLeakLemmas
import Verif.NsmbStatProps
import Verif.OFRateLemmas

/-!
Property C159: what the first pulse given to the iterative pile-up fit does to the second.
-/

namespace Verif.OF
open Verif Verif.Dft MeasureTheory

variable {n : ℕ} [NeZero n]
variable {Ω : Type*} [MeasurableSpace Ω] {μ : Measure Ω} {noise : Ω → ZMod n → ℝ} {R : ZMod n → ℝ}
  {psd : ZMod n → WithTop ℝ} {fs : ℝ} {ac : Bool} {T : ZMod n → ℝ}

/-- At a given delay: what is wrong with the first pulse leaks into the second amplitude, in proportion to the likeness
of the pulses; the spread is that of a single pulse; the chi-square grows by what the second pulse cannot take up. -/
theorem pileup_leak [IsProbabilityMeasure μ] (h : Stationary μ noise R) (hR : HasPsd R fs psd)
    (hpsd : ∀ k, 0 < psd k) (hs : ∀ k, psd (-k) = psd k) (hfs : 0 < fs) (hN : 0 < traceChi2 fs (weight psd ac) T)
    (A1 : ℝ) (k1 : ℤ) (a1 : ℝ) {m1 : ℤ} (hm : -(n : ℤ) ≤ m1 ∧ m1 < n) (A2 : ℝ) {k : ℤ}
    (hk : -((n : ℤ) / 2) ≤ k ∧ k ≤ (n : ℤ) / 2 - ((n : ℤ) + 1) % 2) :
    let N := traceChi2 fs (weight psd ac) T
    let leak := A1 * likeness fs (weight psd ac) T k1 k - a1 * likeness fs (weight psd ac) T m1 k
    ∃ a2 chi : Ω → ℝ,
      (∀ ω, (pileupIterative (init (pair T A1 k1 A2 k (noise ω)) T psd fs ac false) a1 (m1 / fs) (some 1) false 0 k
        false).1 = .ok (a2 ω, k / fs, chi ω)) ∧
      ∫ ω, a2 ω ∂μ = A2 + leak ∧
      ∫ ω, (a2 ω - (A2 + leak)) ^ 2 ∂μ = energyResolution (init T T psd fs ac false) ^ 2 ∧
      ∫ ω, chi ω ∂μ = nUsed psd ac - 1 + (traceChi2 fs (weight psd ac) (leftover T A1 k1 a1 m1) - leak ^ 2 * N) := by
  intro N leak
  have l1 : likeness fs (weight psd ac) T k1 k * N = ip fs (weight psd ac) (roll T (k1 : ZMod n)) (roll T (k : ZMod n)) := by
    rw [likeness_eq]
    exact div_mul_cancel₀ _ hN.ne'
  have l2 : likeness fs (weight psd ac) T m1 k * N = ip fs (weight psd ac) (roll T (m1 : ZMod n)) (roll T (k : ZMod n)) := by
    rw [likeness_eq]
    exact div_mul_cancel₀ _ hN.ne'
  have hleak : leak * N = A1 * ip fs (weight psd ac) (roll T (k1 : ZMod n)) (roll T (k : ZMod n)) -
      a1 * ip fs (weight psd ac) (roll T (m1 : ZMod n)) (roll T (k : ZMod n)) := by
    rw [← l1, ← l2]
    simp only [leak]
    ring
  clear_value leak
  set wt := weight psd ac with hwt
  set e := fun ω => ip fs wt (roll T (k : ZMod n)) (noise ω) with he
  set f := fun ω => ip fs wt (leftover T A1 k1 a1 m1) (noise ω) with hf
  have hNN : (0 : ℝ) < N := hN
  have i1 : Integrable e μ := h.int_ip hs fs ac _
  have i2 : Integrable f μ := h.int_ip hs fs ac _
  have m1' : ∫ ω, e ω ∂μ = 0 := h.ip_mean hs fs ac _
  have m2' : ∫ ω, f ω ∂μ = 0 := h.ip_mean hs fs ac _
  have i11 : Integrable (fun ω => e ω * e ω) μ := h.int_ip_mul hs fs ac _ _
  have v11 : ∫ ω, e ω * e ω ∂μ = N := by
    refine (h.ip_mul hR hpsd hs hfs ac _ _).trans ?_
    rw [ip_self, traceChi2_roll]
  have hb : ∀ ω, (ip fs wt (roll T (k : ZMod n)) (pair T A1 k1 A2 k (noise ω)) -
      a1 * ip fs wt (roll T (m1 : ZMod n)) (roll T (k : ZMod n))) / N = A2 + leak + e ω / N := by
    intro ω
    rw [ip_pair, ip_self, traceChi2_roll, ip_comm fs wt (roll T (k : ZMod n)) (roll T (k1 : ZMod n)),
      div_eq_iff hNN.ne', add_mul, div_mul_cancel₀ _ hNN.ne', add_mul, hleak]
    change _ + A2 * N + e ω - _ = _
    ring
  have hleft : ip fs wt (roll T (k : ZMod n)) (leftover T A1 k1 a1 m1) = leak * N := by
    have e1 : leftover T A1 k1 a1 m1 = fun j => A1 * roll T (k1 : ZMod n) j + (-a1) * roll T (m1 : ZMod n) j := by
      funext j; simp only [leftover]; ring
    rw [e1, ip_add_right, ip_smul_right, ip_smul_right, hleak, ip_comm fs wt (roll T (k : ZMod n)) (roll T (k1 : ZMod n)),
      ip_comm fs wt (roll T (k : ZMod n)) (roll T (m1 : ZMod n))]
    ring
  have hres : ∀ ω, traceChi2 fs wt (resid (pair T A1 k1 A2 k (noise ω)) T a1 (m1 : ZMod n)) -
      (A2 + leak + e ω / N) ^ 2 * N = traceChi2 fs wt (noise ω) + (2 * f ω + (-(2 * leak)) * e ω + (-(1 / N)) * (e ω * e ω)) +
        (traceChi2 fs wt (leftover T A1 k1 a1 m1) - leak ^ 2 * N) := by
    intro ω
    have e1 : resid (pair T A1 k1 A2 k (noise ω)) T a1 (m1 : ZMod n) =
        fun j => noise ω j - (-1) * leftover T A1 k1 a1 m1 j - (-A2) * roll T (k : ZMod n) j := by
      funext j; simp only [resid, pair, leftover]; ring
    rw [e1, traceChi2_expand, traceChi2_roll, ip_comm fs wt (leftover T A1 k1 a1 m1) (roll T (k : ZMod n)), hleft]
    change traceChi2 fs wt (noise ω) - 2 * (-1) * f ω - 2 * (-A2) * e ω + (-1) ^ 2 * traceChi2 fs wt (leftover T A1 k1 a1 m1) +
      2 * (-1) * (-A2) * (leak * N) + (-A2) ^ 2 * N - _ = _
    field_simp
    ring
  refine ⟨fun ω => A2 + leak + e ω / N, fun ω => traceChi2 fs wt (noise ω) +
    (2 * f ω + (-(2 * leak)) * e ω + (-(1 / N)) * (e ω * e ω)) +
    (traceChi2 fs wt (leftover T A1 k1 a1 m1) - leak ^ 2 * N), fun ω => ?_, ?_, ?_, ?_⟩
  · have := pile_one (psd := psd) (ac := ac) hfs hN.ne' (pair T A1 k1 A2 k (noise ω)) a1 hm hk
    simp only [← hwt] at this
    rw [this, hb, hres]
  · rw [integral_add (integrable_const _) (i1.div_const N), integral_div, m1']
    simp
  · simp only [add_sub_cancel_left, div_pow]
    rw [integral_div, (resolution_sq hN).2]
    simp only [pow_two]
    rw [v11]
    change N / (N * N) = 1 / N
    field_simp
  · have j1 : Integrable (fun ω => 2 * f ω + (-(2 * leak)) * e ω) μ := (i2.const_mul 2).add (i1.const_mul _)
    have j2 : Integrable (fun ω => 2 * f ω + (-(2 * leak)) * e ω + (-(1 / N)) * (e ω * e ω)) μ := j1.add (i11.const_mul _)
    have j3 : Integrable (fun ω => traceChi2 fs wt (noise ω)) μ := h.int_chi _ _
    have hc := chi2_nopulse_mean h hR hpsd hfs ac false T
    simp only [chi2Nopulse, init_chi0] at hc
    have j4 : Integrable (fun ω => traceChi2 fs wt (noise ω) +
      (2 * f ω + (-(2 * leak)) * e ω + (-(1 / N)) * (e ω * e ω))) μ := j3.add j2
    rw [integral_add j4 (integrable_const _), integral_add j3 j2, integral_add j1 (i11.const_mul _),
      integral_add (i2.const_mul 2) (i1.const_mul _), integral_const_mul, integral_const_mul, integral_const_mul,
      m1', m2', v11, hc]
    have : -(1 / N) * N = -1 := by field_simp
    rw [this]
    simp
    ring

/-- With the first pulse known exactly the second is right on average. -/
theorem pileup_known [IsProbabilityMeasure μ] (h : Stationary μ noise R) (hR : HasPsd R fs psd)
    (hpsd : ∀ k, 0 < psd k) (hs : ∀ k, psd (-k) = psd k) (hfs : 0 < fs) (hN : 0 < traceChi2 fs (weight psd ac) T)
    (A1 : ℝ) {k1 : ℤ} (hm : -(n : ℤ) ≤ k1 ∧ k1 < n) (A2 : ℝ) {k : ℤ}
    (hk : -((n : ℤ) / 2) ≤ k ∧ k ≤ (n : ℤ) / 2 - ((n : ℤ) + 1) % 2) :
    ∃ a2 chi : Ω → ℝ,
      (∀ ω, (pileupIterative (init (pair T A1 k1 A2 k (noise ω)) T psd fs ac false) A1 (k1 / fs) (some 1) false 0 k
        false).1 = .ok (a2 ω, k / fs, chi ω)) ∧
      ∫ ω, a2 ω ∂μ = A2 ∧ ∫ ω, (a2 ω - A2) ^ 2 ∂μ = energyResolution (init T T psd fs ac false) ^ 2 ∧
      ∫ ω, chi ω ∂μ = nUsed psd ac - 1 := by
  obtain ⟨a2, chi, h1, h2, h3, h4⟩ := pileup_leak h hR hpsd hs hfs hN A1 k1 A1 hm A2 hk
  have e : leftover T A1 k1 A1 k1 = fun _ => 0 := by funext j; simp [leftover]
  rw [e] at h4
  have z : traceChi2 fs (weight psd ac) (fun _ : ZMod n => (0 : ℝ)) = 0 := by
    have := ip_smul_right fs (weight psd ac) (fun _ : ZMod n => (0 : ℝ)) (fun _ => 0) 0
    simp only [zero_mul] at this
    rw [← ip_self, this]
  rw [z] at h4
  simp only [sub_self, add_zero] at h2 h3 h4
  exact ⟨a2, chi, h1, h2, h3, by simpa using h4⟩

/-- Trace by trace: fitting the first pulse alone and then the second on top of it, compared with fitting both at once.
With `r` the likeness of the pulses the first gets `r` times the second on top, and the second comes out `1 - r²` times
as high. -/
theorem two_steps (hpsd : ∀ k, 0 < psd k) (hfs : 0 < fs) (hT : Distinguishable fs (weight psd ac) T 2) {k : ℤ}
    (hk : -((n : ℤ) / 2) ≤ k ∧ k ≤ (n : ℤ) / 2 - ((n : ℤ) + 1) % 2) (hk0 : k ≠ 0) (x : ZMod n → ℝ) :
    let r := likeness fs (weight psd ac) T 0 k
    let a1 := (nodelay (init x T psd fs ac false) 0).1.1
    r ^ 2 < 1 ∧ ∃ s1 s2 c c' : ℝ,
      (pileupStationary (init x T psd fs ac false) (some 1) false k).1 = .ok (s1, s2, k / fs, c) ∧
      a1 = s1 + r * s2 ∧
      (pileupIterative (init x T psd fs ac false) a1 ((0 : ℤ) / fs) (some 1) false 0 k false).1 =
        .ok ((1 - r ^ 2) * s2, k / fs, c') := by
  intro r a1
  have hroll0 : roll T 0 = T := by funext j; simp [roll]
  obtain ⟨hN, hD, hst⟩ := stationary_pair hfs hpsd ac T hT hk hk0 0 0 x
  have ex : twoPulses T 0 0 k x = x := by funext j; simp [twoPulses]
  rw [ex] at hst
  set N := traceChi2 fs (weight psd ac) T with hNdef
  set C := ip fs (weight psd ac) T (roll T (k : ZMod n)) with hC
  set e1 := ip fs (weight psd ac) T x with he1
  set e2 := ip fs (weight psd ac) (roll T (k : ZMod n)) x with he2
  have hr : r = C / N := by
    simp only [r]
    rw [likeness_eq, Int.cast_zero, hroll0]
  have ha1 : a1 = e1 / N := by
    simp only [a1]
    rw [init_nodelay_amp _ _ _ _ _ hfs.ne', init_sfTd, init_norm, Int.cast_zero, hroll0]
  have hn : (0 : ℤ) < n := by exact_mod_cast NeZero.pos n
  have hpi := pile_one (psd := psd) (ac := ac) (T := T) hfs hN.ne' x a1 (m1 := 0) (by omega) hk
  have hD' := hD.ne'
  have hN' := hN.ne'
  refine ⟨?_, _, _, _, traceChi2 fs (weight psd ac) (resid x T a1 ((0 : ℤ) : ZMod n)) - ((e2 - a1 * C) / N) ^ 2 * N, hst,
    ?_, ?_⟩
  · rw [hr, div_pow, div_lt_one (by positivity)]
    linarith
  · rw [ha1, hr]
    field_simp
    ring
  · refine hpi.trans ?_
    rw [Int.cast_zero, hroll0, ← hC, ← he2, ← hNdef]
    have : (1 - r ^ 2) * (0 + (N * e2 - C * e1) / (N ^ 2 - C ^ 2)) = (e2 - a1 * C) / N := by
      rw [hr, ha1]
      field_simp
      ring
    rw [this]

/-- On average: the first amplitude is off by `r` times the second, the second is `1 - r²` times the true one. -/
theorem two_steps_mean [IsProbabilityMeasure μ] (h : Stationary μ noise R) (hR : HasPsd R fs psd)
    (hpsd : ∀ k, 0 < psd k) (hs : ∀ k, psd (-k) = psd k) (hfs : 0 < fs)
    (hT : Distinguishable fs (weight psd ac) T 2) {k : ℤ}
    (hk : -((n : ℤ) / 2) ≤ k ∧ k ≤ (n : ℤ) / 2 - ((n : ℤ) + 1) % 2) (hk0 : k ≠ 0) (A1 A2 : ℝ) :
    let r := likeness fs (weight psd ac) T 0 k
    let a1 := fun ω => (nodelay (init (pair T A1 0 A2 k (noise ω)) T psd fs ac false) 0).1.1
    ∃ a2 c : Ω → ℝ,
      (∀ ω, (pileupIterative (init (pair T A1 0 A2 k (noise ω)) T psd fs ac false) (a1 ω) ((0 : ℤ) / fs) (some 1) false 0 k
        false).1 = .ok (a2 ω, k / fs, c ω)) ∧
      ∫ ω, a1 ω ∂μ = A1 + r * A2 ∧ ∫ ω, a2 ω ∂μ = (1 - r ^ 2) * A2 ∧
      ∫ ω, (a2 ω - (1 - r ^ 2) * A2) ^ 2 ∂μ = (1 - r ^ 2) * energyResolution (init T T psd fs ac false) ^ 2 := by
  intro r a1
  have hroll0 : roll T 0 = T := by funext j; simp [roll]
  obtain ⟨s1, s2, chi, hst, q1, q2, -, q4, -, -, -⟩ := stationary_noise h hR hpsd hs hfs ac T hT hk hk0 A1 A2
  obtain ⟨hN, hD, -⟩ := stationary_pair hfs hpsd ac T hT hk hk0 A1 A2 T
  have ex : ∀ y, twoPulses T A1 A2 k y = pair T A1 0 A2 k y := fun y => by
    funext j; simp [twoPulses, pair, roll]
  simp only [ex] at hst
  have key : ∀ ω, ∃ c', a1 ω = s1 ω + r * s2 ω ∧
      (pileupIterative (init (pair T A1 0 A2 k (noise ω)) T psd fs ac false) (a1 ω) ((0 : ℤ) / fs) (some 1) false 0 k
        false).1 = .ok ((1 - r ^ 2) * s2 ω, k / fs, c') := by
    intro ω
    obtain ⟨-, t1, t2, c, c', g1, g2, g3⟩ := two_steps (ac := ac) hpsd hfs hT hk hk0 (pair T A1 0 A2 k (noise ω))
    rw [hst ω] at g1
    simp only [Except.ok.injEq, Prod.mk.injEq] at g1
    obtain ⟨rfl, rfl, -, -⟩ := g1
    exact ⟨c', g2, g3⟩
  choose c' hc' using key
  refine ⟨fun ω => (1 - r ^ 2) * s2 ω, c', fun ω => (hc' ω).2, ?_, ?_, ?_⟩
  · have hN0 : traceChi2 fs (weight psd ac) T ≠ 0 := hN.ne'
    have e : ∀ ω, a1 ω = A1 + r * A2 + ip fs (weight psd ac) T (noise ω) / traceChi2 fs (weight psd ac) T := by
      intro ω
      simp only [a1, r]
      rw [init_nodelay_amp _ _ _ _ _ hfs.ne', init_sfTd, init_norm, Int.cast_zero, hroll0, ip_pair, likeness_eq,
        Int.cast_zero, hroll0, ip_self]
      field_simp
    simp only [e]
    have i1 : Integrable (fun ω => ip fs (weight psd ac) T (noise ω)) μ := h.int_ip hs fs ac _
    rw [integral_add (integrable_const _) (i1.div_const _), integral_div, h.ip_mean hs fs ac]
    simp
  · rw [integral_const_mul, q2]
  · have e : ∀ ω, ((1 - r ^ 2) * s2 ω - (1 - r ^ 2) * A2) ^ 2 = (1 - r ^ 2) ^ 2 * (s2 ω - A2) ^ 2 := fun ω => by ring
    simp only [e]
    rw [integral_const_mul, q4, (resolution_sq hN).2]
    have hr : r = ip fs (weight psd ac) T (roll T (k : ZMod n)) / traceChi2 fs (weight psd ac) T := by
      simp only [r]
      rw [likeness_eq, Int.cast_zero, hroll0]
    rw [overlap_eq, hr]
    have h1 := hN.ne'
    have h2 := hD.ne'
    field_simp

/-- A pulse of two bins, the second half as high as the first. -/
def steps : ZMod 3 → ℝ := fun j => if j = 0 then 2 else if j = 1 then 1 else 0

/-- Two such pulses one bin apart have a likeness of 2/5: the second comes out 16 % too low. -/
example : Distinguishable 1 (weight white false) steps 2 ∧
    (-(((3 : ℕ) : ℤ) / 2) ≤ 1 ∧ (1 : ℤ) ≤ ((3 : ℕ) : ℤ) / 2 - (((3 : ℕ) : ℤ) + 1) % 2) ∧
    likeness 1 (weight white false) steps 0 1 = 2 / 5 ∧ 1 - likeness 1 (weight white false) steps 0 1 ^ 2 = 21 / 25 := by
  have hl : likeness 1 (weight white false) steps 0 1 = 2 / 5 := by
    rw [likeness_eq, ip_white, traceChi2_white]
    have h1 : ∑ j : ZMod 3, roll steps ((0 : ℤ) : ZMod 3) j * roll steps ((1 : ℤ) : ZMod 3) j = 2 := by
      rw [show (Finset.univ : Finset (ZMod 3)) = {0, 1, 2} from rfl]
      rw [Finset.sum_insert (by decide), Finset.sum_insert (by decide), Finset.sum_singleton]
      have e1 : roll steps ((0 : ℤ) : ZMod 3) 0 = 2 := by
        simp only [roll, steps]
        exact if_pos (by decide)
      have e2 : roll steps ((1 : ℤ) : ZMod 3) 0 = 0 := by
        simp only [roll, steps]
        exact (if_neg (by decide)).trans (if_neg (by decide))
      have e3 : roll steps ((0 : ℤ) : ZMod 3) 1 = 1 := by
        simp only [roll, steps]
        exact (if_neg (by decide)).trans (if_pos (by decide))
      have e4 : roll steps ((1 : ℤ) : ZMod 3) 1 = 2 := by
        simp only [roll, steps]
        exact if_pos (by decide)
      have e5 : roll steps ((0 : ℤ) : ZMod 3) 2 = 0 := by
        simp only [roll, steps]
        exact (if_neg (by decide)).trans (if_neg (by decide))
      rw [e1, e2, e3, e4, e5]
      norm_num
    have h2 : ∑ j : ZMod 3, steps j ^ 2 = 5 := by
      rw [show (Finset.univ : Finset (ZMod 3)) = {0, 1, 2} from rfl]
      rw [Finset.sum_insert (by decide), Finset.sum_insert (by decide), Finset.sum_singleton]
      have e1 : steps 0 = 2 := if_pos (by decide)
      have e2 : steps 1 = 1 := (if_neg (by decide)).trans (if_pos (by decide))
      have e3 : steps 2 = 0 := (if_neg (by decide)).trans (if_neg (by decide))
      rw [e1, e2, e3]
      norm_num
    rw [h1, h2]
    norm_num
  refine ⟨?_, by norm_num, hl, by rw [hl]; norm_num⟩
  intro c _ h
  have h0 := fun j => white_zero h j
  unfold pulses at h0
  simp only [show (Finset.univ : Finset (ZMod 3)) = {0, 1, 2} from rfl] at h0
  simp only [Finset.sum_insert (show (0 : ZMod 3) ∉ ({1, 2} : Finset (ZMod 3)) by decide),
    Finset.sum_insert (show (1 : ZMod 3) ∉ ({2} : Finset (ZMod 3)) by decide), Finset.sum_singleton, add_zero] at h0
  have t : ∀ d j : ZMod 3, roll steps d j = steps (j - d) := fun _ _ => rfl
  have e1 : steps 0 = 2 := if_pos (by decide)
  have e2 : steps 1 = 1 := (if_neg (by decide)).trans (if_pos (by decide))
  have e3 : steps 2 = 0 := (if_neg (by decide)).trans (if_neg (by decide))
  have g0 := h0 0
  have g1 := h0 1
  have g2 := h0 2
  simp only [t, show (0 : ZMod 3) - 0 = 0 by decide, show (0 : ZMod 3) - 1 = 2 by decide, show (0 : ZMod 3) - 2 = 1 by decide,
    show (1 : ZMod 3) - 0 = 1 by decide, show (1 : ZMod 3) - 1 = 0 by decide, show (1 : ZMod 3) - 2 = 2 by decide,
    show (2 : ZMod 3) - 0 = 2 by decide, show (2 : ZMod 3) - 1 = 1 by decide, show (2 : ZMod 3) - 2 = 0 by decide,
    e1, e2, e3] at g0 g1 g2
  funext j
  have hj : j = 0 ∨ j = 1 ∨ j = 2 := by revert j; decide
  rcases hj with rfl | rfl | rfl <;> simp only [Pi.zero_apply] <;> linarith

end Verif.OF
