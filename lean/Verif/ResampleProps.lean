import Verif.UtilsProps

/-! C02: the factors of `resample_factors` which hold for all positive integers. -/

namespace Verif.Utils
open Verif

/-- `roundDiv a p * p` is a multiple of `p` nearest to `a`. -/
theorem roundDiv_nearest (a : ℕ) {p : ℕ} (hp : 0 < p) (k : ℕ) :
    |((roundDiv a p * p : ℕ) : ℤ) - a| ≤ |((k * p : ℕ) : ℤ) - a| ∧
      (roundDiv a p * p = 0 → 2 * a ≤ p) := by
  set q := a / p with hq
  set r := a % p with hr
  have h1 : a = q * p + r := by rw [hq, hr, mul_comm]; exact (Nat.div_add_mod a p).symm
  have h2 : r < p := Nat.mod_lt a hp
  have hcase : (roundDiv a p = q ∧ 2 * r ≤ p) ∨ (roundDiv a p = q + 1 ∧ p ≤ 2 * r) := by
    unfold roundDiv
    simp only [← hq, ← hr]
    split_ifs <;> omega
  have hk : k ≤ q ∨ q + 1 ≤ k := by omega
  have hkp : k * p ≤ q * p ∨ q * p + p ≤ k * p := by
    rcases hk with h | h
    · exact .inl (Nat.mul_le_mul_right p h)
    · right
      calc q * p + p = (q + 1) * p := by ring
        _ ≤ k * p := Nat.mul_le_mul_right p h
  constructor
  · rcases hcase with ⟨h, h'⟩ | ⟨h, h'⟩
    · rw [h, abs_le, h1]
      generalize hx : q * p = x at *
      generalize hy : k * p = y at *
      push_cast
      rcases hkp with h3 | h3
      · have : |(y : ℤ) - (x + r)| = x + r - y := by
          rw [abs_of_nonpos (by omega)]; ring
        rw [this]
        constructor <;> omega
      · have : |(y : ℤ) - (x + r)| = y - (x + r) := abs_of_nonneg (by omega)
        rw [this]
        constructor <;> omega
    · rw [h, abs_le, h1]
      have e : (q + 1) * p = q * p + p := by ring
      rw [e]
      generalize hx : q * p = x at *
      generalize hy : k * p = y at *
      push_cast
      rcases hkp with h3 | h3
      · have : |(y : ℤ) - (x + r)| = x + r - y := by
          rw [abs_of_nonpos (by omega)]; ring
        rw [this]
        constructor <;> omega
      · have : |(y : ℤ) - (x + r)| = y - (x + r) := abs_of_nonneg (by omega)
        rw [this]
        constructor <;> omega
  · intro h0
    have hz : roundDiv a p = 0 := by
      rcases Nat.mul_eq_zero.1 h0 with h | h
      · exact h
      · omega
    rcases hcase with ⟨h, h'⟩ | ⟨h, -⟩
    · have hq0 : q = 0 := h.symm.trans hz
      have h4 := h1
      rw [hq0, zero_mul, zero_add] at h4
      exact (congrArg (2 * ·) h4).le.trans h'
    · exact absurd (h.symm.trans hz) (Nat.succ_ne_zero _)

/-- Unless `sgfreq` divides `fs`, `down` is positive and `up` is the positive multiple nearest to `down` of the smallest
prime in the reduced denominator of `fs/sgfreq`. -/
theorem resample_nearest (fs sg : ℕ) (hf : 0 < fs) (hs : 0 < sg) (hd : ¬ sg ∣ fs) :
    0 < (resampleFactorsNat fs sg).1 ∧ 0 < (resampleFactorsNat fs sg).2 ∧
    ∃ p : ℕ, p.Prime ∧ p ∣ sg / Nat.gcd fs sg ∧ (∀ q : ℕ, q.Prime → q ∣ sg / Nat.gcd fs sg → p ≤ q) ∧
      p ∣ (resampleFactorsNat fs sg).1 ∧
      ∀ m : ℕ, 0 < m → p ∣ m → |((resampleFactorsNat fs sg).1 : ℤ) - (resampleFactorsNat fs sg).2| ≤
        |(m : ℤ) - (resampleFactorsNat fs sg).2| := by
  have hg : 0 < Nat.gcd fs sg := Nat.gcd_pos_of_pos_left _ hf
  set den := sg / Nat.gcd fs sg with hden
  have hden0 : 0 < den := Nat.div_pos (Nat.le_of_dvd hs (Nat.gcd_dvd_right _ _)) hg
  have hden1 : den ≠ 1 := by
    intro h
    apply hd
    have : sg = Nat.gcd fs sg := by
      have := Nat.div_mul_cancel (Nat.gcd_dvd_right fs sg)
      rw [← hden, h, one_mul] at this
      exact this.symm
    rw [this]
    exact Nat.gcd_dvd_left _ _
  unfold resampleFactorsNat
  simp only [← hden]
  cases hm : den.primeFactorsList.dedup.min? with
  | none =>
    rw [List.min?_eq_none_iff, List.dedup_eq_nil, Nat.primeFactorsList_eq_nil] at hm
    omega
  | some p =>
    rw [List.min?_eq_some_iff] at hm
    have hp : p.Prime := Nat.prime_of_mem_primeFactorsList (List.mem_dedup.1 hm.1)
    have hpd : p ∣ den := Nat.dvd_of_mem_primeFactorsList (List.mem_dedup.1 hm.1)
    simp only
    set down := (fs / Nat.gcd fs sg).primeFactorsList.dedup.prod with hdown
    have hdpos : 0 < down := by
      apply List.prod_pos
      intro q hq
      exact (Nat.prime_of_mem_primeFactorsList (List.mem_dedup.1 hq)).pos
    have hmin : ∀ q : ℕ, q.Prime → q ∣ den → p ≤ q := fun q hq hqd =>
      hm.2 q (List.mem_dedup.2 ((Nat.mem_primeFactorsList hden0.ne').2 ⟨hq, hqd⟩))
    by_cases h0 : roundDiv down p * p = 0
    · rw [if_pos h0]
      have h2 := (roundDiv_nearest down hp.pos 0).2 h0
      have hc : ceilDiv down p = 1 := by
        unfold ceilDiv
        rw [Nat.div_eq_iff hp.pos]
        omega
      rw [hc, one_mul]
      refine ⟨hp.pos, hdpos, p, hp, hpd, hmin, dvd_rfl, fun m hm0 hpm => ?_⟩
      have := Nat.le_of_dvd hm0 hpm
      rw [abs_of_nonneg (by omega), abs_of_nonneg (by omega)]
      omega
    · rw [if_neg h0]
      refine ⟨Nat.pos_of_ne_zero h0, hdpos, p, hp, hpd, hmin, Dvd.intro_left _ rfl, fun m _ hpm => ?_⟩
      obtain ⟨k, rfl⟩ := hpm
      rw [mul_comm p k]
      exact (roundDiv_nearest down hp.pos k).1

/-- For 3 Hz at 2 Hz the nearest multiple of 3 above zero is 3. -/
example : 0 < (resampleFactorsNat 2 3).1 ∧ ¬ 3 ∣ 2 := ⟨(resample_nearest 2 3 (by norm_num) (by norm_num) (by norm_num)).1, by norm_num⟩

end Verif.Utils
