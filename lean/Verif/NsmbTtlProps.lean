import Verif.NsmbTtlLemmas

/-! Property C60: `maketemplate_ttlfit_nsmb`. -/

namespace Verif.Nsmb

open Verif Verif.Dft

variable {n : ℕ} [NeZero n]

omit [NeZero n] in
/-- **C60.**  The templates: there is one per laser pulse that fits in the trace, then the slope and
the constant.  All pulses are one common rolled copy of the template (rolled back by half the train,
rounded to less than a bin), delayed by the reported shift and zero before it.  The reported shift is
the nearest bin to `k` pulse spacings. -/
theorem ttl_columns {T : ZMod n → ℝ} {fs rate : ℝ} {con pos : Bool} {notch : ℤ} {r : Ttl n}
    (hfs : 0 < fs) (hr : 0 < rate) (h : makeTtl T fs rate con pos notch = .ok r) :
    ∃ N : ℕ, (N : ℝ) ≤ n * rate / fs ∧ n * rate / fs < N + 1 ∧
      r.cols.length = N + 2 ∧ r.shifts.length = N + 2 ∧ r.polarity.length = N + 2 ∧
      r.cols[N]? = some (fun τ => (τ.val : ℝ) / n) ∧ r.cols[N + 1]? = some (fun _ => 1) ∧
      ∃ b : ℤ, |(b : ℝ) + N * (fs / rate) / 2| < 1 ∧
        ∀ k < N, ∃ s : ℤ, |(s : ℝ) - k * (fs / rate)| ≤ 1 / 2 ∧ r.shifts[k]? = some s ∧
          r.cols[k]? = some fun τ => if (τ.val : ℤ) < s then 0 else T (τ - ((s + b : ℤ) : ZMod n)) := by
  obtain ⟨cols, hc, h1, h2, h3, -⟩ := makeTtl_ok hfs hr h
  have h0 : 0 ≤ (n : ℝ) * rate / fs := by positivity
  have hlen : cols.length = ⌊(n : ℝ) * rate / fs⌋₊ := by
    have := (Verif.Iv.mapM_ok hc).length_eq
    rw [List.length_range] at this
    exact this.symm
  refine ⟨⌊(n : ℝ) * rate / fs⌋₊, Nat.floor_le h0, Nat.lt_floor_add_one _, ?_, ?_, ?_, ?_, ?_,
    OF.trunc (-((⌊(n : ℝ) * rate / fs⌋₊ : ℤ) : ℝ) / 2 * (1 / rate * fs)), ?_, fun k hk => ?_⟩
  · rw [h1]; simp [hlen]
  · rw [h2]; simp
  · rw [h3]; simp
  · rw [h1, ← hlen, List.getElem?_append_right le_rfl, Nat.sub_self]
    have : (slopeTemplate : ZMod n → ℝ) = fun τ => (τ.val : ℝ) / n := by
      funext τ
      rw [slopeTemplate, mul_one_div]
    rw [← this]
    rfl
  · rw [h1, ← hlen, List.getElem?_append_right (by omega), Nat.add_sub_cancel_left]
    rfl
  · have := trunc_near (-((⌊(n : ℝ) * rate / fs⌋₊ : ℤ) : ℝ) / 2 * (1 / rate * fs))
    have e : (OF.trunc (-((⌊(n : ℝ) * rate / fs⌋₊ : ℤ) : ℝ) / 2 * (1 / rate * fs)) : ℝ) +
        ⌊(n : ℝ) * rate / fs⌋₊ * (fs / rate) / 2 =
        (OF.trunc (-((⌊(n : ℝ) * rate / fs⌋₊ : ℤ) : ℝ) / 2 * (1 / rate * fs)) : ℝ) -
          -((⌊(n : ℝ) * rate / fs⌋₊ : ℤ) : ℝ) / 2 * (1 / rate * fs) := by
      push_cast
      ring
    rw [e]
    exact this
  · refine ⟨ttlShift (1 / rate * fs) k, ?_, ?_, ?_⟩
    · have := rint_near (1 / rate * fs * k)
      unfold ttlShift
      rwa [show (k : ℝ) * (fs / rate) = 1 / rate * fs * k by ring]
    · rw [h2, List.getElem?_append_left (by simpa using hk)]
      simp [hk]
    · rw [h1, List.getElem?_append_left (by rw [hlen]; exact hk)]
      have hck := Verif.Iv.mapM_range (d := fun _ => 0) hc hk
      have := ttlCol_ok hck
      rw [List.getElem?_eq_getElem (by rw [hlen]; exact hk)]
      congr 1
      rw [List.getD_eq_getElem?_getD, List.getElem?_eq_getElem (by rw [hlen]; exact hk),
        Option.getD_some] at this
      rw [this]
      funext τ
      simp only [roll]
      push_cast
      rw [sub_sub]

omit [NeZero n] in
/-- **C60.**  Slope and constant are never constrained; the pulses all carry the requested polarity. -/
theorem ttl_polarity {T : ZMod n → ℝ} {fs rate : ℝ} {con pos : Bool} {notch : ℤ} {r : Ttl n}
    (hfs : 0 < fs) (hr : 0 < rate) (h : makeTtl T fs rate con pos notch = .ok r) :
    ∃ N : ℕ, r.cols.length = N + 2 ∧ r.polarity[N]? = some 0 ∧ r.polarity[N + 1]? = some 0 ∧
      ∀ k < N, r.polarity[k]? = some (match con, pos with
        | true, true => 1 | true, false => -1 | false, _ => 0) := by
  obtain ⟨cols, hc, h1, -, h3, -⟩ := makeTtl_ok hfs hr h
  have hlen : cols.length = ⌊(n : ℝ) * rate / fs⌋₊ := by
    have := (Verif.Iv.mapM_ok hc).length_eq
    rw [List.length_range] at this
    exact this.symm
  refine ⟨⌊(n : ℝ) * rate / fs⌋₊, by rw [h1]; simp [hlen], ?_, ?_, fun k hk => ?_⟩
  · rw [h3, List.getElem?_append_right (by simp)]; simp
  · rw [h3, List.getElem?_append_right (by simp)]; simp
  · rw [h3, List.getElem?_append_left (by simpa using hk), List.getElem?_replicate, if_pos hk]
    cases con <;> cases pos <;> rfl

/-- **C60.**  The search window is increasing and consists of exactly the bins that are not within
`notch` bins (cyclically) of a reported pulse shift. -/
theorem ttl_window {T : ZMod n → ℝ} {fs rate : ℝ} {con pos : Bool} {notch : ℤ} {r : Ttl n}
    (hfs : 0 < fs) (hr : 0 < rate) (h : makeTtl T fs rate con pos notch = .ok r) :
    ∃ N : ℕ, r.cols.length = N + 2 ∧ r.window.Pairwise (· < ·) ∧
      ∀ i : ℤ, i ∈ r.window ↔ 0 ≤ i ∧ i < n ∧
        ¬ ∃ k < N, ∃ s, r.shifts[k]? = some s ∧ ∃ d : ℤ, |d| ≤ notch ∧
          (i : ZMod n) = ((s + d : ℤ) : ZMod n) := by
  obtain ⟨cols, hc, h1, h2, -, hw⟩ := makeTtl_ok hfs hr h
  have hlen : cols.length = ⌊(n : ℝ) * rate / fs⌋₊ := by
    have := (Verif.Iv.mapM_ok hc).length_eq
    rw [List.length_range] at this
    exact this.symm
  obtain ⟨hs, hm⟩ := npDelete_ok hw
  refine ⟨⌊(n : ℝ) * rate / fs⌋₊, by rw [h1]; simp [hlen], hs, fun i => ?_⟩
  rw [hm i]
  refine and_congr_right fun h0 => and_congr_right fun hn => not_congr ?_
  have hsh : ∀ k < ⌊(n : ℝ) * rate / fs⌋₊,
      r.shifts[k]? = some (ttlShift (1 / rate * fs) k) := fun k hk => by
    rw [h2, List.getElem?_append_left (by simpa using hk)]
    simp [hk]
  constructor
  · rintro ⟨j, hj, he⟩
    obtain ⟨k, hk, i', hi1, hi2, rfl⟩ := mem_ttlRestrict.1 hj
    refine ⟨k, hk, _, hsh k hk, i' - ttlShift (1 / rate * fs) k, abs_le.2 ⟨by omega, by omega⟩, ?_⟩
    rw [← he, add_sub_cancel]
    split_ifs
    · push_cast; simp
    · rfl
  · rintro ⟨k, hk, s, hss, d, hd, he⟩
    rw [hsh k hk] at hss
    cases hss
    obtain ⟨hd1, hd2⟩ := abs_le.1 hd
    refine ⟨_, mem_ttlRestrict.2 ⟨k, hk, ttlShift (1 / rate * fs) k + d, by omega, by omega, rfl⟩, ?_⟩
    rw [he]
    split_ifs
    · push_cast; simp
    · rfl

omit [NeZero n] in
/-- **C60 (partial).**  The call succeeds when a pulse spacing is at least one bin and at least one
bin more than the notch. -/
theorem ttl_defined_partial (T : ZMod n → ℝ) {fs rate : ℝ} (con pos : Bool) {notch : ℤ}
    (hfs : 0 < fs) (hr : 0 < rate) (h1 : rate ≤ fs) (hn : (notch + 1 : ℝ) ≤ fs / rate) :
    ∃ r, makeTtl T fs rate con pos notch = .ok r := by
  have e : 1 / rate * fs = fs / rate := by ring
  have hb : 1 ≤ fs / rate := by rwa [one_le_div hr]
  unfold makeTtl
  rw [if_neg (not_or.2 ⟨hr.ne', hfs.ne'⟩)]
  simp only [ttl_count hfs hr, Int.toNat_natCast, e]
  rw [if_neg (by omega), if_neg (by omega)]
  obtain ⟨cols, hcols⟩ := Verif.Ibis.mapM_all (l := List.range ⌊(n : ℝ) * rate / fs⌋₊)
    (f := ttlCol (roll T
        ((OF.trunc (-((⌊(n : ℝ) * rate / fs⌋₊ : ℤ) : ℝ) / 2 * (fs / rate)) : ℤ) : ZMod n))
        (fs / rate)) fun k _ => ttlCol_defined _ hb k
  rw [hcols]
  simp only
  have hw : ∃ w, npDelete n (ttlRestrict n (fs / rate) ⌊(n : ℝ) * rate / fs⌋₊ notch) = .ok w := by
    unfold npDelete
    rw [if_neg]
    · exact ⟨_, rfl⟩
    rintro ⟨j, hj, hbad⟩
    obtain ⟨k, hk, i, hi1, hi2, rfl⟩ := mem_ttlRestrict.1 hj
    have h0 : 0 ≤ (n : ℝ) * rate / fs := by positivity
    have hN := Nat.floor_le h0
    have hk1 : ((k : ℝ) + 1) ≤ (⌊(n : ℝ) * rate / fs⌋₊ : ℝ) := by exact_mod_cast hk
    have hsn := abs_le.1 (rint_near (fs / rate * k))
    have hNn : (⌊(n : ℝ) * rate / fs⌋₊ : ℝ) * (fs / rate) ≤ n := by
      calc _ ≤ (n : ℝ) * rate / fs * (fs / rate) := by gcongr
        _ = n := by field_simp
    have hkb : (k + 1 : ℝ) * (fs / rate) ≤ n := le_trans (by gcongr) hNn
    have hi2' : (i : ℝ) ≤ ttlShift (fs / rate) k + notch := by exact_mod_cast hi2
    have hi1' : (ttlShift (fs / rate) k : ℝ) - notch ≤ i := by exact_mod_cast hi1
    unfold ttlShift at hi1' hi2'
    have hkk : (0 : ℝ) ≤ k * (fs / rate) := by positivity
    have u : (i : ℝ) < n := by nlinarith [hsn.2]
    have l : (-(n : ℝ)) < i := by nlinarith [hsn.1]
    have u' : i < n := by exact_mod_cast u
    have l' : -(n : ℤ) < i := by exact_mod_cast l
    apply hbad
    split_ifs <;> omega
  obtain ⟨w, hw⟩ := hw
  rw [hw]
  exact ⟨_, rfl⟩

/-- Ten bins, two pulses five bins apart, two bins on each side excluded. -/
example : ∃ r, makeTtl (n := 10) (fun τ => (τ.val : ℝ)) 10 2 true true 2 = .ok r :=
  ttl_defined_partial _ true true (by norm_num) (by norm_num) (by norm_num) (by norm_num)

/-- **C60 is violated**: with at most half a bin between the pulses the call raises `ValueError`. -/
theorem ttl_fast_violated (T : ZMod n → ℝ) {fs rate : ℝ} (con pos : Bool) (notch : ℤ)
    (hfs : 0 < fs) (hr : 0 < rate) (h1 : fs / rate ≤ 1 / 2) :
    makeTtl T fs rate con pos notch = .error .valueError := by
  have e : 1 / rate * fs = fs / rate := by ring
  have hn : (1 : ℝ) ≤ n := by exact_mod_cast Nat.pos_of_ne_zero (NeZero.ne n)
  have h2 : 2 ≤ ⌊(n : ℝ) * rate / fs⌋₊ := by
    rw [Nat.le_floor_iff (by positivity), le_div_iff₀ hfs]
    rw [div_le_iff₀ hr] at h1
    push_cast
    nlinarith
  unfold makeTtl
  rw [if_neg (not_or.2 ⟨hr.ne', hfs.ne'⟩)]
  simp only [ttl_count hfs hr, Int.toNat_natCast, e]
  rw [if_neg (by omega), if_neg (by omega)]
  obtain ⟨m, hm⟩ := Nat.exists_eq_add_of_le' h2
  rw [hm, List.range_succ_eq_map, List.range_succ_eq_map]
  simp only [List.map_cons, List.mapM_cons]
  have c1 : ∀ f : ZMod n → ℝ, ttlCol f (fs / rate) 1 = .error .valueError := fun f => by
    unfold ttlCol
    rw [if_neg one_ne_zero]
    simp only [ttlShift_tiny (div_pos hfs hr) h1, le_refl, if_true]
  have c0 : ∀ f : ZMod n → ℝ, ttlCol f (fs / rate) 0 = .ok f := fun f => rfl
  rw [c0, c1]
  rfl

omit [NeZero n] in
/-- **C60 is violated**: if the notch around the last pulse reaches the end of the trace, the call
raises `IndexError` instead of leaving these bins out. -/
theorem ttl_notch_violated (T : ZMod n → ℝ) {fs rate : ℝ} (con pos : Bool) {notch : ℤ}
    (hfs : 0 < fs) (hr : 0 < rate) (h1 : rate ≤ fs) (h0 : 0 ≤ notch) {k : ℕ}
    (hk : (k : ℝ) + 1 ≤ n * rate / fs) (hlast : n ≤ k * (fs / rate) - 1 / 2 + notch) :
    makeTtl T fs rate con pos notch = .error .indexError := by
  have e : 1 / rate * fs = fs / rate := by ring
  have hb : 1 ≤ fs / rate := by rwa [one_le_div hr]
  unfold makeTtl
  rw [if_neg (not_or.2 ⟨hr.ne', hfs.ne'⟩)]
  simp only [ttl_count hfs hr, Int.toNat_natCast, e]
  rw [if_neg (by omega), if_neg (by omega)]
  obtain ⟨cols, hcols⟩ := Verif.Ibis.mapM_all (l := List.range ⌊(n : ℝ) * rate / fs⌋₊)
    (f := ttlCol (roll T
        ((OF.trunc (-((⌊(n : ℝ) * rate / fs⌋₊ : ℤ) : ℝ) / 2 * (fs / rate)) : ℤ) : ZMod n))
        (fs / rate)) fun k _ => ttlCol_defined _ hb k
  rw [hcols]
  simp only
  have hw : npDelete n (ttlRestrict n (fs / rate) ⌊(n : ℝ) * rate / fs⌋₊ notch) =
      .error .indexError := by
    unfold npDelete
    rw [if_pos]
    have hkf : k < ⌊(n : ℝ) * rate / fs⌋₊ := by
      have : k + 1 ≤ ⌊(n : ℝ) * rate / fs⌋₊ := Nat.le_floor (by exact_mod_cast hk)
      omega
    have hs := abs_le.1 (rint_near (fs / rate * k))
    have hbig : (n : ℤ) ≤ ttlShift (fs / rate) k + notch := by
      have : (n : ℝ) ≤ ttlShift (fs / rate) k + notch := by
        unfold ttlShift
        linarith [hs.1, mul_comm (fs / rate) (k : ℝ)]
      exact_mod_cast this
    refine ⟨ttlShift (fs / rate) k + notch, mem_ttlRestrict.2 ⟨k, hkf, _, by omega, le_rfl, ?_⟩, ?_⟩
    · rw [if_neg (by omega)]
    · rintro ⟨-, h⟩
      omega
  rw [hw]

/-- Ten bins, pulses at 0 and 5, a notch of 6 bins. -/
example : makeTtl (n := 10) (fun τ => (τ.val : ℝ)) 10 2 true true 6 = .error .indexError :=
  ttl_notch_violated _ true true (by norm_num) (by norm_num) (by norm_num) (by norm_num)
    (k := 1) (by norm_num) (by norm_num)

omit [NeZero n] in
/-- The documented `nan` shifts of slope and constant are zeros: a caller cannot tell them from a
pulse with zero delay. -/
theorem ttl_nan_violated {T : ZMod n → ℝ} {fs rate : ℝ} {con pos : Bool} {notch : ℤ} {r : Ttl n}
    (hfs : 0 < fs) (hr : 0 < rate) (h : makeTtl T fs rate con pos notch = .ok r) :
    ∃ N : ℕ, r.cols.length = N + 2 ∧ r.shifts[N]? = some 0 ∧ r.shifts[N + 1]? = some 0 := by
  obtain ⟨cols, hc, h1, h2, -, -⟩ := makeTtl_ok hfs hr h
  have hlen : cols.length = ⌊(n : ℝ) * rate / fs⌋₊ := by
    have := (Verif.Iv.mapM_ok hc).length_eq
    rw [List.length_range] at this
    exact this.symm
  refine ⟨⌊(n : ℝ) * rate / fs⌋₊, by rw [h1]; simp [hlen], ?_, ?_⟩
  · rw [h2, List.getElem?_append_right (by simp)]; simp
  · rw [h2, List.getElem?_append_right (by simp)]; simp

omit [NeZero n] in
/-- **C60.**  The slope and offset templates on their own: first a ramp that rises by `1/n` per bin
from zero, then the constant one. -/
theorem slope_dc : (slopeDc : List (ZMod n → ℝ)).length = 2 ∧
    (∀ x : ZMod n → ℝ, slopeDc[0]? = some x → ∀ k : ℕ, k < n → x (k : ZMod n) = (k : ℝ) / n) ∧
    (∀ x : ZMod n → ℝ, slopeDc[1]? = some x → ∀ τ, x τ = 1) := by
  refine ⟨rfl, ?_, ?_⟩
  · intro x hx k hk
    have : x = slopeTemplate := (Option.some.inj hx).symm
    rw [this, slopeTemplate, ZMod.val_natCast, Nat.mod_eq_of_lt hk, mul_one_div]
  · intro x hx τ
    cases hx
    rfl

end Verif.Nsmb
