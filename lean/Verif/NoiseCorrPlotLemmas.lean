import Verif.NoisePlotLemmas
import Verif.DftLemmas

/-! Helper lemmas for the plot of the correlation coefficients. -/

namespace Verif.NoisePlot
open Verif Noise Dft

variable {m c n : ℕ} [NeZero n]

/-- Every one-sided real spectrum is that of a real trace. -/
theorem exists_rfft (A : Half n → ℝ) : ∃ x : ZMod n → ℝ, ∀ k, rfft x k = (A k : ℂ) := by
  have hlt : ∀ k : ZMod n, min k.val (n - k.val) < n / 2 + 1 := by intro k; omega
  let B : ZMod n → ℂ := fun k => (A ⟨min k.val (n - k.val), hlt k⟩ : ℂ)
  have hB : ∀ k, B (-k) = B k := by
    intro k
    simp only [B]
    congr 2
    apply Fin.ext
    simp only [ZMod.neg_val]
    have := ZMod.val_lt k
    split_ifs with h
    · simp [h]
    · omega
  have hconj : ∀ k, starRingEnd ℂ (B k) = B k := fun k => Complex.conj_ofReal _
  have hreal : ∀ j, starRingEnd ℂ (ifft B j) = ifft B j := by
    intro j
    rw [ifft_apply, map_mul, map_sum]
    congr 1
    · simp
    · rw [← Equiv.sum_comp (Equiv.neg (ZMod n))]
      refine Finset.sum_congr rfl fun k _ => ?_
      simp only [Equiv.neg_apply]
      rw [map_mul, conj_e, hconj, hB]
      congr 2
      ring
  refine ⟨fun j => (ifft B j).re, fun k => ?_⟩
  have e : (fun j => (((ifft B j).re : ℝ) : ℂ)) = ifft B := by
    funext j
    exact Complex.conj_eq_iff_re.1 (hreal j)
  have h2 : rfft (fun j => (ifft B j).re) k = fft (ifft B) k.bin := by
    unfold rfft fftR fft
    rw [e]
  rw [h2, fft_ifft]
  simp only [B]
  congr 2
  apply Fin.ext
  simp only [Half.bin]
  have hk := k.2
  rw [ZMod.val_natCast]
  have hn := NeZero.pos n
  rcases Nat.lt_or_ge (k : ℕ) n with h | h
  · rw [Nat.mod_eq_of_lt h]
    omega
  · have : n = 1 := by omega
    omega

/-- The ordered pairs of channels. -/
def pairs (c : ℕ) : List (Fin c × Fin c) :=
  (List.finRange c).flatMap fun i => (List.finRange c).filterMap fun j => if j < i then some (i, j) else none

omit [NeZero n] in
theorem mem_pairs {i j : Fin c} : (i, j) ∈ pairs c ↔ j < i := by
  unfold pairs
  simp only [List.mem_flatMap, List.mem_finRange, true_and, List.mem_filterMap]
  constructor
  · rintro ⟨a, b, h⟩
    split_ifs at h with hlt
    cases h
    exact hlt
  · intro h
    exact ⟨i, j, by rw [if_pos h]⟩

omit [NeZero n] in
theorem nodup_pairs : (pairs c).Nodup := by
  unfold pairs
  rw [List.nodup_flatMap]
  constructor
  · intro i _
    refine List.Nodup.filterMap ?_ (List.nodup_finRange c)
    intro a b p ha hb
    simp only [Option.mem_def] at ha hb
    split_ifs at ha with h1
    split_ifs at hb with h2
    cases ha
    cases hb
    rfl
  · refine List.Pairwise.imp_of_mem ?_ (List.nodup_finRange c)
    intro a b _ _ hab p ha hb
    simp only [List.mem_filterMap, List.mem_finRange, true_and] at ha hb
    obtain ⟨_, ha⟩ := ha
    obtain ⟨_, hb⟩ := hb
    split_ifs at ha
    split_ifs at hb
    cases ha
    cases hb
    exact hab rfl

omit [NeZero n] in
/-- The loop over the pairs. -/
theorem pair_loop {α : Type} (f : Fin c → Fin c → α) :
    ((List.finRange c).flatMap fun i => (List.finRange c).filterMap fun j =>
      if j < i then some (f i j) else none) = (pairs c).map fun p => f p.1 p.2 := by
  unfold pairs
  rw [List.map_flatMap]
  refine List.flatMap_congr fun i _ => ?_
  rw [List.map_filterMap]
  refine List.filterMap_congr fun j _ => ?_
  split_ifs <;> rfl

theorem zip_self {α : Type} (l : List α) : l.zip l = l.map fun k => (k, k) := by
  induction l with
  | nil => rfl
  | cons a l ih => simp [ih]

omit [NeZero n] in
theorem mem_linPts {fs : ℝ} {y : Half n → Option ℝ} {p : ℝ × ℝ} :
    p ∈ linPts (n := n) fs (((List.finRange (n / 2 + 1)).drop 1).map y) ↔
      ∃ k : Half n, 1 ≤ (k : ℕ) ∧ ∃ v, y k = some v ∧ p = ((k : ℕ) * fs / n, v) := by
  unfold linPts
  simp only [List.mem_filterMap, Option.map_eq_some_iff]
  constructor
  · rintro ⟨⟨k, o⟩, hk, v, hv, rfl⟩
    rw [List.zip_map_right] at hk
    obtain ⟨⟨a, b⟩, hab, he⟩ := List.mem_map.1 hk
    simp only [Prod.map_apply, id_eq, Prod.mk.injEq] at he
    obtain ⟨rfl, rfl⟩ := he
    have h1 := (List.of_mem_zip hab).1
    rw [show (List.zip ((List.finRange (n / 2 + 1)).drop 1) ((List.finRange (n / 2 + 1)).drop 1)) =
      ((List.finRange (n / 2 + 1)).drop 1).map (fun k => (k, k)) from by
        rw [zip_self]] at hab
    obtain ⟨z, _, hz⟩ := List.mem_map.1 hab
    cases hz
    exact ⟨_, mem_drop_finRange.1 h1, v, hv, rfl⟩
  · rintro ⟨k, hk, v, hv, rfl⟩
    refine ⟨(k, y k), ?_, v, hv, rfl⟩
    rw [List.zip_map_right, zip_self, List.map_map]
    exact List.mem_map.2 ⟨k, mem_drop_finRange.2 hk, rfl⟩

end Verif.NoisePlot
