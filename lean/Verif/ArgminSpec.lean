import Verif.Argmin

/-! Specification of the delay search, independent of how the code builds its index list. -/

namespace Verif.OF

/-- The offset of bin `i` from the central bin lies in the window of `k` bins around `wc`. -/
def InWindow (n : ℕ) (k wc i : ℤ) : Prop :=
  wc - k / 2 ≤ i - (n : ℤ) / 2 ∧ i - (n : ℤ) / 2 < wc + k / 2 + k % 2

/-- A bin the user allows the search to return. -/
def Admissible (n : ℕ) (nconstrain : Option ℤ) (outside : Bool) (mask : Option (ℤ → Bool))
    (wc i : ℤ) : Prop :=
  0 ≤ i ∧ i < n ∧
  (∀ k, nconstrain = some k →
    if outside then ¬ InWindow n (min k n) wc i else InWindow n (min k n) wc i) ∧
  (∀ m, mask = some m → m i = true)

end Verif.OF
