import Verif.Np

/-!
Model of the delay search shared by all optimum filters:
`_argmin_chi2` and `_get_pulse_direction_constraint_mask`
(`/repo/qetpy/core/_fitting.py` lines 20-145), for a one-dimensional `chi2`.

An array of length `n` is a function `ℤ → ℝ`; only its values at indices `0 .. n-1` are ever used
(`argmin_ok_admissible` in `ArgminProps.lean` shows that the chosen index is in that range).
-/

namespace Verif.OF

/-- `np.arange(a, b)` for integers. -/
def arange (a b : ℤ) : List ℤ := (List.range (b - a).toNat).map fun (k : ℕ) => a + (k : ℤ)

/-- Running minimum of `np.argmin`: the first position with the smallest value wins. -/
noncomputable def argminGo (f : ℤ → ℝ) (best : ℤ) : List ℤ → ℤ
  | [] => best
  | a :: rest => if f a < f best then argminGo f a rest else argminGo f best rest

/-- `inds[np.argmin(chi2[inds])]`, `none` for an empty index list. -/
noncomputable def argminOn (f : ℤ → ℝ) : List ℤ → Option ℤ
  | [] => none
  | a :: rest => some (argminGo f a rest)

/-- The bins selected by `nconstrain`, `lgcoutsidewindow` and `windowcenter`.
`_fitting.py` lines 79-87.  `nc` is already capped. -/
def winInds (n : ℕ) (nc : ℤ) (outside : Bool) (wc : ℤ) : List ℤ :=
  let winStart : ℤ := (n : ℤ) / 2 - nc / 2 + wc
  if outside then
    let winEnd : ℤ := (-(n : ℤ)) / 2 + nc / 2 + nc % 2 + wc
    -- inds = np.r_[0:win_start, win_end:0]; inds[inds < 0] += nbins
    (arange 0 winStart ++ arange winEnd 0).map fun i => if i < 0 then i + n else i
  else
    let winEnd : ℤ := (n : ℤ) / 2 + nc / 2 + nc % 2 + wc
    -- inds = np.arange(win_start, win_end); inds = inds[(inds>=0) & (inds<nbins)]
    (arange winStart winEnd).filter fun i => 0 ≤ i ∧ i < n

/-- The bins `_argmin_chi2` looks at when there is no mask (`_fitting.py` lines 66-87 and 100-104). -/
def searchedBins (n : ℕ) (nconstrain : Option ℤ) (outside : Bool) (wc : ℤ) : List ℤ :=
  match nconstrain with
  | some k => winInds n (if k > n then (n : ℤ) else k) outside wc
  | none => arange 0 n

/-- `_argmin_chi2` (`_fitting.py` lines 63-108); `.ok none` is the `nan` result. -/
noncomputable def argminChi2 (n : ℕ) (chi2 : ℤ → ℝ) (nconstrain : Option ℤ) (outside : Bool)
    (mask : Option (ℤ → Bool)) (wc : ℤ) : Except Err (Option ℤ) :=
  if ¬ (-((n : ℤ) / 2) ≤ wc ∧ wc ≤ (n : ℤ) / 2 - ((n : ℤ) + 1) % 2) then .error .valueError
  else
    match nconstrain with
    | some k =>
      if k ≤ 0 ∧ ¬ k > n then .error .valueError
      else
        let nc := if k > n then (n : ℤ) else k
        let inds := winInds n nc outside wc
        let inds := match mask with
          | none => inds
          | some m => inds.filter m
        .ok (argminOn chi2 inds)
    | none =>
      match mask with
      | none => .ok (argminOn chi2 (arange 0 n))
      | some m => .ok (argminOn chi2 ((arange 0 n).filter m))

/-- `_get_pulse_direction_constraint_mask` (`_fitting.py` lines 137-145). -/
noncomputable def directionMask (amps : ℤ → ℝ) (dir : ℤ) : Except Err (Option (ℤ → Bool)) :=
  if ¬ (dir = -1 ∨ dir = 0 ∨ dir = 1) then .error .valueError
  else if dir = 0 then .ok none
  else .ok (some fun i => decide ((dir : ℝ) * amps i > 0))

end Verif.OF
