import Verif.DeviceNoiseLemmas

/-! Property C140: what the cost of a dI/dV fit says about the detector. -/

namespace Verif.Device
open Verif Verif.Didv

open Classical in
/-- Distances obey the triangle inequality, are symmetric, and bound the deviation in every fitted bin. -/
theorem distance_laws (o : Obj) (p : Proc) (c : Option ℝ) (X Y Z : ℕ → ℂ) :
    distance o p c X Z ≤ distance o p c X Y + distance o p c Y Z ∧ distance o p c X Y = distance o p c Y X ∧
    ∀ f k, Fitted o p c f k → |(X k - Y k).re / (p.didvstd k).re| ≤ distance o p c X Y ∧
      |(X k - Y k).im / (p.didvstd k).im| ≤ distance o p c X Y := by
  refine ⟨?_, ?_, fun f k hk => ?_⟩
  · unfold distance
    convert minkowski _ (fun k => (X k - Y k).re / (p.didvstd k).re) (fun k => (X k - Y k).im / (p.didvstd k).im)
      (fun k => (Y k - Z k).re / (p.didvstd k).re) (fun k => (Y k - Z k).im / (p.didvstd k).im) using 5
    all_goals
      rw [← add_div]
      simp
  · unfold distance
    congr 1
    refine Finset.sum_congr rfl fun k _ => ?_
    rw [← neg_sub (Y k) (X k), Complex.neg_re, Complex.neg_im, neg_div, neg_div, neg_sq, neg_sq]
  · have hle := Finset.single_le_sum (s := (Finset.range p.nbins).filter fun k => ∃ f, Fitted o p c f k)
      (f := fun k => (((X k - Y k).re / (p.didvstd k).re) ^ 2 + ((X k - Y k).im / (p.didvstd k).im) ^ 2))
      (fun _ _ => by positivity) (a := k) (Finset.mem_filter.2 ⟨Finset.mem_range.2 hk.1, f, hk⟩)
    constructor <;>
    · refine Real.abs_le_sqrt (le_trans ?_ hle)
      nlinarith [sq_nonneg ((X k - Y k).re / (p.didvstd k).re), sq_nonneg ((X k - Y k).im / (p.didvstd k).im)]

/-- The stored cost is half the squared distance between the averages and the response of the stored small signal
parameters, delayed by the stored time shift. -/
theorem cost_is_distance {x : Ext} (hx : Honest x.ls) {o : Obj} {p : Proc} (hp : o.proc = some p) {k : ℤ}
    {c : Option ℝ} (h : (dofit x o k c).1 = .ok ()) :
    ∃ r V dt, fitresult (dofit x o k c).2 k = .found r ∧ r.params.getLast? = some dt ∧
      Values o p c (fun f => complexadmittance f (sspArgs r.ssp)) dt V ∧
      2 * r.cost = distance o p c p.didvmean V ^ 2 := by
  classical
  obtain ⟨n, r, hk, -, hrun, hfound⟩ := dofit_run hp h
  obtain ⟨A0, B0, C0, t1, t2, t3, dt, sub1, params, cov, cost, ft, hg, hl, _, hres⟩ := runFit_ok hrun
  obtain ⟨e, ⟨dt', hlast, hY⟩, -⟩ := result_reproduces_fit hres
  have ecost : r.cost = cost := by
    unfold fitResult at hres
    split at hres
    · cases hres
    · split at hres
      · cases hres
      · cases hres; rfl
  unfold leastSquares at hl
  split_ifs at hl with h1 h2
  split at hl
  · cases hl
  · rename_i r0 hr0
    obtain ⟨rr, hrr, hc⟩ := hx _ _ _ _ h1 hr0
    rw [Except.ok.inj hl] at hrr hc
    dsimp only at hrr hc
    obtain ⟨Y, hYY, -, hsum⟩ := residual_chi2 hrr
    have hval : ∀ f j, Fitted o p c f j → fitY f params = .ok (Y (freqAt p.nbins o.fs j)) := by
      rintro f j ⟨a, rfl, b⟩
      have hm : (⟨freqAt p.nbins o.fs j, p.didvmean j, p.didvstd j⟩ : Pt) ∈ fitPts p o.fs c :=
        mem_fitPts.2 ⟨j, a, b, rfl⟩
      have hv := hYY _ hm
      exact hv
    refine ⟨r, fun j => Y (freqAt p.nbins o.fs j), dt', hfound, by rw [e]; exact hlast, fun f j hj => ?_, ?_⟩
    · rw [hY f]
      exact hval f j hj
    · rw [ecost, hc, hsum, mul_div_cancel₀ _ two_ne_zero]
      unfold distance
      rw [Real.sq_sqrt (Finset.sum_nonneg fun _ _ => by positivity)]
      unfold fitPts
      rw [List.map_map, ← List.sum_toFinset _ (List.nodup_range.filter _)]
      refine Finset.sum_congr ?_ fun j _ => rfl
      ext j
      rw [List.mem_toFinset, List.mem_filter, List.mem_range, decide_eq_true_eq, Finset.mem_filter, Finset.mem_range]
      constructor
      · rintro ⟨a, b⟩; exact ⟨a, _, a, rfl, b⟩
      · rintro ⟨a, f, -, rfl, b⟩; exact ⟨a, b⟩

/-- The fitted response is no farther from any other response `W` (the device's, say) than the cost and the noise in
the averages together; if the cost is no larger than that of `W`, it is within twice the noise. -/
theorem fit_near_device {x : Ext} (hx : Honest x.ls) {o : Obj} {p : Proc} (hp : o.proc = some p) {k : ℤ}
    {c : Option ℝ} (h : (dofit x o k c).1 = .ok ()) (W : ℕ → ℂ) :
    ∃ r V dt', fitresult (dofit x o k c).2 k = .found r ∧ r.params.getLast? = some dt' ∧
      Values o p c (fun f => complexadmittance f (sspArgs r.ssp)) dt' V ∧
      distance o p c V W ≤ Real.sqrt (2 * r.cost) + distance o p c p.didvmean W ∧
      (2 * r.cost ≤ distance o p c p.didvmean W ^ 2 → distance o p c V W ≤ 2 * distance o p c p.didvmean W ∧
        ∀ f j, Fitted o p c f j →
          |(V j - W j).re / (p.didvstd j).re| ≤ 2 * distance o p c p.didvmean W ∧
          |(V j - W j).im / (p.didvstd j).im| ≤ 2 * distance o p c p.didvmean W) := by
  obtain ⟨r, V, dt', h1, h2, h3, h4⟩ := cost_is_distance hx hp h
  have h0 : ∀ Y Z, 0 ≤ distance o p c Y Z := fun _ _ => Real.sqrt_nonneg _
  have e : Real.sqrt (2 * r.cost) = distance o p c p.didvmean V := by rw [h4, Real.sqrt_sq (h0 _ _)]
  have t : distance o p c V W ≤ Real.sqrt (2 * r.cost) + distance o p c p.didvmean W := by
    rw [e, (distance_laws o p c p.didvmean V V).2.1]
    exact (distance_laws o p c V p.didvmean W).1
  refine ⟨r, V, dt', h1, h2, h3, t, fun hc => ?_⟩
  have : Real.sqrt (2 * r.cost) ≤ distance o p c p.didvmean W := by
    rw [← Real.sqrt_sq (h0 p.didvmean W)]
    exact Real.sqrt_le_sqrt hc
  have t2 : distance o p c V W ≤ 2 * distance o p c p.didvmean W := by linarith
  exact ⟨t2, fun f j hj => ⟨((distance_laws o p c V W W).2.2 f j hj).1.trans t2,
    ((distance_laws o p c V W W).2.2 f j hj).2.trans t2⟩⟩

end Verif.Device
