import Verif.DidvErrSpec
import Verif.DidvErrLemmas
import Verif.DidvRecoverLemmas
import Verif.DidvLimitLemmas
import Verif.SimOFLemmas

/-! Helper lemmas for C153: from the points of a fit to sums over bins. -/

namespace Verif.Device
open Verif Verif.Dft Verif.Didv Verif.NonLin MeasureTheory Filter Topology

section lists
variable {ks : List ℕ} {f : ℕ → ℝ} {m : ℕ → ℂ} {e : ℕ → ℝ}

theorem residual_flat {g : ℕ → ℂ} {v : List ℝ} (he : ∀ k ∈ ks, e k ≠ 0) (hg : ∀ k ∈ ks, fitY (f k) v = .ok (g k)) :
    residual (ks.map fun k => ⟨f k, m k, (1 + Complex.I) * e k⟩) v =
      .ok (ks.flatMap fun k => [(m k - g k).re / e k, (m k - g k).im / e k]) := by
  induction ks with
  | nil => rfl
  | cons k ks ih =>
    have h1 := hg k List.mem_cons_self
    have h2 := he k List.mem_cons_self
    have h3 := ih (fun j hj => he j (List.mem_cons_of_mem _ hj)) fun j hj => hg j (List.mem_cons_of_mem _ hj)
    rw [List.map_cons, List.flatMap_cons]
    simp only [Didv.residual, h1, h3]
    have er : ((1 + Complex.I) * (e k : ℂ)).re = e k := by simp
    have ei : ((1 + Complex.I) * (e k : ℂ)).im = e k := by simp
    rw [er, ei, if_neg (by simp [h2])]
    simp [div_eq_mul_inv]

theorem sumsq_flat (z : ℕ → ℂ) : ((ks.flatMap fun k => [(z k).re / e k, (z k).im / e k]).map fun v => v ^ 2).sum =
    (ks.map fun k => ‖z k‖ ^ 2 / e k ^ 2).sum := by
  induction ks with
  | nil => rfl
  | cons k ks ih =>
    rw [List.flatMap_cons, List.map_append, List.sum_append, ih, List.map_cons, List.sum_cons]
    congr 1
    simp only [List.map_cons, List.map_nil, List.sum_cons, List.sum_nil, add_zero]
    rw [← Complex.normSq_eq_norm_sq, Complex.normSq_apply, div_pow, div_pow]
    ring

theorem flat_length (a b : ℕ → ℝ) : (ks.flatMap fun k => [a k, b k]).length = 2 * ks.length := by
  induction ks with
  | nil => rfl
  | cons k ks ih => rw [List.flatMap_cons, List.length_append, ih, List.length_cons]; simp; ring

theorem flat_getD (a b : ℕ → ℝ) {j : ℕ} (hj : j < ks.length) :
    (ks.flatMap fun k => [a k, b k]).getD (2 * j) 0 = a (ks.getD j 0) ∧
    (ks.flatMap fun k => [a k, b k]).getD (2 * j + 1) 0 = b (ks.getD j 0) := by
  induction ks generalizing j with
  | nil => simp at hj
  | cons k ks ih =>
    rw [List.flatMap_cons]
    cases j with
    | zero => simp
    | succ j =>
      have := ih (j := j) (by simpa using hj)
      rw [show 2 * (j + 1) = 2 * j + 1 + 1 by ring]
      simpa using this

theorem sum_getD (ψ : ℕ → ℝ) : ∑ j ∈ Finset.range ks.length, ψ (ks.getD j 0) = (ks.map ψ).sum := by
  induction ks with
  | nil => rfl
  | cons k ks ih =>
    rw [List.length_cons, Finset.sum_range_succ', List.map_cons, List.sum_cons, add_comm, ← ih]
    simp

theorem sum_filter (P : ℕ → Prop) [DecidablePred P] {n : ℕ} [NeZero n] (ψ : ℕ → ℝ) :
    (((List.range n).filter fun k => decide (P k)).map ψ).sum = ∑ k : ZMod n, if P k.val then ψ k.val else 0 := by
  rw [sum_val (fun k => if P k then ψ k else 0), ← Finset.sum_filter,
    ← List.sum_toFinset ψ (List.nodup_range.filter _)]
  congr 1
  ext k
  simp

end lists

section slopes
variable {d : ℕ} {ks : List ℕ} {m : ℕ → ℂ} {e : ℕ → ℝ} {g : (Fin d → ℝ) → ℕ → ℂ} {y : Fin d → ℝ}
  {res : List ℝ → Except Err (List ℝ)}

theorem slope_flat {g' : ℕ → (Fin d → ℝ) →L[ℝ] ℂ} (hg : ∀ k ∈ ks, HasFDerivAt (fun v => g v k) (g' k) y)
    (hres : ∀ᶠ v in 𝓝 y, res (List.ofFn v) = .ok (ks.flatMap fun k => [(m k - g v k).re / e k, (m k - g v k).im / e k]))
    (a : Fin d) {j : ℕ} (hj : j < ks.length) :
    slope res (List.ofFn y) (2 * j) a = -((g' (ks.getD j 0) (Pi.single a 1)).re / e (ks.getD j 0)) ∧
    slope res (List.ofFn y) (2 * j + 1) a = -((g' (ks.getD j 0) (Pi.single a 1)).im / e (ks.getD j 0)) := by
  have hk : ks.getD j 0 ∈ ks := by simp [hj]
  have hfl := fun v => flat_getD (ks := ks) (fun k => (m k - g v k).re / e k) (fun k => (m k - g v k).im / e k) hj
  generalize ks.getD j 0 = k at hk hfl
  have hup : HasDerivAt (Function.update y a) (Pi.single a 1) (y a) := hasDerivAt_update y a (y a)
  have hself : Function.update y a (y a) = y := Function.update_eq_self a y
  have h0 : HasFDerivAt (fun v => g v k) (g' k) (Function.update y a (y a)) := by rw [hself]; exact hg k hk
  have hFk : HasDerivAt (fun v => g (Function.update y a v) k) (g' k (Pi.single a 1)) (y a) :=
    h0.comp_hasDerivAt (y a) hup
  have hre : HasDerivAt (fun v => (g (Function.update y a v) k).re) (g' k (Pi.single a 1)).re (y a) :=
    Complex.reCLM.hasFDerivAt.comp_hasDerivAt (y a) hFk
  have him : HasDerivAt (fun v => (g (Function.update y a v) k).im) (g' k (Pi.single a 1)).im (y a) :=
    Complex.imCLM.hasFDerivAt.comp_hasDerivAt (y a) hFk
  have hev : ∀ᶠ v in 𝓝 (y a), res ((List.ofFn y).set a v) =
      .ok (ks.flatMap fun k => [(m k - g (Function.update y a v) k).re / e k, (m k - g (Function.update y a v) k).im / e k]) := by
    have := hup.continuousAt.tendsto
    rw [hself] at this
    filter_upwards [this.eventually hres] with v hv
    rw [ofFn_set, hv]
  have hget : (List.ofFn y).getD a 0 = y a := by simp
  unfold slope
  rw [hget]
  constructor
  · refine HasDerivAt.deriv (((((hasDerivAt_const (y a) ((m k).re)).fun_sub hre).div_const (e k)).congr_of_eventuallyEq ?_).congr_deriv ?_)
    · filter_upwards [hev] with v hv
      rw [hv]
      exact (hfl _).1
    · ring
  · refine HasDerivAt.deriv (((((hasDerivAt_const (y a) ((m k).im)).fun_sub him).div_const (e k)).congr_of_eventuallyEq ?_).congr_deriv ?_)
    · filter_upwards [hev] with v hv
      rw [hv]
      exact (hfl _).2
    · ring

theorem gram_flat {g' : ℕ → (Fin d → ℝ) →L[ℝ] ℂ} (hg : ∀ k ∈ ks, HasFDerivAt (fun v => g v k) (g' k) y)
    (hres : ∀ᶠ v in 𝓝 y, res (List.ofFn v) = .ok (ks.flatMap fun k => [(m k - g v k).re / e k, (m k - g v k).im / e k]))
    (a b : Fin d) : ∑ i ∈ Finset.range (2 * ks.length), slope res (List.ofFn y) i a * slope res (List.ofFn y) i b =
      (ks.map fun k => (starRingEnd ℂ (g' k (Pi.single a 1)) * g' k (Pi.single b 1)).re / e k ^ 2).sum := by
  rw [sum_pairs, ← sum_getD]
  refine Finset.sum_congr rfl fun j hj => ?_
  have hj := Finset.mem_range.1 hj
  obtain ⟨a1, a2⟩ := slope_flat hg hres a hj
  obtain ⟨b1, b2⟩ := slope_flat hg hres b hj
  rw [a1, a2, b1, b2, Complex.mul_re, Complex.conj_re, Complex.conj_im]
  ring

end slopes

/-- What the optimiser has returned is what is stored. -/
theorem stored_fit {x : Ext} {o o' : Obj} {p : Proc} {poles : ℤ} {c : Option ℝ} {r : Result}
    (h : dofit x { o with proc := some p } poles c = (.ok (), o')) (hr : fitresult o' poles = .found r)
    (hx : Minimises x.ls (fitPts p o.fs c)) :
    LocalBest (residual (fitPts p o.fs c)) r.params ∧ InverseGram (residual (fitPts p o.fs c)) r.params r.cov := by
  obtain ⟨n, q, rfl, -, h1, h2⟩ := dofit_run (o := { o with proc := some p }) rfl (by rw [h])
  rw [h] at h2
  simp only at h2
  rw [hr] at h2
  cases h2
  obtain ⟨A0, B0, C0, t1, t2, t3, dt, sub1, params, cov, cost, ft, -, hl, -, hf⟩ := runFit_ok h1
  obtain ⟨-, -, -, hl⟩ := leastSquares_ok hl
  have hm := hx (chosen n A0 B0 C0 t1 t2 t3 dt sub1).1 (chosen n A0 B0 C0 t1 t2 t3 dt sub1).2
  rw [← hl] at hm
  have e : r.params = params ∧ r.cov = cov := by
    unfold fitResult at hf
    split at hf
    · cases hf
    · split at hf
      · cases hf
      · cases hf; exact ⟨rfl, rfl⟩
  rw [e.1, e.2]
  exact ⟨hm.1, hm.2 _ rfl⟩

/-- The error bars of a fit, by bins. -/
theorem pts_flat {o : Obj} {n : ℕ} [NeZero n] {W Z : ZMod n → ℂ} {noise R : ZMod n → ℝ} {s : ℝ} {p : Proc} {c : Option ℝ}
    (hp : Averaged o W Z noise R s p) : open Classical in fitPts p o.fs c =
      ((List.range n).filter fun k : ℕ => decide (Below o.fs c (k : ZMod n))).map fun k : ℕ =>
        ⟨fftfreq o.fs (k : ZMod n), p.didvmean k, (1 + Complex.I) * ((if drive o (k : ZMod n) = 0 then 10 ^ 20
          else s * (Real.sqrt (n * (fftR R (k : ZMod n)).re / 2) / ‖drive o (k : ZMod n)‖) : ℝ) : ℂ)⟩ := by
  classical
  unfold fitPts
  rw [hp.bins]
  have hv : ∀ k ∈ List.range n, ((k : ZMod n)).val = k := fun k hk => ZMod.val_natCast_of_lt (List.mem_range.1 hk)
  have hf : ∀ k ∈ List.range n, freqAt n o.fs k = fftfreq o.fs (k : ZMod n) := fun k hk => by
    rw [← freqAt_eq, hv k hk]
  have e1 : ((List.range n).filter fun k => decide (∀ v ∈ c, |freqAt n o.fs k| < v)) =
      (List.range n).filter fun k : ℕ => decide (Below o.fs c (k : ZMod n)) := by
    refine List.filter_congr fun k hk => ?_
    rw [hf k hk]
    exact decide_eq_decide.2 Iff.rfl
  rw [e1]
  refine List.map_congr_left fun k hk => ?_
  have hk := (List.mem_filter.1 hk).1
  rw [hf k hk]
  congr 1
  by_cases h0 : drive o (k : ZMod n) = 0
  · rw [if_pos h0]
    have := (hp.rest _ h0).2
    rw [hv k hk] at this
    rw [this]
    push_cast
    rfl
  · rw [if_neg h0]
    have := hp.err _ h0
    rw [hv k hk] at this
    exact this

theorem close_tendsto {d : ℕ} {x₀ : Fin d → ℝ} {x : ℝ → List ℝ} {l : Filter ℝ}
    (h : ∀ ε : ℝ, 0 < ε → ∀ᶠ s in l, Close ε (x s) (List.ofFn x₀)) :
    Tendsto (fun s (i : Fin d) => (x s).getD i 0) l (𝓝 x₀) ∧ ∀ᶠ s in l, x s = List.ofFn fun i : Fin d => (x s).getD i 0 := by
  have hlen : ∀ {ε s}, Close ε (x s) (List.ofFn x₀) → (x s).length = d := fun h => by simpa using h.length_eq
  constructor
  · refine tendsto_pi_nhds.2 fun i => Metric.tendsto_nhds.2 fun ε hε => ?_
    filter_upwards [h ε hε] with s hs
    have h1 := hlen hs
    have h2 := (List.forall₂_iff_get.1 hs).2 i (by rw [h1]; exact i.2) (by simp)
    rw [Real.dist_eq]
    simpa [h1] using h2
  · filter_upwards [h 1 one_pos] with s hs
    have h1 := hlen hs
    refine List.ext_getElem (by simp [h1]) fun i h2 h3 => ?_
    simp [h2]

theorem drive_neg (o : Obj) {n : ℕ} [NeZero n] {k : ZMod n} (hk : drive o k ≠ 0) (hk' : drive o (-k) ≠ 0) :
    drive o (-k) = starRingEnd ℂ (drive o k) ∧ 2 * k.val ≠ n := by
  unfold drive at *
  have h1 : k.val ≠ n / 2 := fun h => hk (if_pos h)
  have h2 : (-k).val ≠ n / 2 := fun h => hk' (if_pos h)
  have h3 : 2 * k.val ≠ n := by omega
  exact ⟨by rw [if_neg h1, if_neg h2, sqWave_neg _ _ _ _ _ _ h3], h3⟩

/-- The error bars of the bins below the cut-off with drive, for noise of size one. -/
noncomputable def errOf (o : Obj) {n : ℕ} [NeZero n] (c : Option ℝ) (R : ZMod n → ℝ) (k : ZMod n) : ℝ :=
  open Classical in if Below o.fs c k ∧ drive o k ≠ 0 then Real.sqrt (n * (fftR R k).re / 2) / ‖drive o k‖ else 0

/-- The error bars of the bins below the cut-off without drive. -/
noncomputable def errRest (o : Obj) {n : ℕ} [NeZero n] (c : Option ℝ) (k : ZMod n) : ℝ :=
  open Classical in if Below o.fs c k ∧ drive o k = 0 then 10 ^ 20 else 0

theorem errOf_ne {o : Obj} {n : ℕ} [NeZero n] {c : Option ℝ} {R : ZMod n → ℝ} {k : ZMod n} (hk : errOf o c R k ≠ 0) :
    Below o.fs c k ∧ drive o k ≠ 0 := by
  by_contra hc
  exact hk (if_neg hc)

theorem errOf_pos {o : Obj} {n : ℕ} [NeZero n] {c : Option ℝ} {R : ZMod n → ℝ} (hm : Mirrored o c R) {k : ZMod n}
    (hk : Below o.fs c k ∧ drive o k ≠ 0) : 0 < errOf o c R k := by
  have hn : (0 : ℝ) < n := by exact_mod_cast NeZero.pos n
  have := (hm k hk.1 hk.2).2
  have h3 := norm_pos_iff.2 hk.2
  unfold errOf
  rw [if_pos hk]
  positivity

/-- Sums over the points are sums over the bins. -/
theorem bins_of {o : Obj} {n : ℕ} [NeZero n] {W Z : ZMod n → ℂ} {noise R : ZMod n → ℝ} {s : ℝ} {p : Proc} {c : Option ℝ}
    (hm : Mirrored o c R) (hs0 : 0 < s) (hp : Averaged o W Z noise R s p) : ∃ (ks : List ℕ) (e : ℕ → ℝ), (∀ k ∈ ks, e k ≠ 0) ∧
      fitPts p o.fs c = (ks.map fun k : ℕ => ⟨fftfreq o.fs (k : ZMod n), p.didvmean k, (1 + Complex.I) * (e k : ℂ)⟩) ∧
      (∀ ψ : ZMod n → ℝ, (ks.map fun k : ℕ => ψ (k : ZMod n) / e k ^ 2).sum =
        ∑ k, ψ k / (s * errOf o c R k) ^ 2 + ∑ k, ψ k / errRest o c k ^ 2) ∧
      ∀ F : ZMod n → ℂ, ((ks.flatMap fun k : ℕ => [(p.didvmean k - F (k : ZMod n)).re / e k, (p.didvmean k - F (k : ZMod n)).im / e k]).map
        fun v => v ^ 2).sum = ∑ k, ‖W k + s * (fftR noise k / drive o k) - F k‖ ^ 2 / (s * errOf o c R k) ^ 2 +
        ∑ k, ‖Z k - F k‖ ^ 2 / errRest o c k ^ 2 := by
  classical
  set σ : ZMod n → ℝ := fun k => Real.sqrt (n * (fftR R k).re / 2) / ‖drive o k‖ with hσ
  set e : ℕ → ℝ := fun k => if drive o (k : ZMod n) = 0 then 10 ^ 20 else s * σ (k : ZMod n) with he
  set ks := (List.range n).filter fun k : ℕ => decide (Below o.fs c (k : ZMod n)) with hks
  have hsum : ∀ ψ : ZMod n → ℝ, (ks.map fun k : ℕ => ψ (k : ZMod n) / e k ^ 2).sum =
      ∑ k, ψ k / (s * errOf o c R k) ^ 2 + ∑ k, ψ k / errRest o c k ^ 2 := by
    intro ψ
    rw [hks, sum_filter (fun k : ℕ => Below o.fs c (k : ZMod n)), ← Finset.sum_add_distrib]
    refine Finset.sum_congr rfl fun k _ => ?_
    simp only [ZMod.natCast_zmod_val, he, errOf, errRest]
    by_cases h1 : Below o.fs c k <;> by_cases h2 : drive o k = 0 <;> simp [h1, h2, hσ]
  refine ⟨ks, e, fun k hk => ?_, pts_flat hp, hsum, fun F => ?_⟩
  · have hb : Below o.fs c (k : ZMod n) := by simpa using (List.mem_filter.1 hk).2
    simp only [he]
    split_ifs with h0
    · norm_num
    · have := errOf_pos hm ⟨hb, h0⟩
      unfold errOf at this
      rw [if_pos ⟨hb, h0⟩] at this
      exact (mul_pos hs0 this).ne'
  · rw [sumsq_flat]
    have h1 : (ks.map fun k : ℕ => ‖p.didvmean k - F (k : ZMod n)‖ ^ 2 / e k ^ 2) =
        ks.map fun k : ℕ => ‖p.didvmean ((k : ZMod n)).val - F (k : ZMod n)‖ ^ 2 / e k ^ 2 := by
      refine List.map_congr_left fun k hk => ?_
      rw [ZMod.val_natCast_of_lt (List.mem_range.1 (List.mem_filter.1 hk).1)]
    rw [h1, hsum fun k => ‖p.didvmean k.val - F k‖ ^ 2]
    congr 1
    · refine Finset.sum_congr rfl fun k _ => ?_
      by_cases hk : errOf o c R k = 0
      · simp [hk]
      · rw [hp.mean k (errOf_ne hk).2]
    · refine Finset.sum_congr rfl fun k _ => ?_
      by_cases hk : Below o.fs c k ∧ drive o k = 0
      · rw [(hp.rest k hk.2).1]
      · have : errRest o c k = 0 := if_neg hk
        simp [this]

/-- Fits of a smooth family of responses. -/
theorem doubled_of {o : Obj} {n : ℕ} [NeZero n] {W : ZMod n → ℂ} {c : Option ℝ} {poles : ℤ} {d : ℕ}
    {G : ℝ → (Fin d → ℝ) → ℂ} {x₀ : Fin d → ℝ}
    (hG : ∀ k : ZMod n, (∀ᶠ v in 𝓝 x₀, fitY (fftfreq o.fs k) (List.ofFn v) = .ok (G (fftfreq o.fs k) v)) ∧
      ContDiffAt ℝ 1 (G (fftfreq o.fs k)) x₀)
    (hconj : ∀ f v, G (-f) v = starRingEnd ℂ (G f v)) (hW : ∀ k : ZMod n, G (fftfreq o.fs k) x₀ = W k)
    (hinj : ∀ u, (∀ k : ZMod n, Below o.fs c k → drive o k ≠ 0 → fderiv ℝ (G (fftfreq o.fs k)) x₀ u = 0) → u = 0)
    {Ω : Type*} [MeasurableSpace Ω] {μ : Measure Ω} [IsProbabilityMeasure μ] {noise : Ω → ZMod n → ℝ} {R : ZMod n → ℝ}
    (hst : OF.Stationary μ noise R) (hm : Mirrored o c R) {r : Ω → ℝ → Result}
    (h : Approaching o W noise R poles c (List.ofFn x₀) r) : Doubled μ d (List.ofFn x₀) r := by
  classical
  have hn : (0 : ℝ) < n := by exact_mod_cast NeZero.pos n
  set F : (Fin d → ℝ) → ZMod n → ℂ := fun v k => G (fftfreq o.fs k) v with hFdef
  have hF : ContDiffAt ℝ 1 F x₀ := contDiffAt_pi.2 fun k => (hG k).2
  have hfd : ∀ k u, fderiv ℝ F x₀ u k = fderiv ℝ (G (fftfreq o.fs k)) x₀ u := by
    intro k u
    have h1 := hasFDerivAt_pi'.1 (hF.differentiableAt (by simp)).hasFDerivAt k
    exact (congrArg (fun L : (Fin d → ℝ) →L[ℝ] ℂ => L u) h1.fderiv).symm
  set err : ZMod n → ℝ := errOf o c R with herr
  set errT : ZMod n → ℝ := errRest o c with herrT
  have hbel : ∀ k : ZMod n, Below o.fs c (-k) ↔ Below o.fs c k := by
    intro k
    have : |fftfreq o.fs (-k)| = |fftfreq o.fs k| := by
      rw [← Real.sqrt_sq_eq_abs, ← Real.sqrt_sq_eq_abs, Sim.fftfreq_neg_sq]
    unfold Below
    rw [this]
  have hmir : ∀ k : ZMod n, (Below o.fs c (-k) ∧ drive o (-k) ≠ 0) ↔ (Below o.fs c k ∧ drive o k ≠ 0) := by
    intro k
    constructor
    · rintro ⟨h1, h2⟩
      have := (hm _ h1 h2).1
      rw [neg_neg] at this
      exact ⟨(hbel k).1 h1, this⟩
    · rintro ⟨h1, h2⟩
      exact ⟨(hbel k).2 h1, (hm _ h1 h2).1⟩
  have herr0 : ∀ k, err k ≠ 0 → Below o.fs c k ∧ drive o k ≠ 0 := fun k hk => errOf_ne hk
  have hneg : ∀ k, Below o.fs c k ∧ drive o k ≠ 0 → drive o (-k) = starRingEnd ℂ (drive o k) ∧ 2 * k.val ≠ n := fun k hk =>
    drive_neg o hk.2 ((hmir k).2 hk).2
  have heven : ∀ k, err (-k) = err k := by
    intro k
    unfold err errOf
    by_cases hk : Below o.fs c k ∧ drive o k ≠ 0
    · rw [if_pos hk, if_pos ((hmir k).2 hk), (psd_even hst k).1, (hneg k hk).1, RCLike.norm_conj]
    · rw [if_neg hk, if_neg (fun h => hk ((hmir k).1 h))]
  have hcore := doubled_core (F := F) (x₀ := x₀) (err := err) (errT := errT) hF heven (b := drive o) (μ := μ) (noise := noise)
    (R := R) (x := fun ω s => (r ω s).params) (cov := fun ω s i j => ((r ω s).cov.getD i []).getD j 0)
    (fun k hk => ?_) (fun u hu => hinj u fun k h1 h2 => ?_) (fun k hk => ?_) hst (fun k hk => ?_) (fun ω => ?_)
  · obtain ⟨D, C, a1, a2, a3, a4, a5, a6⟩ := hcore
    refine ⟨D, C, ⟨fun ω i => ?_, a2⟩, a3, a4, a5, a6⟩
    simpa using a1 ω i
  · refine Eventually.of_forall fun v => ?_
    have h3 := (hneg k (herr0 k hk)).2
    have : fftfreq o.fs (-k) = -fftfreq o.fs k := by
      unfold fftfreq
      rw [freqIdx_neg k h3]
      push_cast
      ring
    simp only [hFdef, this, hconj]
  · rw [← hfd]
    exact hu k (errOf_pos hm ⟨h1, h2⟩).ne'
  · exact ⟨(herr0 k hk).2, (hneg k (herr0 k hk)).1⟩
  · have h1 := herr0 k hk
    have h2 := (hm k h1.1 h1.2).2
    have h3 := norm_pos_iff.2 h1.2
    unfold err errOf
    rw [if_pos h1, div_pow, Real.sq_sqrt (by positivity)]
    field_simp
  · obtain ⟨Z, hev⟩ := h.1 ω
    obtain ⟨hy, hlist⟩ := close_tendsto (h.2 ω)
    refine ⟨fun s i => (r ω s).params.getD i 0, Z, hy, ?_⟩
    have hok : ∀ᶠ v in 𝓝 x₀, (∀ k : ZMod n, fitY (fftfreq o.fs k) (List.ofFn v) = .ok (F v k)) ∧ ContDiffAt ℝ 1 F v := by
      refine (Filter.eventually_all.2 fun k => (hG k).1).and (hF.eventually (by simp))
    filter_upwards [hev, hlist, hy.eventually hok.eventually_nhds, self_mem_nhdsWithin] with s hs hl hnb hs0
    have hs0 : 0 < s := hs0
    generalize (fun i : Fin d => (r ω s).params.getD i 0) = y at hl hnb
    obtain ⟨x, o', p, hp, hx, hdo, hfr⟩ := hs
    obtain ⟨hbest, hcov⟩ := stored_fit hdo hfr hx
    obtain ⟨ks, e, he0, hpts, hsum, hval⟩ := bins_of hm hs0 hp
    rw [hpts] at hbest hcov
    have hres : ∀ᶠ v in 𝓝 y, Didv.residual (ks.map fun k : ℕ => ⟨fftfreq o.fs (k : ZMod n), p.didvmean k, (1 + Complex.I) * (e k : ℂ)⟩) (List.ofFn v) =
        .ok (ks.flatMap fun k => [(p.didvmean k - F v (k : ZMod n)).re / e k, (p.didvmean k - F v (k : ZMod n)).im / e k]) := by
      filter_upwards [hnb] with v hv
      exact residual_flat he0 fun k _ => hv.1 _
    set res := Didv.residual (ks.map fun k : ℕ => ⟨fftfreq o.fs (k : ZMod n), p.didvmean k, (1 + Complex.I) * (e k : ℂ)⟩) with hresdef
    have hW' : W = F x₀ := funext fun k => (hW k).symm
    simp only [hW'] at hval
    refine ⟨hl, ?_, fun a b => ?_⟩
    · obtain ⟨rx, hrx, δ, hδ, hmin⟩ := hbest
      rw [hl] at hrx hmin
      rw [hres.self_of_nhds] at hrx
      cases hrx
      have hball : ∀ᶠ v in 𝓝 y, Close δ (List.ofFn v) (List.ofFn y) := by
        filter_upwards [Metric.ball_mem_nhds y hδ] with v hv
        refine List.forall₂_iff_get.2 ⟨by simp, fun i h1 h2 => ?_⟩
        have h3 := (dist_le_pi_dist v y ⟨i, by simpa using h1⟩).trans_lt (Metric.mem_ball.1 hv)
        simpa [Real.dist_eq] using h3
      filter_upwards [hball, hres] with v hv hrv
      have := hmin _ _ hv hrv
      rw [hval, hval] at this
      exact this
    · obtain ⟨rx, hrx, M, hM, -, hc⟩ := hcov
      have hlen : (r ω s).params.length = d := by rw [hl]; simp
      have hc' : ((r ω s).cov.getD a []).getD b 0 = M⁻¹ (Fin.cast hlen.symm a) (Fin.cast hlen.symm b) := hc (Fin.cast hlen.symm a) (Fin.cast hlen.symm b)
      rw [hc']
      have hrl : rx.length = 2 * ks.length := by
        rw [hl, hres.self_of_nhds] at hrx
        cases hrx
        exact flat_length _ _
      set g' : ℕ → (Fin d → ℝ) →L[ℝ] ℂ := fun k => (ContinuousLinearMap.proj (R := ℝ) (k : ZMod n)).comp (fderiv ℝ F y) with hg'
      have hgd : ∀ k ∈ ks, HasFDerivAt (fun v => F v (k : ZMod n)) (g' k) y := fun k _ =>
        hasFDerivAt_pi'.1 ((hnb.self_of_nhds.2).differentiableAt (by simp)).hasFDerivAt (k : ZMod n)
      have hMs : M.submatrix (finCongr hlen.symm) (finCongr hlen.symm) = (s ^ 2)⁻¹ • (gram err fun j => fderiv ℝ F y (Pi.single j 1)) +
          gram errT fun j => fderiv ℝ F y (Pi.single j 1) := by
        ext i j
        rw [Matrix.submatrix_apply, hM, hrl]
        have h1 := gram_flat (m := p.didvmean) hgd hres i j
        have h2 : ∀ (l : ℕ) (i : Fin d), slope res (r ω s).params l i = slope res (List.ofFn y) l i := by
          intro l i; rw [hl]
        have h3 : ∑ l ∈ Finset.range (2 * ks.length), slope res (r ω s).params l i * slope res (r ω s).params l j =
            ∑ k, (starRingEnd ℂ (fderiv ℝ F y (Pi.single i 1) k) * fderiv ℝ F y (Pi.single j 1) k).re / (s * err k) ^ 2 +
            ∑ k, (starRingEnd ℂ (fderiv ℝ F y (Pi.single i 1) k) * fderiv ℝ F y (Pi.single j 1) k).re / errT k ^ 2 := by
          simp only [h2]
          exact h1.trans (hsum fun k => (starRingEnd ℂ (fderiv ℝ F y (Pi.single i 1) k) * fderiv ℝ F y (Pi.single j 1) k).re)
        refine h3.trans ?_
        rw [Matrix.add_apply, Matrix.smul_apply, smul_eq_mul]
        unfold gram
        congr 1
        rw [Finset.mul_sum]
        refine Finset.sum_congr rfl fun k _ => ?_
        rw [mul_pow]
        field_simp
      have hinv := Matrix.inv_submatrix_equiv M (finCongr hlen.symm) (finCongr hlen.symm)
      rw [← hMs, hinv]
      rfl

end Verif.Device
