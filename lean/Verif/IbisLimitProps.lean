import Verif.IbisLimitEx

/-! Property C149: IBIS results of noisy readings. -/

namespace Verif.Ibis
open Verif LineFit MeasureTheory ProbabilityTheory Filter Topology
open Verif.Iv (A3 Nd ValErr)

variable {Ω : Type*} [MeasurableSpace Ω] {μ : Measure Ω} {o : Obj}

/-- **C149.**  All results of `analyze`, with or without superconducting fit and with default or given offsets, depend
continuously on the readings, their errors, the shunt resistance and the given parasitic resistance. -/
theorem ibis_continuous {ι : Type*} {L : Filter ι} {O : ι → Obj} (hO : Approach L O o) {y x : Off} {res : Result}
    (h : analyze o y x = .ok res) :
    ∃ Rs : ι → Result, (∀ᶠ i in L, analyze (O i) y x = .ok (Rs i)) ∧ Settles L o Rs res :=
  analyze_settles hO h

/-- **C149.**  With currents averaged over more and more repetitions the results approach those for the true currents;
if these follow the bias circuit, they are the offsets and resistances of the circuit. -/
theorem ibis_consistent [IsFiniteMeasure μ] {y x : Off} {res : Result} (h : analyze o y x = .ok res)
    {w : ℕ → Ω → ℕ → ℕ → ℕ → ℝ} (hw : ∀ t c k, Repeats μ fun i ω => w i ω t c k) :
    ∀ᵐ ω ∂μ, ∃ Rs : ℕ → Result,
      (∀ᶠ m : ℕ in atTop, analyze (o.noisy fun t c k => (∑ i ∈ Finset.range m, w i ω t c k) / m) y x = .ok (Rs m)) ∧
      Settles atTop o Rs res ∧
      ∀ t c inds ioff ibiasOff rp rn, o.fitsc = true → y = .none → x = .none → t < o.data.n0 → c < o.data.n1 →
        o.scinds = some inds → o.rsh ≠ 0 → o.rsh + rp ≠ 0 → o.rsh + rp + rn ≠ 0 →
        FollowsCircuit o t c o.normalinds ioff ibiasOff (o.rsh + rp + rn) → FollowsCircuit o t c inds ioff ibiasOff (o.rsh + rp) →
        Tendsto (fun m => ((Rs m).ioff t c).val) atTop (𝓝 ioff) ∧ Tendsto (fun m => ((Rs m).ibiasOff t c).val) atTop (𝓝 ibiasOff) ∧
        Tendsto (fun m => ((Rs m).rp t c).val) atTop (𝓝 rp) ∧ Tendsto (fun m => ((Rs m).rnorm t c).val) atTop (𝓝 rn) := by
  have h1 : ∀ᵐ ω ∂μ, ∀ t c k, Tendsto (fun m : ℕ => (∑ i ∈ Finset.range m, w i ω t c k) / m) atTop (𝓝 0) := by
    rw [ae_all_iff]
    intro t
    rw [ae_all_iff]
    intro c
    rw [ae_all_iff]
    intro k
    exact Iv.repeats_average (hw t c k)
  filter_upwards [h1] with ω hω
  obtain ⟨Rs, hRs, hS⟩ := analyze_settles (noisy_approach (o := o) (v := fun m t c k => (∑ i ∈ Finset.range m, w i ω t c k) / (m : ℝ)) hω) h
  refine ⟨Rs, hRs, hS, fun t c inds ioff ibiasOff rp rn hsc hy hx ht hc hi hr hp hn f1 f2 => ?_⟩
  subst hy hx
  obtain ⟨e1, e2, e3, e4⟩ := analyze_recovers hsc h ht hc hi hr hp hn f1 f2
  obtain ⟨-, -, -, -, s1, s2, -, s3, s4⟩ := hS.fit t ht c hc
  rw [← e1, ← e2, ← e3, ← e4]
  exact ⟨s1.1, s2.1, s3.1, s4.1⟩

/-- The hypotheses are met by the two-branch example, measured again and again: offsets (1, 1), parasitic resistance 0,
normal resistance 1. -/
example : (∃ res, analyze (demo true none) .none .none = .ok res) ∧
    (∀ t c k, Repeats (Device.rounds 6) fun i ω => (fun (_ _ k : ℕ) => Device.jolt 6 2 (ω i) k) t c k) ∧
    FollowsCircuit (demo true none) 0 0 (demo true none).normalinds 1 1 ((demo true none).rsh + 0 + 1) ∧
    FollowsCircuit (demo true none) 0 0 [3, 4, 5] 1 1 ((demo true none).rsh + 0) := by
  obtain ⟨res, hres, -⟩ := demo_sc none
  refine ⟨⟨res, hres⟩, fun t c k => ?_, demo_follows.1, demo_follows.2⟩
  have h := Device.rounds_run 6 2
  refine ⟨(h.stationary.sq_int k).integrable one_le_two, h.stationary.mean k, fun i j hij => ?_, fun i => ?_⟩
  · exact (h.independent hij).comp (measurable_pi_apply (k : ZMod 6)) (measurable_pi_apply (k : ZMod 6))
  · exact (h.alike i).comp (measurable_pi_apply (k : ZMod 6))

/-- **C149.**  The slopes and intercepts of both lines are right on average. -/
theorem ibis_lines_unbiased [IsProbabilityMeasure μ] {t c : ℕ} (ht : t < o.data.n0) (hc : c < o.data.n1)
    {w : Ω → ℕ → ℕ → ℕ → ℝ} {res : Ω → Result} {y x : Off} (hw : Scatter μ (fun ω => w ω t c) (o.errs t c) o.data.n2)
    (hok : ∀ᵐ ω ∂μ, analyze (o.noisy (w ω)) y x = .ok (res ω)) {m b : ℝ} (hJ : (o.normalinds.map (place o.data.n2)).Nodup)
    (hN : OnLine o t c o.normalinds m b) :
    (∫ ω, (res ω).slopeN t c ∂μ = m ∧ ∫ ω, (res ω).intN t c ∂μ = b) ∧
    ∀ inds m' b', o.fitsc = true → o.scinds = some inds → (inds.map (place o.data.n2)).Nodup → OnLine o t c inds m' b' →
      ∫ ω, (res ω).slopeSc t c ∂μ = m' ∧ ∫ ω, (res ω).intSc t c ∂μ = b' := by
  have key : ∀ (inds : List ℤ) (F : Ω → List (List Fit)) (m b : ℝ), (inds.map (place o.data.n2)).Nodup → OnLine o t c inds m b →
      (∀ᵐ ω ∂μ, (o.noisy (w ω)).fits inds = .ok (F ω)) →
      ∫ ω, (fitAt (F ω) t c).m ∂μ = m ∧ ∫ ω, (fitAt (F ω) t c).b ∂μ = b := by
    intro inds F m b hJ hl hF
    have hn := hF.mono fun ω hω => noisy_fits hJ ht hc hl hω
    obtain ⟨ω0, hlt, -⟩ := hn.exists
    have hlt' : ∀ j ∈ (inds.map (place o.data.n2)).toFinset, j < o.data.n2 := fun j hj => hlt j (List.mem_toFinset.1 hj)
    have mean : ∀ (a : ℕ → ℝ) (v : ℝ), ∫ ω, (v + ∑ j ∈ (inds.map (place o.data.n2)).toFinset, a j * w ω t c j) ∂μ = v := by
      intro a v
      rw [integral_add (integrable_const v) ((scatter_sum hw hlt' a).1.integrable one_le_two), scatter_mean hw hlt' a]
      simp
    constructor
    · rw [integral_congr_ae (hn.mono fun ω hω => hω.2.2.2.2)]
      exact mean _ m
    · rw [integral_congr_ae (hn.mono fun ω hω => hω.2.2.2.1)]
      exact mean _ b
  have hdec : ∀ ω, ∃ nf sf, analyze (o.noisy (w ω)) y x = .ok (res ω) → (o.noisy (w ω)).fits o.normalinds = .ok nf ∧
      (res ω).slopeN t c = (fitAt nf t c).m ∧ (res ω).intN t c = (fitAt nf t c).b ∧
      (res ω).slopeSc t c = (fitAt sf t c).m ∧ (res ω).intSc t c = (fitAt sf t c).b ∧
      ∀ inds, o.fitsc = true → o.scinds = some inds → (o.noisy (w ω)).fits inds = .ok sf := by
    intro ω
    by_cases h : analyze (o.noisy (w ω)) y x = .ok (res ω)
    · obtain ⟨nf, sf, src, ioff, ibo, rp, h1, h2, h3, h4, e⟩ := analyze_ok h
      refine ⟨nf, sf, fun _ => ⟨h1, ?_, ?_, ?_, ?_, fun inds hsc hi => ?_⟩⟩
      · rw [e]; rfl
      · rw [e]; rfl
      · rw [e]; rfl
      · rw [e]; rfl
      · obtain ⟨inds', hi', hf, -⟩ := scFits_fit (o := o.noisy (w ω)) hsc h2
        have : some inds = some inds' := hi.symm.trans hi'
        cases this
        exact hf
    · exact ⟨[], [], fun h' => absurd h' h⟩
  choose nf sf hdec using hdec
  have hd := hok.mono fun ω hω => hdec ω hω
  constructor
  · obtain ⟨k1, k2⟩ := key o.normalinds nf m b hJ hN (hd.mono fun ω hω => hω.1)
    rw [integral_congr_ae (hd.mono fun ω hω => hω.2.1), integral_congr_ae (hd.mono fun ω hω => hω.2.2.1)]
    exact ⟨k1, k2⟩
  · intro inds m' b' hsc hi hJ' hS
    obtain ⟨k1, k2⟩ := key inds sf m' b' hJ' hS (hd.mono fun ω hω => hω.2.2.2.2.2 inds hsc hi)
    rw [integral_congr_ae (hd.mono fun ω hω => hω.2.2.2.1), integral_congr_ae (hd.mono fun ω hω => hω.2.2.2.2.1)]
    exact ⟨k1, k2⟩

/-- It applies to a measurement of both branches. -/
example : ∃ res : Bool × ZMod 6 → Result, (∀ᵐ ω ∂Device.throws 6, analyze (bench.noisy (shake ω)) .none .none = .ok (res ω)) ∧
    ∫ ω, (res ω).slopeN 0 0 ∂Device.throws 6 = 1 / 2 ∧ ∫ ω, (res ω).slopeSc 0 0 ∂Device.throws 6 = 1 := by
  choose res hres using fun ω : Bool × ZMod 6 => bench_ok (v := shake ω) (shake_small ω)
  obtain ⟨h1, h2⟩ := ibis_lines_unbiased (o := bench) Nat.one_pos Nat.one_pos bench_scatter (Eventually.of_forall hres) (by decide) bench_lines.1
  exact ⟨res, Eventually.of_forall hres, h1.1, (h2 [3, 4, 5] 1 0 rfl rfl (by decide) bench_lines.2).1⟩

end Verif.Ibis
