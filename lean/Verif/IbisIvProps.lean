import Verif.IbisIvLemmas

/-! C109: the two IV analyses agree. -/

namespace Verif.Ibis
open Verif LineFit
open Verif.Iv (A1 A2 A3 Nd ValErr)

/-- IV, given the bias voltages across the shunt and the load resistance which IBIS finds (or is told),
returns the offset, the resistances, the currents and the powers of IBIS, whatever error bars it is given.  At
zero TES current IBIS gives the power zero and IV nothing. -/
theorem iv_agrees {o : Obj} {res : Result} (h : analyze o .none .none = .ok res) (hr : o.rsh ≠ 0)
    (h2 : 0 < o.data.n2) (vbErr rloadErr : ℝ) :
    ∃ iv, Iv.calcIv (toIv o res vbErr rloadErr) = .ok iv ∧ ∀ t < o.data.n0, ∀ c < o.data.n1,
      iv.ioff t c = (res.ioff t c).val ∧ iv.rfit t c = (res.rfit t c).val ∧
      iv.rnorm t c = (res.rnorm t c).val ∧ ∀ i,
        iv.ites t c i = (res.ites t c i).map ValErr.val ∧ iv.r0 t c i = (res.r0 t c i).map ValErr.val ∧
        ((res.ites t c i).map ValErr.val ≠ some 0 → iv.ptes t c i = (res.ptes t c i).map ValErr.val) := by
  have hfit : ∀ t < o.data.n0, ∀ c < o.data.n1, _ := fun t ht c hc => toIv_rowFit h hr vbErr rloadErr ht hc
  have hfits : ∃ fits, (toIv o res vbErr rloadErr).fits = .ok fits := by
    refine mapM_all fun t ht => mapM_all fun c hc => ?_
    obtain ⟨f, hf, _⟩ := hfit t (List.mem_range.1 ht) c (List.mem_range.1 hc)
    exact ⟨f, hf⟩
  obtain ⟨fits, hfits⟩ := hfits
  have hat : ∀ t < o.data.n0, ∀ c < o.data.n1,
      ((fits.getD t []).getD c ⟨0, 0, 0, 0⟩).ioff = (res.ioff t c).val ∧
      ((fits.getD t []).getD c ⟨0, 0, 0, 0⟩).rfit = (res.rfit t c).val := by
    intro t ht c hc
    have e := Iv.mapM_range (d := ⟨0, 0, 0, 0⟩) (Iv.mapM_range (d := []) hfits ht) hc
    obtain ⟨f, hf, h1, h2⟩ := hfit t ht c hc
    have : Except.ok f = Except.ok ((fits.getD t []).getD c ⟨0, 0, 0, 0⟩) := hf.symm.trans e
    cases this
    exact ⟨h1, h2⟩
  obtain ⟨nf, sf, src, ioff, ibo, rp, h1, _, h3, _, rfl⟩ := analyze_ok h
  unfold offsets at h3
  cases h3
  unfold Iv.calcIv
  rw [hfits]
  simp only [toIv, assemble] at hat ⊢
  rw [if_neg h2.ne']
  refine ⟨_, rfl, fun t ht c hc => ?_⟩
  obtain ⟨a1, a2⟩ := hat t ht c hc
  refine ⟨a1, a2, ?_, fun i => ?_⟩
  · simp only [a2]
    ring
  · simp only [a1]
    cases o.data.get t c i with
    | none => simp
    | some r =>
      simp only [Option.map_some, Option.bind_some]
      refine ⟨trivial, ?_, ?_⟩
      · split_ifs with h0
        · rfl
        · simp only [Option.map_some, rtes]
      · intro h0
        have h0' : r.dites - intY o.fitsc (fitAt nf t c) (fitAt sf t c) ≠ 0 := fun e => h0 (by rw [e])
        rw [if_neg h0']
        simp only [Option.map_some, ptes]
        congr 1
        field_simp

/-- The hypotheses are met with and without the superconducting fit. -/
example : (∃ res, analyze (demo true none) .none .none = .ok res) ∧
    (∃ res, analyze (demo false (some (.d3 ⟨1, 1, 6, fun _ _ _ => ⟨0, 0⟩⟩))) .none .none = .ok res) ∧
    (demo true none).rsh ≠ 0 ∧ 0 < (demo true none).data.n2 := by
  obtain ⟨r, h, _⟩ := demo_sc none
  obtain ⟨r', h', _⟩ := demo_nosc ⟨0, 0⟩
  exact ⟨⟨r, h⟩, ⟨r', h'⟩, by norm_num [demo], by norm_num [demo]⟩

end Verif.Ibis
