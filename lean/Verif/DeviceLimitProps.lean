import Verif.DeviceLimitLemmas

/-! Property C146: with more traces a dI/dV fit finds the device. -/

namespace Verif.Device
open Verif Verif.Dft Verif.Didv Filter Topology MeasureTheory

variable {Ω : Type*} [MeasurableSpace Ω] {μ : Measure Ω} [IsProbabilityMeasure μ] {o : Obj} {n : ℕ} [NeZero n]
  {tr : ZMod n → ℝ} {W : ZMod n → ℂ} {trace : ℕ → Ω → ℕ → ℝ} {noise : ℕ → Ω → ZMod n → ℝ} {R : ZMod n → ℝ}

/-- **C146.**  Two poles: with probability one, from some number of traces on, every fit which gets at least as low as
the truth has stored small signal parameters within `ε` of those of the device. -/
theorem two_pole_consistent (h : Campaign μ o tr W trace noise R) {psd : ZMod n → ℝ}
    (hR : OF.HasPsd R o.fs fun k => (psd k : WithTop ℝ)) (hfs : 0 < o.fs) (hpos : ∀ k, drive o k ≠ 0 → 0 < psd k)
    {beta l L tau0 dt f0 : ℝ} (hd : Physical (o.rsh + o.rp) o.r0 beta l L tau0)
    (hW : Delayed o.fs W (fun f => complexadmittance f (transition o.rsh o.rp o.r0 beta l L tau0)) dt)
    (hh : Driven o n f0 8) {ε : ℝ} (hε : 0 < ε) :
    ∀ᵐ ω ∂μ, ∀ᶠ m in atTop, ∀ (x : Ext) (c : Option ℝ) (p : Proc) (r : Result),
      let o' := (processtraces (first o (fun i => trace i ω) m)).2
      Sound x.ls → o'.proc = some p → (dofit x o' 2 c).1 = .ok () → fitresult (dofit x o' 2 c).2 2 = .found r →
      (∀ v ∈ c, 15 * |f0| < v) → 2 * r.cost ≤ distance o' p c p.didvmean (fun k => W k) ^ 2 →
      Found ε f0 dt [o.rsh, o.rp, o.r0, beta, l, L, tau0] r.ssp := by
  obtain ⟨δ, hδ, hclose⟩ := two_pole_close (dt := dt) hd hh.1 hε
  filter_upwards [harmonics_close h hR hfs hpos hW hh hδ] with ω hω
  filter_upwards [hω] with m hm x c p r o' hx hp hd hr hc hcost
  have ho' : o'.rsh = o.rsh ∧ o'.rp = o.rp ∧ o'.r0 = o.r0 := process_resistances (first o (fun i => trace i ω) m)
  have hconv := stored_ssp hp hd hr
  rw [ho'.1, ho'.2.1, ho'.2.2] at hconv
  have hall := hm x 2 c p r hx hp hd hr (fun v hv => by have := hc v hv; norm_num; linarith) hcost
  choose! y V h1 h2 h3 using hall
  exact hclose r.params r.ssp y V hconv (params_two hx hp hd hr) h1 h2 h3

/-- **C146.**  Three poles. -/
theorem three_pole_consistent (h : Campaign μ o tr W trace noise R) {psd : ZMod n → ℝ}
    (hR : OF.HasPsd R o.fs fun k => (psd k : WithTop ℝ)) (hfs : 0 < o.fs) (hpos : ∀ k, drive o k ≠ 0 → 0 < psd k)
    {beta l L tau0 gratio tau3 dt f0 : ℝ} (hd : Physical (o.rsh + o.rp) o.r0 beta l L tau0) (hg : 0 < gratio)
    (h3 : 0 < tau3)
    (hW : Delayed o.fs W (fun f => complexadmittance f (twoBodies o.rsh o.rp o.r0 beta l L tau0 gratio tau3)) dt)
    (hh : Driven o n f0 12) {ε : ℝ} (hε : 0 < ε) :
    ∀ᵐ ω ∂μ, ∀ᶠ m in atTop, ∀ (x : Ext) (c : Option ℝ) (p : Proc) (r : Result),
      let o' := (processtraces (first o (fun i => trace i ω) m)).2
      Sound x.ls → o'.proc = some p → (dofit x o' 3 c).1 = .ok () → fitresult (dofit x o' 3 c).2 3 = .found r →
      (∀ v ∈ c, 23 * |f0| < v) → 2 * r.cost ≤ distance o' p c p.didvmean (fun k => W k) ^ 2 →
      Found ε f0 dt [o.rsh, o.rp, o.r0, beta, l, L, tau0, gratio, tau3] r.ssp := by
  obtain ⟨δ, hδ, hclose⟩ := three_pole_close (dt := dt) hd hg h3 hh.1 hε
  filter_upwards [harmonics_close h hR hfs hpos hW hh hδ] with ω hω
  filter_upwards [hω] with m hm x c p r o' hx hp hd hr hc hcost
  have ho' : o'.rsh = o.rsh ∧ o'.rp = o.rp ∧ o'.r0 = o.r0 := process_resistances (first o (fun i => trace i ω) m)
  have hconv := stored_ssp hp hd hr
  rw [ho'.1, ho'.2.1, ho'.2.2] at hconv
  have hall := hm x 3 c p r hx hp hd hr (fun v hv => by have := hc v hv; norm_num; linarith) hcost
  choose! y V h1 h2 h3 using hall
  exact hclose r.params r.ssp y V hconv (params_three hx hp hd hr) h1 h2 h3

/-- **C146.**  One pole: the parasitic resistance and the inductance, whatever parasitic and operating resistance the
object was given. -/
theorem one_pole_consistent (h : Campaign μ o tr W trace noise R) {psd : ZMod n → ℝ}
    (hR : OF.HasPsd R o.fs fun k => (psd k : WithTop ℝ)) (hfs : 0 < o.fs) (hpos : ∀ k, drive o k ≠ 0 → 0 < psd k)
    {rp L dt f0 : ℝ} (hd : 0 < o.rsh + rp)
    (hW : Delayed o.fs W (fun f => complexadmittance f { rsh := some o.rsh, rp := some rp, L := some L }) dt)
    (hh : Driven o n f0 4) {ε : ℝ} (hε : 0 < ε) :
    ∀ᵐ ω ∂μ, ∀ᶠ m in atTop, ∀ (x : Ext) (c : Option ℝ) (p : Proc) (r : Result),
      let o' := (processtraces (first o (fun i => trace i ω) m)).2
      Sound x.ls → o'.proc = some p → (dofit x o' 1 c).1 = .ok () → fitresult (dofit x o' 1 c).2 1 = .found r →
      (∀ v ∈ c, 7 * |f0| < v) → 2 * r.cost ≤ distance o' p c p.didvmean (fun k => W k) ^ 2 →
      Found ε f0 dt [o.rsh, rp, L] r.ssp := by
  obtain ⟨δ, hδ, hclose⟩ := one_pole_close (r0 := o.r0) (rp0 := o.rp) (L := L) (dt := dt) hd hh.1 hε
  filter_upwards [harmonics_close h hR hfs hpos hW hh hδ] with ω hω
  filter_upwards [hω] with m hm x c p r o' hx hp hd hr hc hcost
  have ho' : o'.rsh = o.rsh ∧ o'.rp = o.rp ∧ o'.r0 = o.r0 := process_resistances (first o (fun i => trace i ω) m)
  have hconv := stored_ssp hp hd hr
  rw [ho'.1, ho'.2.1, ho'.2.2] at hconv
  have hall := hm x 1 c p r hx hp hd hr (fun v hv => by have := hc v hv; norm_num; linarith) hcost
  choose! y V h1 h2 h3 using hall
  exact hclose r.params r.ssp y V hconv (params_one hx hp hd hr) h1 h2 h3

end Verif.Device
