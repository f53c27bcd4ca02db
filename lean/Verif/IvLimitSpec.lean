import Verif.LineLimitSpec
import Verif.IvSpec

/-! Vocabulary of property C148 for the IV curve. -/

namespace Verif.Iv
open Verif LineFit MeasureTheory Filter Topology

/-- The measurement with errors of the measured currents. -/
def Obj.noisy (o : Obj) (w : ℕ → ℕ → ℕ → ℝ) : Obj :=
  { o with data := { o.data with
      get := fun t c i => (o.data.get t c i).map fun r => { r with dites := r.dites + w t c i } } }

/-- Readings which approach a reading; missing readings stay missing. -/
def Toward {ι : Type*} (L : Filter ι) (u : ι → Option Reading) (v : Option Reading) : Prop :=
  match v with
  | none => ∀ i, u i = none
  | some r => ∃ s : ι → Reading, (∀ i, u i = some (s i)) ∧ Tendsto (fun i => (s i).vb) L (𝓝 r.vb) ∧
      Tendsto (fun i => (s i).vbErr) L (𝓝 r.vbErr) ∧ Tendsto (fun i => (s i).dites) L (𝓝 r.dites) ∧
      Tendsto (fun i => (s i).ditesErr) L (𝓝 r.ditesErr)

/-- Measurements of one shape which approach a measurement. -/
structure Approach {ι : Type*} (L : Filter ι) (O : ι → Obj) (o : Obj) : Prop where
  shape : ∀ i, (O i).data.n0 = o.data.n0 ∧ (O i).data.n1 = o.data.n1 ∧ (O i).data.n2 = o.data.n2
  inds : ∀ i, (O i).normalinds = o.normalinds
  data : ∀ t c k, Toward L (fun i => (O i).data.get t c k) (o.data.get t c k)
  rload : ∀ rl, o.rload = some rl → ∃ RL : ι → A3 ValErr, (∀ i, (O i).rload = some (RL i)) ∧
    ∀ t c k, Tendsto (fun i => ((RL i).get t c k).val) L (𝓝 (rl.get t c k).val) ∧
      Tendsto (fun i => ((RL i).get t c k).err) L (𝓝 (rl.get t c k).err)

/-- Everything `calc_iv` stores approaches the stored results. -/
structure Settles {ι : Type*} (L : Filter ι) (o : Obj) (R : ι → Result) (res : Result) : Prop where
  fit : ∀ t < o.data.n0, ∀ c < o.data.n1,
    Tendsto (fun i => (R i).ioff t c) L (𝓝 (res.ioff t c)) ∧
    Tendsto (fun i => (R i).ioffErr t c) L (𝓝 (res.ioffErr t c)) ∧
    Tendsto (fun i => (R i).rfit t c) L (𝓝 (res.rfit t c)) ∧
    Tendsto (fun i => (R i).rfitErr t c) L (𝓝 (res.rfitErr t c)) ∧
    Tendsto (fun i => (R i).rnorm t c) L (𝓝 (res.rnorm t c)) ∧
    Tendsto (fun i => (R i).rnormErr t c) L (𝓝 (res.rnormErr t c))
  points : ∀ t < o.data.n0, ∀ c < o.data.n1, ∀ k < o.data.n2,
    Gets L (fun i => (R i).ites t c k) (res.ites t c k) ∧ Gets L (fun i => (R i).itesErr t c k) (res.itesErr t c k) ∧
    Gets L (fun i => (R i).r0 t c k) (res.r0 t c k) ∧ Gets L (fun i => (R i).r0Err t c k) (res.r0Err t c k) ∧
    Gets L (fun i => (R i).ptes t c k) (res.ptes t c k) ∧ Gets L (fun i => (R i).ptesErr t c k) (res.ptesErr t c k)

/-- The errors stated for the currents of a temperature and channel. -/
def Obj.errs (o : Obj) (t c k : ℕ) : ℝ := (o.data.get t c k).elim 0 Reading.ditesErr

/-- A measurement of which the stated errors are right: the chosen normal points, which are distinct, lie on the line with
offset `b` and resistance `R`, up to errors which are uncorrelated and have the stated standard deviations, and `calc_iv`
returns the result. -/
structure Study {Ω : Type*} [MeasurableSpace Ω] (μ : Measure Ω) (o : Obj) (inds : List ℤ) (t c : ℕ) (b R : ℝ)
    (w : Ω → ℕ → ℕ → ℕ → ℝ) (res : Ω → Result) : Prop where
  chosen : o.normalinds = some inds
  distinct : (inds.map (place o.data.n2)).Nodup
  temp : t < o.data.n0
  chan : c < o.data.n1
  line : ∀ i ∈ inds, ∀ r, o.data.get t c (place o.data.n2 i) = some r → r.dites = r.vb / R + b
  scatter : Scatter μ (fun ω => w ω t c) (o.errs t c) o.data.n2
  ok : ∀ᵐ ω ∂μ, calcIv (o.noisy (w ω)) = .ok (res ω)

end Verif.Iv
