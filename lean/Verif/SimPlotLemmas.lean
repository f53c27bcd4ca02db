import Verif.SimPlotSpec
import Verif.SimProps

/-! Lemmas for the plots of simulated noise. -/

namespace Verif.SimPlot
open Verif Sim

theorem mem_curve {freqs : List ℝ} {s : ℝ → Except Err ℝ} {f v : ℝ} (hf : f ∈ freqs) (hs : s f = .ok v)
    (hv : 0 ≤ v) : (f, Real.sqrt v) ∈ curve freqs s ∧ (f, Real.sqrt v) ∈ rootCurve freqs s := by
  unfold curve rootCurve
  constructor
  · exact List.mem_filterMap.2 ⟨f, hf, by simp only [hs, abs_of_nonneg hv]⟩
  · exact List.mem_filterMap.2 ⟨f, hf, by simp only [hs, if_neg (not_lt.2 hv)]⟩

theorem raw_eq {f psd : List ℝ} (hl : f.length = psd.length) {scale s : ℝ → Except Err ℝ}
    (h : ∀ p ∈ f.zip psd, ∃ d, scale p.1 = .ok d ∧ d ≠ 0 ∧ 0 ≤ p.2 / d ∧ s p.1 = .ok (p.2 / d)) :
    raw f psd scale = curve f s ∧ raw f psd scale = rootCurve f s := by
  induction f generalizing psd with
  | nil => simp [raw, curve, rootCurve]
  | cons a f ih =>
    cases psd with
    | nil => simp at hl
    | cons b psd =>
      obtain ⟨h1, h2⟩ := ih (by simpa using hl) (fun p hp => h p (by simp [hp]))
      obtain ⟨d, e1, hd, hp, e2⟩ := h (a, b) (by simp)
      simp only at e1 hp e2
      unfold raw curve rootCurve at *
      rw [List.zip_cons_cons, List.filterMap_cons, List.filterMap_cons, List.filterMap_cons]
      simp only [e1, e2]
      rw [if_neg (by rw [not_or, not_lt]; exact ⟨hd, hp⟩), if_neg (not_lt.2 hp), abs_of_nonneg hp]
      simp only [h1]
      exact ⟨trivial, by rw [← h1, h2]⟩

/-- The components of a physical device at a frequency where everything is defined. -/
theorem parts_nonneg {t : TES} (ht : Physical t) {f v : ℝ} :
    (sIload t f = .ok v → 0 ≤ v) ∧ (sItes t f = .ok v → 0 ≤ v) ∧ (sItfn t f = .ok v → 0 ≤ v) ∧
    (sIsquid t f = .ok v → 0 ≤ v) ∧ (sIloadNormal t f = .ok v → 0 ≤ v) ∧ (sItesNormal t f = .ok v → 0 ≤ v) ∧
    (sIloadSc t f = .ok v → 0 ≤ v) := by
  obtain ⟨h1, h2, h3, h4, h5, h6⟩ := ht
  have hk := kB_pos
  have hVl : 0 ≤ sVload t := by unfold sVload; positivity
  have hVt : 0 ≤ sVtes t := by unfold sVtes; positivity
  have hVn : 0 ≤ sVtesNormal t := by unfold sVtesNormal; positivity
  have hP : 0 ≤ sPtfn t := by unfold sPtfn; positivity
  refine ⟨fun h => ?_, fun h => ?_, fun h => ?_, fun h => ?_, fun h => ?_, fun h => ?_, fun h => ?_⟩
  · unfold sIload at h
    split at h <;> cases h
    exact mul_nonneg hVl (abs2_nonneg _)
  · unfold sItes at h
    split at h <;> cases h
    exact mul_nonneg hVt (abs2_nonneg _)
  · unfold sItfn at h
    split at h <;> cases h
    exact mul_nonneg hP (abs2_nonneg _)
  · rw [squid_ok (squid_inv h)] at h
    cases h
    positivity
  · unfold sIloadNormal at h
    split at h <;> cases h
    exact mul_nonneg hVl (abs2_nonneg _)
  · unfold sItesNormal at h
    split at h <;> cases h
    exact mul_nonneg hVn (abs2_nonneg _)
  · unfold sIloadSc at h
    split at h <;> cases h
    exact mul_nonneg hVl (abs2_nonneg _)

theorem curve_inv {freqs : List ℝ} {s : ℝ → Except Err ℝ} {f y : ℝ}
    (h : (f, y) ∈ curve freqs s ∨ (f, y) ∈ rootCurve freqs s) :
    f ∈ freqs ∧ ∃ v, s f = .ok v ∧ (0 ≤ v → y = Real.sqrt v) := by
  rcases h with h | h
  · obtain ⟨g, hg, e⟩ := List.mem_filterMap.1 h
    cases hs : s g with
    | error e' => simp [hs] at e
    | ok v =>
      simp only [hs, Option.some.injEq, Prod.mk.injEq] at e
      obtain ⟨rfl, rfl⟩ := e
      exact ⟨hg, v, hs, fun h0 => by rw [abs_of_nonneg h0]⟩
  · obtain ⟨g, hg, e⟩ := List.mem_filterMap.1 h
    cases hs : s g with
    | error e' => simp [hs] at e
    | ok v =>
      by_cases hv : v < 0
      · simp [hs, hv] at e
      · simp only [hs, if_neg hv, Option.some.injEq, Prod.mk.injEq] at e
        obtain ⟨rfl, rfl⟩ := e
        exact ⟨hg, v, hs, fun _ => rfl⟩

/-- The parameters allow the power response. -/
theorem scalar_ok {t : TES} {f : ℝ} (h : InTransition t f) :
    ¬(t.i0 = 0 ∨ t.loopgain = 0 ∨ 1 - 1 / t.loopgain = 0) := by
  obtain ⟨h1, h2, h3, -⟩ := h
  rintro (h | h | h)
  · exact h1 h
  · exact h2 h
  · apply h3
    field_simp at h
    linarith

theorem online_ti {t : TES} {f psd : List ℝ} {l : String} {p : ℝ × ℝ} :
    OnLine (tiNoise t f psd) l p ↔
      (l = "TES Johnson Noise" ∧ p ∈ curve f (sItes t)) ∨ (l = "Load Noise" ∧ p ∈ curve f (sIload t)) ∨
      (l = "TFN Noise" ∧ p ∈ curve f (sItfn t)) ∨ (l = "Total Noise" ∧ p ∈ curve f (sItot t)) ∨
      (l = "Squid+Electronics Noise" ∧ p ∈ curve f (sIsquid t)) ∨
      (l = "Raw Data" ∧ p ∈ raw f psd fun _ => .ok 1) := by
  unfold OnLine tiNoise
  simp [eq_comm]

theorem online_tp {t : TES} {f psd : List ℝ} {l : String} {p : ℝ × ℝ} :
    OnLine (tpNoise t f psd) l p ↔
      (l = "TES Johnson Noise" ∧ p ∈ curve f (sPtes t)) ∨ (l = "Load Noise" ∧ p ∈ curve f (sPload t)) ∨
      (l = "TFN Noise" ∧ p ∈ curve f fun _ => .ok (sPtfn t)) ∨ (l = "Total Noise" ∧ p ∈ curve f (sPtot t)) ∨
      (l = "Squid+Electronics Noise" ∧ p ∈ curve f (sPsquid t)) ∨
      (l = "Raw Data" ∧ p ∈ raw f psd (powerScale t)) := by
  unfold OnLine tpNoise
  simp [eq_comm]

theorem online_sc {t : TES} {f psd : List ℝ} {l : String} {p : ℝ × ℝ} :
    OnLine (scNoise t f psd) l p ↔
      (l = "Raw Data" ∧ p ∈ raw f psd fun _ => .ok 1) ∨
      (l = "Squid+Electronics Noise" ∧ p ∈ rootCurve f (sIsquid t)) ∨
      (l = "Load Noise" ∧ p ∈ rootCurve f (sIloadSc t)) ∨ (l = "Total Noise" ∧ p ∈ rootCurve f (sItotSc t)) := by
  unfold OnLine scNoise
  simp [eq_comm]

theorem online_n {t : TES} {f psd : List ℝ} {l : String} {p : ℝ × ℝ} :
    OnLine (nNoise t f psd) l p ↔
      (l = "Raw Data" ∧ p ∈ raw f psd fun _ => .ok 1) ∨
      (l = "Squid+Electronics Noise" ∧ p ∈ rootCurve f (sIsquid t)) ∨
      (l = "TES Johnson Noise" ∧ p ∈ rootCurve f (sItesNormal t)) ∨
      (l = "Load Noise" ∧ p ∈ rootCurve f (sIloadNormal t)) ∨
      (l = "Total Noise" ∧ p ∈ rootCurve f (sItotNormal t)) := by
  unfold OnLine nNoise
  simp [eq_comm]

/-- The figure which a call shows. -/
theorem shown {t : TES} {freqs f psd : List ℝ} {s : PyStr} {fig : List Line} {files : List (List Line)}
    {freqs' : List ℝ} (h : plotNoiseSim t freqs f psd s false = .ok ⟨some fig, files, freqs'⟩) :
    f.tail.length = psd.tail.length ∧ (
    (s.val = "current" ∧ fig = tiNoise t f.tail psd.tail) ∨ (s.val = "power" ∧ fig = tpNoise t f.tail psd.tail) ∨
    (s.val = "sc" ∧ fig = scNoise t f.tail psd.tail) ∨ (s.val = "normal" ∧ fig = nNoise t f.tail psd.tail)) := by
  have key : ∀ l, s.is l = true → s.val = l := by
    intro l hl
    simp [PyStr.is] at hl
    exact hl.2
  have done : ∀ {o : List ℝ} {g : List Line},
      (Except.ok (finish false o g) : Except Err Out) = .ok ⟨some fig, files, freqs'⟩ → fig = g := by
    intro o g hg
    simp [finish] at hg
    exact hg.1.symm
  unfold plotNoiseSim at h
  by_cases h1 : s.is "current" = true
  · rw [if_pos h1] at h
    split_ifs at h with h2 h3
    exact ⟨not_not.1 h3, .inl ⟨key _ h1, done h⟩⟩
  rw [if_neg h1] at h
  by_cases h2 : s.is "power" = true
  · rw [if_pos h2] at h
    split_ifs at h with h4 h3
    exact ⟨not_not.1 h3, .inr (.inl ⟨key _ h2, done h⟩)⟩
  rw [if_neg h2] at h
  by_cases h3 : s.is "sc" = true
  · rw [if_pos h3] at h
    split_ifs at h with h4
    exact ⟨not_not.1 h4, .inr (.inr (.inl ⟨key _ h3, done h⟩))⟩
  rw [if_neg h3] at h
  by_cases h4 : s.is "normal" = true
  · rw [if_pos h4] at h
    split_ifs at h with h5
    exact ⟨not_not.1 h5, .inr (.inr (.inr ⟨key _ h4, done h⟩))⟩
  rw [if_neg h4] at h
  simp at h

theorem sqrt_sq_add {a b c d : ℝ} (ha : 0 ≤ a) (hb : 0 ≤ b) (hc : 0 ≤ c) (hd : 0 ≤ d) :
    Real.sqrt a ^ 2 + (Real.sqrt b ^ 2 + (Real.sqrt c ^ 2 + Real.sqrt d ^ 2)) = Real.sqrt (a + b + c + d) ^ 2 := by
  rw [Real.sq_sqrt ha, Real.sq_sqrt hb, Real.sq_sqrt hc, Real.sq_sqrt hd, Real.sq_sqrt (by positivity)]
  ring

end Verif.SimPlot
