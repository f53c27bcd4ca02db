import Verif.NsmbEx
import Verif.NsmbIntSpec

/-! Lemmas about the interpolated minimum of `of_nsmb_con` (C79). -/

namespace Verif.Nsmb

open Verif.Dft Verif.Nsmb.Spec

variable {n : ℕ} [NeZero n] {nb : ℕ}

theorem quad_pts (y0 y1 y2 : ℝ) :
    quad y0 y1 y2 (-1) = y0 ∧ quad y0 y1 y2 0 = y1 ∧ quad y0 y1 y2 1 = y2 := by
  unfold quad
  refine ⟨?_, ?_, ?_⟩ <;> ring

/-- The vertex of the parabola. -/
noncomputable def vertex (y0 y1 y2 : ℝ) : ℝ := (y0 - y2) / (2 * (y0 + y2 - 2 * y1))

theorem vertex_min {y0 y1 y2 : ℝ} (h0 : y1 < y0) (h2 : y1 ≤ y2) :
    |vertex y0 y1 y2| ≤ 1 / 2 ∧ (∀ u, quad y0 y1 y2 (vertex y0 y1 y2) ≤ quad y0 y1 y2 u) := by
  have hp : 0 < y0 + y2 - 2 * y1 := by linarith
  constructor
  · unfold vertex
    rw [abs_div, abs_of_pos (by linarith : 0 < 2 * (y0 + y2 - 2 * y1)), div_le_iff₀ (by linarith),
      abs_le]
    constructor <;> linarith
  · intro u
    have hv : (y0 + y2 - 2 * y1) * vertex y0 y1 y2 = (y0 - y2) / 2 := by
      unfold vertex; field_simp
    have hy : y2 - y0 = -2 * ((y0 + y2 - 2 * y1) * vertex y0 y1 y2) := by rw [hv]; ring
    have e : quad y0 y1 y2 u - quad y0 y1 y2 (vertex y0 y1 y2) =
        (y0 + y2 - 2 * y1) / 2 * (u - vertex y0 y1 y2) ^ 2 := by
      unfold quad
      rw [hy]
      ring
    have : 0 ≤ (y0 + y2 - 2 * y1) / 2 * (u - vertex y0 y1 y2) ^ 2 := by positivity
    linarith

theorem take_drop_range {α : Type*} (g : ℕ → α) {L k : ℕ} (h : k + 3 ≤ L) :
    (((List.range L).map g).take (k + 3)).drop k = [g k, g (k + 1), g (k + 2)] := by
  apply List.ext_getElem
  · simp only [List.length_drop, List.length_take, List.length_map, List.length_range,
      List.length_cons, List.length_nil]
    omega
  · intro i h1 h2
    simp only [List.length_cons, List.length_nil] at h2
    have : i = 0 ∨ i = 1 ∨ i = 2 := by omega
    rcases this with rfl | rfl | rfl <;> simp

theorem interp_value {pts : List (ℝ × ℝ × ℝ)} {k : ℕ} {x h y0 y1 y2 a0 a1 a2 : ℝ}
    (hh : 0 < h) (hk : (pts.take (k + 3)).drop k = [(x - h, y0, a0), (x, y1, a1), (x + h, y2, a2)])
    (h0 : y1 < y0) (h2 : y1 ≤ y2) :
    interpchi2 (k + 1) pts = .ok (x + vertex y0 y1 y2 * h, quad y0 y1 y2 (vertex y0 y1 y2),
      quad a0 a1 a2 (vertex y0 y1 y2)) := by
  have hlen : k + 3 ≤ pts.length := by
    have := congrArg List.length hk
    rw [List.length_drop, List.length_take] at this
    simp at this
    omega
  have e1 : Np.clipIdx pts.length (((k : ℤ) + 1) + 2) = k + 3 := by
    unfold Np.clipIdx
    rw [if_pos (by omega)]
    omega
  have e2 : Np.clipIdx pts.length (((k : ℤ) + 1) - 1) = k := by
    unfold Np.clipIdx
    rw [if_pos (by omega)]
    omega
  have hpos : 0 < y0 + y2 - 2 * y1 := by linarith
  have key : ∀ b0 b1 b2 : ℝ, polyfit3 (x - h, b0) (x, b1) (x + h, b2) =
      ((b0 + b2 - 2 * b1) / (2 * h ^ 2),
        (b2 - b0) / (2 * h) - 2 * ((b0 + b2 - 2 * b1) / (2 * h ^ 2)) * x,
        b1 - (b2 - b0) / (2 * h) * x + ((b0 + b2 - 2 * b1) / (2 * h ^ 2)) * x ^ 2) := by
    intro b0 b1 b2
    unfold polyfit3
    simp only
    rw [show x - (x - h) = h by ring, show x + h - x = h by ring,
      show x + h - (x - h) = 2 * h by ring]
    refine Prod.ext ?_ (Prod.ext ?_ ?_) <;> simp only <;> field_simp <;> ring
  unfold interpchi2
  rw [e1, e2, hk]
  simp only [key]
  have hz0 : (y0 + y2 - 2 * y1) / (2 * h ^ 2) ≠ 0 := (div_pos hpos (by positivity)).ne'
  rw [if_neg (by
    rintro (h | h | h)
    · linarith
    · linarith
    · linarith), if_neg hz0]
  have ht : -((y2 - y0) / (2 * h) - 2 * ((y0 + y2 - 2 * y1) / (2 * h ^ 2)) * x) /
      (2 * ((y0 + y2 - 2 * y1) / (2 * h ^ 2))) = x + vertex y0 y1 y2 * h := by
    unfold vertex
    have := hpos.ne'
    field_simp
    ring
  rw [ht]
  generalize vertex y0 y1 y2 = s
  have hq : ∀ b0 b1 b2 : ℝ, (b0 + b2 - 2 * b1) / (2 * h ^ 2) * (x + s * h) ^ 2 +
      ((b2 - b0) / (2 * h) - 2 * ((b0 + b2 - 2 * b1) / (2 * h ^ 2)) * x) * (x + s * h) +
      (b1 - (b2 - b0) / (2 * h) * x + ((b0 + b2 - 2 * b1) / (2 * h ^ 2)) * x ^ 2) =
      quad b0 b1 b2 s := by
    intro b0 b1 b2
    unfold quad
    field_simp
    ring
  rw [hq, hq]

omit [NeZero n] in
/-- The first smallest bin of a contiguous window. -/
theorem pick_arange {chi : ZMod n → ℝ} {lo hi ind : ℤ}
    (h : pickIdx chi (OF.arange lo hi) = .ok ind) :
    lo ≤ ind ∧ ind < hi ∧ (∀ j, lo ≤ j → j < hi → chi (ind : ZMod n) ≤ chi (j : ZMod n)) ∧
      (∀ j, lo ≤ j → j < ind → chi (ind : ZMod n) < chi (j : ZMod n)) := by
  unfold pickIdx at h
  split_ifs at h
  cases ha : OF.argminOn (OF.asIdx chi) (OF.arange lo hi) with
  | none => rw [ha] at h; cases h
  | some i =>
    rw [ha] at h
    cases h
    obtain ⟨h1, h2, h3⟩ := OF.argminOn_spec _ _ (OF.arange_sorted lo hi) _ ha
    rw [OF.mem_arange] at h1
    refine ⟨h1.1, h1.2, fun j a b => h2 j ((OF.mem_arange _ _ _).2 ⟨a, b⟩), fun j a b => ?_⟩
    exact h3 j ((OF.mem_arange _ _ _).2 ⟨a, b.trans h1.2⟩) b

theorem findIdx_arange {lo hi i : ℤ} (h1 : lo ≤ i) (h2 : i < hi) :
    (OF.arange lo hi).findIdx (· = i) = (i - lo).toNat := by
  rw [List.findIdx_eq (by unfold OF.arange; simp; omega)]
  constructor
  · unfold OF.arange; simp; omega
  · intro j hj
    unfold OF.arange
    simp
    omega

omit [NeZero n] in
/-- One contiguous further window: at an edge the bin itself, inside it the vertex. -/
theorem winFit_interp {chi asig : ZMod n → ℝ} {fs : ℝ} (hfs : 0 < fs) {lo hi : ℤ} {w : WinFit}
    (h : winFit chi asig fs (OF.arange lo hi) = .ok w) :
    ∃ i, lo ≤ i ∧ i < hi ∧ w.tdel = i / fs ∧ w.chi2 = chi ((i : ZMod n) - (n / 2 : ℕ)) ∧
      w.asig = asig ((i : ZMod n) - (n / 2 : ℕ)) ∧
      ((i = lo ∨ i = hi - 1) ∧ w.interp = .ok (w.tdel, w.chi2, w.asig) ∨
       (lo < i ∧ i < hi - 1) ∧ ∃ y0 y2, w.chi2 < y0 ∧ w.chi2 ≤ y2 ∧
        y0 = chi (((i - 1 : ℤ) : ZMod n) - (n / 2 : ℕ)) ∧
        y2 = chi (((i + 1 : ℤ) : ZMod n) - (n / 2 : ℕ)) ∧
        w.interp = .ok (w.tdel + vertex y0 w.chi2 y2 * (1 / fs),
          quad y0 w.chi2 y2 (vertex y0 w.chi2 y2),
          quad (asig (((i - 1 : ℤ) : ZMod n) - (n / 2 : ℕ))) w.asig
            (asig (((i + 1 : ℤ) : ZMod n) - (n / 2 : ℕ))) (vertex y0 w.chi2 y2))) := by
  unfold winFit at h
  simp only at h
  cases hp : pickIdx (roll chi ((n / 2 : ℕ) : ZMod n)) (OF.arange lo hi) with
  | error e => rw [hp] at h; cases h
  | ok i =>
    rw [hp] at h
    obtain ⟨h1, h2, h3, h4⟩ := pick_arange hp
    simp only at h
    by_cases hl : (OF.arange lo hi).length = 1
    · rw [if_pos hl] at h; cases h
    rw [if_neg hl] at h
    cases h
    have hlen : (OF.arange lo hi).length = (hi - lo).toNat := by unfold OF.arange; simp
    rw [findIdx_arange h1 h2, hlen]
    refine ⟨i, h1, h2, mul_one_div _ _, rfl, rfl, ?_⟩
    by_cases he : i = lo ∨ i = hi - 1
    · left
      refine ⟨he, ?_⟩
      simp only
      rw [if_pos (by omega)]
    · right
      refine ⟨by omega, _, _, h4 (i - 1) (by omega) (by omega), h3 (i + 1) (by omega) (by omega),
        rfl, rfl, ?_⟩
      simp only
      rw [if_neg (by omega)]
      obtain ⟨k, hk⟩ : ∃ k : ℕ, i = lo + k + 1 := ⟨(i - lo - 1).toNat, by omega⟩
      rw [show (((i - lo).toNat : ℕ) : ℤ) = (k : ℤ) + 1 by omega]
      refine interp_value (one_div_pos.2 hfs) ?_ (h4 (i - 1) (by omega) (by omega))
        (h3 (i + 1) (by omega) (by omega))
      unfold OF.arange
      rw [List.map_map, take_drop_range _ (by omega)]
      subst hk
      simp only [Function.comp_apply]
      refine congrArg₂ _ ?_ (congrArg₂ _ ?_ (congrArg₂ _ ?_ rfl))
      · rw [show lo + (k : ℤ) + 1 - 1 = lo + k by ring]
        push_cast
        refine Prod.ext ?_ rfl
        simp only
        ring
      · rw [show lo + ((k + 1 : ℕ) : ℤ) = lo + k + 1 by push_cast; ring]
      · rw [show lo + ((k + 2 : ℕ) : ℤ) = lo + k + 1 + 1 by push_cast; ring]
        push_cast
        refine Prod.ext ?_ rfl
        simp only
        ring

omit [NeZero n] in
theorem winFits_each {chi2 asig : ZMod n → ℝ} {fs : ℝ} {wins : List (List ℤ)} {ws : List WinFit}
    (h : winFits chi2 asig fs wins = .ok ws) :
    List.Forall₂ (fun win w => winFit chi2 asig fs win = .ok w) wins ws := by
  induction wins generalizing ws with
  | nil => cases h; exact .nil
  | cons a l ih =>
    unfold winFits at h
    cases ha : winFit chi2 asig fs a with
    | error e => rw [ha] at h; cases h
    | ok w =>
      rw [ha] at h
      simp only at h
      cases hl : winFits chi2 asig fs l with
      | error e => rw [hl] at h; cases h
      | ok rs =>
        rw [hl] at h
        cases h
        exact .cons ha (ih hl)

theorem con_zero (hn : 3 ≤ n) (p : ZMod n → ℝ) (F : Filt n nb) (fs : ℝ)
    (c : Fin (nb + 1) → ℤ) (window : List ℤ) (wins : List (List ℤ)) (lf : ℕ)
    (hf : firstErr F p c = none)
    (h0 : pickIdx (fun t => conChi2 F p t (conAmps F p c t)) window = .ok 0) :
    ofNsmbCon p F fs c window wins lf = .error .typeError := by
  unfold ofNsmbCon
  rw [hf]
  simp only [h0]
  have hi : ∀ l : List (ℝ × ℝ × ℝ), 3 ≤ l.length → interpchi2 0 l = .error .typeError := by
    intro l hl
    unfold interpchi2
    have e1 : Np.clipIdx l.length (0 + 2) = 2 := by
      unfold Np.clipIdx
      rw [if_pos (by norm_num)]
      exact min_eq_left (by omega)
    have e2 : Np.clipIdx l.length (0 - 1) = l.length - 1 := by
      unfold Np.clipIdx
      rw [if_neg (by norm_num)]
      omega
    rw [e1, e2, List.drop_eq_nil_of_le (by rw [List.length_take]; omega)]
  rw [hi _ (by simpa using hn)]

/-- The interpolated minimum of the first window. -/
theorem ofNsmbCon_interp {F : Filt n nb} {p : ZMod n → ℝ} {fs : ℝ} {c : Fin (nb + 1) → ℤ}
    {window : List ℤ} {wins : List (List ℤ)} {lf : ℕ} {r : ConFit n nb} {ind : ℤ} {t x y : ℝ}
    (h : ofNsmbCon p F fs c window wins lf = .ok r)
    (hp : pickIdx (fun t => conChi2 F p t (conAmps F p c t)) window = .ok ind)
    (hi : interpchi2 ind ((List.range n).map fun (k : ℕ) =>
          ((k : ℝ) * (1 / fs), conChi2 F p (k : ZMod n) (conAmps F p c (k : ZMod n)),
            conAmps F p c (k : ZMod n) 0)) = .ok (t, x, y)) :
    r.interp = .ok (t - n * (1 / fs) * (if t > n * (1 / fs) / 2 then 1 else 0), x, y) := by
  unfold ofNsmbCon at h
  cases hf : firstErr F p c with
  | some e => rw [hf] at h; cases h
  | none =>
    rw [hf] at h
    simp only [hp, hi] at h
    cases hw : winFits (fun t => conChi2 F p t (conAmps F p c t)) (fun t => conAmps F p c t 0) fs
          wins with
    | error e => rw [hw] at h; cases h
    | ok ws => rw [hw] at h; cases h; rfl

end Verif.Nsmb
