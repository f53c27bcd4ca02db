import Verif.Lowpass
import Verif.LowpassSpec
import Mathlib.Data.List.GetD
import Mathlib.Tactic.Linarith
import Mathlib.Tactic.Ring
import Mathlib.Tactic.FieldSimp
import Mathlib.Tactic.LinearCombination

/-! Lemmas on the low-pass filter. -/

namespace Verif.Lowpass
open Verif Spec

/-- What the coefficients of the filter satisfy: steady state `1` at a constant input `1`. -/
structure Good (c : Coeffs) (t : ℝ) : Prop where
  ht : 0 < t
  hg : c.g = t / (1 + t)
  hr : c.r = (1 - t) / (1 + t)

theorem Good.g_r {c : Coeffs} {t : ℝ} (h : Good c t) : c.r = 1 - 2 * c.g := by
  have := h.ht
  rw [h.hg, h.hr]; field_simp; ring

theorem Good.g_pos {c : Coeffs} {t : ℝ} (h : Good c t) : 0 < c.g := by
  have := h.ht
  rw [h.hg]; positivity

theorem Good.g_lt {c : Coeffs} {t : ℝ} (h : Good c t) : c.g < 1 := by
  have := h.ht
  rw [h.hg, div_lt_one (by linarith)]; linarith

theorem Good.zi {c : Coeffs} {t : ℝ} (h : Good c t) : lfilterZi c = 1 - c.g := by
  have := h.g_pos
  unfold lfilterZi
  rw [h.g_r, div_eq_iff (by linarith)]; ring

theorem Good.r_nonneg {c : Coeffs} {t : ℝ} (h : Good c t) (h1 : t ≤ 1) : 0 ≤ c.r := by
  have := h.ht
  rw [h.hr]; exact div_nonneg (by linarith) (by linarith)

theorem tan_pos_of {W : ℝ} (h : 0 < W ∧ W < 1) : 0 < Real.tan (Real.pi * W / 2) := by
  have := Real.pi_pos
  exact Real.tan_pos_of_pos_of_lt_pi_div_two (by nlinarith) (by nlinarith)

theorem butter1_good {W : ℝ} {c : Coeffs} (h : butter1 W = .ok c) :
    Good c (Real.tan (Real.pi * W / 2)) := by
  unfold butter1 at h
  by_cases hw : 0 < W ∧ W < 1
  · rw [if_pos hw] at h
    cases h
    exact ⟨tan_pos_of hw, rfl, rfl⟩
  · rw [if_neg hw] at h; cases h

@[simp] theorem lfilter_length (c : Coeffs) (z : ℝ) (x : List ℝ) :
    (lfilter c z x).length = x.length := by
  induction x generalizing z with
  | nil => rfl
  | cons a x ih => simp [lfilter, ih]

@[simp] theorem pass_length (c : Coeffs) (x : List ℝ) : (pass c x).length = x.length :=
  lfilter_length _ _ _

theorem evenExt_length {x : List ℝ} (h : 6 < x.length) : (evenExt x).length = x.length + 12 := by
  simp [evenExt]; omega

theorem filtfilt_length {c : Coeffs} {x w : List ℝ} (h : filtfilt c x = .ok w) :
    6 < x.length ∧ w.length = x.length := by
  unfold filtfilt at h
  by_cases h6 : x.length ≤ 6
  · rw [if_pos h6] at h; cases h
  · rw [if_neg h6] at h
    cases h
    refine ⟨by omega, ?_⟩
    rw [List.length_take, List.length_drop, List.length_reverse, pass_length, List.length_reverse,
      pass_length, evenExt_length (by omega)]
    omega

/-! ### Range -/

theorem lfilter_between {c : Coeffs} {t m M : ℝ} (hc : Good c t) (h1 : t ≤ 1) {x : List ℝ}
    (hx : Between m M x) : ∀ z, (1 - c.g) * m ≤ z → z ≤ (1 - c.g) * M → Between m M (lfilter c z x) := by
  induction x with
  | nil => intro z _ _ v hv; simp [lfilter] at hv
  | cons a x ih =>
    intro z hz1 hz2
    have hg := hc.g_pos
    have hr := hc.r_nonneg h1
    obtain ⟨ha1, ha2⟩ := hx a (by simp)
    have hy1 : m ≤ c.g * a + z := by nlinarith [mul_le_mul_of_nonneg_left ha1 hg.le]
    have hy2 : c.g * a + z ≤ M := by nlinarith [mul_le_mul_of_nonneg_left ha2 hg.le]
    have e : 1 - c.g = c.g + c.r := by rw [hc.g_r]; ring
    have hrest := ih (fun v hv => hx v (by simp [hv])) (c.g * a + c.r * (c.g * a + z))
      (by rw [e, add_mul]
          exact add_le_add (mul_le_mul_of_nonneg_left ha1 hg.le) (mul_le_mul_of_nonneg_left hy1 hr))
      (by rw [e, add_mul]
          exact add_le_add (mul_le_mul_of_nonneg_left ha2 hg.le) (mul_le_mul_of_nonneg_left hy2 hr))
    intro v hv
    simp only [lfilter, List.mem_cons] at hv
    rcases hv with rfl | hv
    · exact ⟨hy1, hy2⟩
    · exact hrest v hv

theorem pass_between {c : Coeffs} {t m M : ℝ} (hc : Good c t) (h1 : t ≤ 1) {x : List ℝ}
    (hx : Between m M x) : Between m M (pass c x) := by
  cases x with
  | nil => intro v hv; simp [pass, lfilter] at hv
  | cons a x =>
    obtain ⟨ha1, ha2⟩ := hx a (by simp)
    have := hc.g_lt
    refine lfilter_between hc h1 hx _ ?_ ?_ <;> rw [hc.zi] <;>
      exact mul_le_mul_of_nonneg_left (by simpa) (by linarith)

theorem evenExt_between {m M : ℝ} {x : List ℝ} (hx : Between m M x) : Between m M (evenExt x) := by
  intro v hv
  simp only [evenExt, List.mem_append, List.mem_reverse] at hv
  rcases hv with (hv | hv) | hv
  · exact hx v (List.mem_of_mem_drop (List.mem_of_mem_take hv))
  · exact hx v hv
  · exact hx v (List.mem_reverse.1 (List.mem_of_mem_drop (List.mem_of_mem_take hv)))

theorem reverse_between {m M : ℝ} {x : List ℝ} (hx : Between m M x) : Between m M x.reverse :=
  fun v hv => hx v (List.mem_reverse.1 hv)

theorem filtfilt_between {c : Coeffs} {t m M : ℝ} (hc : Good c t) (h1 : t ≤ 1) {x w : List ℝ}
    (hx : Between m M x) (h : filtfilt c x = .ok w) : Between m M w := by
  unfold filtfilt at h
  by_cases h6 : x.length ≤ 6
  · rw [if_pos h6] at h; cases h
  · rw [if_neg h6] at h
    cases h
    intro v hv
    exact reverse_between (pass_between hc h1 (reverse_between (pass_between hc h1
      (evenExt_between hx)))) v (List.mem_of_mem_drop (List.mem_of_mem_take hv))

/-! ### Linearity -/

/-- The samples `a x + b y`. -/
def comb (a b : ℝ) (x y : List ℝ) : List ℝ := List.zipWith (fun u v => a * u + b * v) x y

theorem lfilter_comb (c : Coeffs) (a b : ℝ) {x y : List ℝ} (h : x.length = y.length) :
    ∀ z z', lfilter c (a * z + b * z') (comb a b x y) = comb a b (lfilter c z x) (lfilter c z' y) := by
  induction x generalizing y with
  | nil => intro z z'; simp [comb, lfilter]
  | cons u x ih =>
    cases y with
    | nil => simp at h
    | cons v y =>
      intro z z'
      have h' : x.length = y.length := by simpa using h
      have := ih h' (c.g * u + c.r * (c.g * u + z)) (c.g * v + c.r * (c.g * v + z'))
      simp only [comb, List.zipWith_cons_cons, lfilter] at this ⊢
      rw [← this]
      congr 1
      · ring
      · congr 1; ring

theorem pass_comb (c : Coeffs) (a b : ℝ) {x y : List ℝ} (h : x.length = y.length) :
    pass c (comb a b x y) = comb a b (pass c x) (pass c y) := by
  unfold pass
  rw [← lfilter_comb c a b h]
  congr 1
  cases x with
  | nil => cases y with
    | nil => simp [comb]
    | cons v y => simp at h
  | cons u x => cases y with
    | nil => simp at h
    | cons v y => simp [comb]; ring

theorem comb_reverse (a b : ℝ) {x y : List ℝ} (h : x.length = y.length) :
    (comb a b x y).reverse = comb a b x.reverse y.reverse := List.reverse_zipWith h

theorem comb_drop (a b : ℝ) (x y : List ℝ) (k : ℕ) :
    (comb a b x y).drop k = comb a b (x.drop k) (y.drop k) := List.drop_zipWith

theorem comb_take (a b : ℝ) (x y : List ℝ) (k : ℕ) :
    (comb a b x y).take k = comb a b (x.take k) (y.take k) := List.take_zipWith

theorem evenExt_comb (a b : ℝ) {x y : List ℝ} (h : x.length = y.length) :
    evenExt (comb a b x y) = comb a b (evenExt x) (evenExt y) := by
  unfold evenExt
  rw [comb_drop, comb_take, comb_reverse a b (by simp [h]), comb_reverse a b h, comb_drop, comb_take]
  unfold comb
  rw [List.zipWith_append (by simp [h]), List.zipWith_append (by simp [h])]

theorem filtfilt_comb (c : Coeffs) (a b : ℝ) {x y w v : List ℝ} (h : x.length = y.length)
    (hx : filtfilt c x = .ok w) (hy : filtfilt c y = .ok v) :
    filtfilt c (comb a b x y) = .ok (comb a b w v) := by
  obtain ⟨h6, -⟩ := filtfilt_length hx
  have hl : (comb a b x y).length = x.length := by simp [comb, h]
  unfold filtfilt at hx hy ⊢
  rw [if_neg (by omega)] at hx hy
  rw [if_neg (by omega)]
  cases hx
  cases hy
  have he : (evenExt x).length = (evenExt y).length := by
    rw [evenExt_length h6, evenExt_length (by omega), h]
  simp only
  rw [hl, evenExt_comb a b h, pass_comb c a b he, comb_reverse a b (by simp [he]),
    pass_comb c a b (by simp [he]), comb_reverse a b (by simp [he]), comb_drop, comb_take, h]

/-! ### The recursion between neighbouring samples -/

theorem lfilter_step (c : Coeffs) (x : List ℝ) : ∀ z k, k + 1 < x.length →
    (lfilter c z x).getD (k + 1) 0 =
      c.r * (lfilter c z x).getD k 0 + c.g * (x.getD (k + 1) 0 + x.getD k 0) := by
  induction x with
  | nil => intro z k h; simp at h
  | cons a x ih =>
    intro z k hk
    cases k with
    | zero =>
      cases x with
      | nil => simp at hk
      | cons b x => simp [lfilter]; ring
    | succ k =>
      have := ih (c.g * a + c.r * (c.g * a + z)) k (by simpa using hk)
      simpa [lfilter] using this

theorem pass_step (c : Coeffs) (x : List ℝ) {k : ℕ} (h : k + 1 < x.length) :
    (pass c x).getD (k + 1) 0 = c.r * (pass c x).getD k 0 + c.g * (x.getD (k + 1) 0 + x.getD k 0) :=
  lfilter_step c x _ k h

theorem getD_reverse {L : List ℝ} {k : ℕ} (h : k < L.length) :
    L.reverse.getD k 0 = L.getD (L.length - 1 - k) 0 := by
  rw [List.getD_eq_getElem _ _ (by simpa using h), List.getD_eq_getElem _ _ (by omega),
    List.getElem_reverse]

/-- The backward pass. -/
theorem back_step (c : Coeffs) (y : List ℝ) {k : ℕ} (h : k + 1 < y.length) :
    (pass c y.reverse).reverse.getD k 0 = c.r * (pass c y.reverse).reverse.getD (k + 1) 0 +
      c.g * (y.getD k 0 + y.getD (k + 1) 0) := by
  rw [getD_reverse (by simp; omega), getD_reverse (by simp; omega)]
  simp only [pass_length, List.length_reverse]
  have := pass_step c y.reverse (k := y.length - 1 - (k + 1)) (by simp; omega)
  rw [show y.length - 1 - (k + 1) + 1 = y.length - 1 - k by omega, getD_reverse (by omega),
    getD_reverse (by omega), show y.length - 1 - (y.length - 1 - k) = k by omega,
    show y.length - 1 - (y.length - 1 - (k + 1)) = k + 1 by omega] at this
  exact this

theorem evenExt_getD {x : List ℝ} (h : 6 < x.length) {k : ℕ} (hk : k < x.length) :
    (evenExt x).getD (6 + k) 0 = x.getD k 0 := by
  have h6 : ((x.drop 1).take 6).reverse.length = 6 := by simp; omega
  unfold evenExt
  rw [List.append_assoc, List.getD_append_right _ _ _ _ (by omega), h6, Nat.add_sub_cancel_left,
    List.getD_append _ _ _ _ hk]

theorem between_getD {m M : ℝ} {x : List ℝ} (hx : Between m M x) {k : ℕ} (hk : k < x.length) :
    m ≤ x.getD k 0 ∧ x.getD k 0 ≤ M := by
  rw [List.getD_eq_getElem _ _ hk]
  exact hx _ (List.getElem_mem hk)

/-- The samples of a filtered trace: the forward pass `Y` and the backward pass `W`. -/
theorem filtfilt_steps {c : Coeffs} {x w : List ℝ} (h : filtfilt c x = .ok w) :
    ∃ Y W : List ℝ, Y = pass c (evenExt x) ∧ W = (pass c Y.reverse).reverse ∧
      Y.length = x.length + 12 ∧ W.length = x.length + 12 ∧
      (∀ k < x.length, w.getD k 0 = W.getD (6 + k) 0) ∧
      (∀ k, k + 1 < x.length → Y.getD (6 + (k + 1)) 0 =
        c.r * Y.getD (6 + k) 0 + c.g * (x.getD (k + 1) 0 + x.getD k 0)) ∧
      ∀ k, k + 1 < x.length → W.getD (6 + k) 0 =
        c.r * W.getD (6 + (k + 1)) 0 + c.g * (Y.getD (6 + k) 0 + Y.getD (6 + (k + 1)) 0) := by
  obtain ⟨h6, hl⟩ := filtfilt_length h
  have he := evenExt_length h6
  have hY : (pass c (evenExt x)).length = x.length + 12 := by rw [pass_length, he]
  refine ⟨_, _, rfl, rfl, hY, by simp [he], fun k hk => ?_, fun k hk => ?_, fun k hk => ?_⟩
  · unfold filtfilt at h
    rw [if_neg (by omega)] at h
    cases h
    simp only [List.getD_eq_getElem?_getD, List.getElem?_take, if_pos hk, List.getElem?_drop]
  · have := pass_step c (evenExt x) (k := 6 + k) (by omega)
    rw [show 6 + k + 1 = 6 + (k + 1) by ring, evenExt_getD h6 hk, evenExt_getD h6 (by omega)] at this
    exact this
  · exact back_step c _ (k := 6 + k) (by omega)

/-! ### The response to a cosine -/

/-- The forward response at the phase `ψ`; `q` is the ratio of the tangents. -/
noncomputable def fwd (A q ψ : ℝ) : ℝ := A * (Real.cos ψ + q * Real.sin ψ) / (1 + q ^ 2)

theorem fwd_abs (A q ψ : ℝ) : |fwd A q ψ| ≤ |A| := by
  have hq : 0 < 1 + q ^ 2 := by positivity
  have h2 := Real.sin_sq_add_cos_sq ψ
  have h3 : (Real.cos ψ + q * Real.sin ψ) ^ 2 ≤ (1 + q ^ 2) ^ 2 := by
    have e : (Real.cos ψ + q * Real.sin ψ) ^ 2 + (q * Real.cos ψ - Real.sin ψ) ^ 2 = 1 + q ^ 2 := by
      linear_combination (1 + q ^ 2) * h2
    nlinarith [sq_nonneg (q * Real.cos ψ - Real.sin ψ), sq_nonneg q]
  rw [← sq_le_sq, fwd, div_pow, div_le_iff₀ (by positivity), mul_pow]
  exact mul_le_mul_of_nonneg_left h3 (sq_nonneg A)

theorem double_angle {θ T : ℝ} (hc : Real.cos θ ≠ 0) (hT : T = Real.tan θ) :
    Real.cos (2 * θ) = (1 - T ^ 2) / (1 + T ^ 2) ∧ Real.sin (2 * θ) = 2 * T / (1 + T ^ 2) := by
  have h2 := Real.sin_sq_add_cos_sq θ
  have hT' : 1 + T ^ 2 ≠ 0 := by positivity
  rw [hT, Real.tan_eq_sin_div_cos] at *
  constructor
  · rw [Real.cos_two_mul]
    rw [eq_div_iff hT']
    field_simp
    linear_combination (2 * Real.cos θ ^ 2 - 1 + 1) * h2
  · rw [Real.sin_two_mul]
    rw [eq_div_iff hT']
    field_simp
    linear_combination Real.sin θ * h2

theorem fwd_step {c : Coeffs} {t : ℝ} (hc : Good c t) {θ T : ℝ} (hθ : Real.cos θ ≠ 0)
    (hT : T = Real.tan θ) (A ψ : ℝ) :
    fwd A (T / t) (ψ + 2 * θ) = c.r * fwd A (T / t) ψ +
      c.g * (A * Real.cos (ψ + 2 * θ) + A * Real.cos ψ) := by
  obtain ⟨h1, h2⟩ := double_angle hθ hT
  have ht := hc.ht
  have h3 : 1 + T ^ 2 ≠ 0 := by positivity
  have h4 : t ^ 2 + T ^ 2 ≠ 0 := by positivity
  have h5 : (1 : ℝ) + t ≠ 0 := by positivity
  unfold fwd
  rw [Real.cos_add, Real.sin_add, h1, h2, hc.hg, hc.hr]
  field_simp
  ring

theorem back_resp {c : Coeffs} {t : ℝ} (hc : Good c t) {θ T : ℝ} (hθ : Real.cos θ ≠ 0)
    (hT : T = Real.tan θ) (A ψ : ℝ) :
    A * Real.cos ψ / (1 + (T / t) ^ 2) = c.r * (A * Real.cos (ψ + 2 * θ) / (1 + (T / t) ^ 2)) +
      c.g * (fwd A (T / t) ψ + fwd A (T / t) (ψ + 2 * θ)) := by
  obtain ⟨h1, h2⟩ := double_angle hθ hT
  have ht := hc.ht
  have h3 : 1 + T ^ 2 ≠ 0 := by positivity
  have h4 : t ^ 2 + T ^ 2 ≠ 0 := by positivity
  have h5 : (1 : ℝ) + t ≠ 0 := by positivity
  unfold fwd
  rw [Real.cos_add, Real.sin_add, h1, h2, hc.hg, hc.hr]
  field_simp
  ring

theorem cosine_getD (A f φ fs : ℝ) {N k : ℕ} (hk : k < N) :
    (cosine A f φ fs N).getD k 0 = A * Real.cos (2 * Real.pi * f / fs * k + φ) := by
  simp [cosine, List.getD_eq_getElem?_getD, List.getElem?_range hk]

theorem cosine_between (A f φ fs : ℝ) (N : ℕ) : Between (-|A|) |A| (cosine A f φ fs N) := by
  intro v hv
  obtain ⟨k, -, rfl⟩ := List.mem_map.1 hv
  rw [← abs_le, abs_mul]
  exact mul_le_of_le_one_right (abs_nonneg A) (Real.abs_cos_le_one _)

theorem filtfilt_response {c : Coeffs} {t : ℝ} (hc : Good c t) (h1 : t ≤ 1) {A f φ fs : ℝ} {N : ℕ}
    {w : List ℝ} (hf : Real.cos (Real.pi * f / fs) ≠ 0) (h : filtfilt c (cosine A f φ fs N) = .ok w)
    {k : ℕ} (hk : k < N) :
    |w.getD k 0 - (cosine A f φ fs N).getD k 0 / (1 + (Real.tan (Real.pi * f / fs) / t) ^ 2)| ≤
      |A| * (c.r ^ k + 2 * c.r ^ (N - 1 - k)) := by
  have hN : (cosine A f φ fs N).length = N := by simp [cosine]
  have hr := hc.r_nonneg h1
  obtain ⟨Y, W, hY, hW, hYl, hWl, hw, hys, hws⟩ := filtfilt_steps h
  rw [hN] at hYl hWl hw hys hws
  have hbY : Between (-|A|) |A| Y := by
    rw [hY]; exact pass_between hc h1 (evenExt_between (cosine_between A f φ fs N))
  have hbW : Between (-|A|) |A| W := by
    rw [hW]; exact reverse_between (pass_between hc h1 (reverse_between hbY))
  set q := Real.tan (Real.pi * f / fs) / t with hq
  have hψ : ∀ k : ℕ, 2 * Real.pi * f / fs * ((k + 1 : ℕ) : ℝ) + φ =
      (2 * Real.pi * f / fs * k + φ) + 2 * (Real.pi * f / fs) := by intro k; push_cast; ring
  set ψ : ℕ → ℝ := fun k => 2 * Real.pi * f / fs * k + φ with hψd
  have hx : ∀ k < N, (cosine A f φ fs N).getD k 0 = A * Real.cos (ψ k) := fun k hk =>
    cosine_getD A f φ fs hk
  have hψ' : ∀ k, ψ (k + 1) = ψ k + 2 * (Real.pi * f / fs) := hψ
  -- the forward pass
  have he : ∀ k < N, Y.getD (6 + k) 0 - fwd A q (ψ k) = c.r ^ k * (Y.getD 6 0 - fwd A q (ψ 0)) := by
    intro k
    induction k with
    | zero => intro _; simp
    | succ k ih =>
      intro hk
      rw [hys k hk, hx _ hk, hx _ (by omega), hψ', fwd_step hc hf rfl, pow_succ, mul_comm (c.r ^ k),
        mul_assoc, ← ih (by omega)]
      ring
  have he0 : |Y.getD 6 0 - fwd A q (ψ 0)| ≤ 2 * |A| := by
    have h1 := abs_le.2 (between_getD hbY (k := 6) (by omega))
    have h2 := fwd_abs A q (ψ 0)
    have := abs_sub (Y.getD 6 0) (fwd A q (ψ 0))
    linarith
  -- the backward pass
  have hd : ∀ j k : ℕ, k + j + 1 = N → |W.getD (6 + k) 0 - A * Real.cos (ψ k) / (1 + q ^ 2)| ≤
      |A| * (c.r ^ k + 2 * c.r ^ j) := by
    intro j
    induction j with
    | zero =>
      intro k hk
      have h1 := abs_le.2 (between_getD hbW (k := 6 + k) (by omega))
      have h2 : |A * Real.cos (ψ k) / (1 + q ^ 2)| ≤ |A| := by
        have : (1 : ℝ) ≤ 1 + q ^ 2 := by nlinarith [sq_nonneg q]
        rw [abs_div, abs_of_nonneg (a := 1 + q ^ 2) (by linarith), abs_mul]
        exact (div_le_self (by positivity) this).trans
          (mul_le_of_le_one_right (abs_nonneg A) (Real.abs_cos_le_one _))
      have h3 := abs_sub (W.getD (6 + k) 0) (A * Real.cos (ψ k) / (1 + q ^ 2))
      have h4 : 0 ≤ |A| * c.r ^ k := by positivity
      linarith
    | succ j ih =>
      intro k hk
      have h1 := ih (k + 1) (by omega)
      have e : W.getD (6 + k) 0 - A * Real.cos (ψ k) / (1 + q ^ 2) =
          c.r * (W.getD (6 + (k + 1)) 0 - A * Real.cos (ψ (k + 1)) / (1 + q ^ 2)) +
          c.g * (1 + c.r) * c.r ^ k * (Y.getD 6 0 - fwd A q (ψ 0)) := by
        have h2 := he k (by omega)
        have h3 := he (k + 1) (by omega)
        have h4 := back_resp hc hf rfl A (ψ k)
        rw [← hψ'] at h4
        rw [hws k (by omega), h4]
        rw [pow_succ] at h3
        linear_combination c.g * h2 + c.g * h3
      have hg := hc.g_pos
      have hA := abs_nonneg A
      rw [e]
      refine (abs_add_le _ _).trans ?_
      rw [abs_mul, abs_mul, abs_of_nonneg hr, abs_of_nonneg (a := c.g * (1 + c.r) * c.r ^ k) (by positivity)]
      have h5 : c.r * |W.getD (6 + (k + 1)) 0 - A * Real.cos (ψ (k + 1)) / (1 + q ^ 2)| ≤
          c.r * (|A| * (c.r ^ (k + 1) + 2 * c.r ^ j)) := mul_le_mul_of_nonneg_left h1 hr
      have h6 : c.g * (1 + c.r) * c.r ^ k * |Y.getD 6 0 - fwd A q (ψ 0)| ≤
          c.g * (1 + c.r) * c.r ^ k * (2 * |A|) := mul_le_mul_of_nonneg_left he0 (by positivity)
      have h7 : c.r * (|A| * (c.r ^ (k + 1) + 2 * c.r ^ j)) + c.g * (1 + c.r) * c.r ^ k * (2 * |A|) =
          |A| * (c.r ^ k + 2 * c.r ^ (j + 1)) := by
        have := hc.g_r
        rw [pow_succ, pow_succ]
        linear_combination |A| * c.r ^ k * (1 + c.r) * this
      linarith
  rw [hw k hk, hx k hk]
  exact hd (N - 1 - k) k (by omega)

theorem lowpass_ok {x w : List ℝ} {cut fs : ℝ} (h : lowpass x cut fs = .ok w) :
    ∃ c, fs ≠ 0 ∧ (0 < cut / (1 / 2 * fs) ∧ cut / (1 / 2 * fs) < 1) ∧
      butter1 (cut / (1 / 2 * fs)) = .ok c ∧ Good c (Real.tan (Real.pi * cut / fs)) ∧
      filtfilt c x = .ok w := by
  unfold lowpass at h
  by_cases h0 : fs = 0
  · rw [if_pos h0] at h; cases h
  rw [if_neg h0] at h
  cases hb : butter1 (cut / (1 / 2 * fs)) with
  | error e => rw [hb] at h; cases h
  | ok c =>
    rw [hb] at h
    have hg := butter1_good hb
    rw [show Real.pi * (cut / (1 / 2 * fs)) / 2 = Real.pi * cut / fs by field_simp] at hg
    refine ⟨c, h0, ?_, rfl, hg, h⟩
    unfold butter1 at hb
    by_contra hn
    rw [if_neg hn] at hb
    cases hb

theorem lowpass_defined' {x : List ℝ} {cut fs : ℝ} (h1 : 0 < cut) (h2 : cut < fs / 2)
    (h3 : 6 < x.length) : ∃ w, lowpass x cut fs = .ok w := by
  have hfs : 0 < fs := by linarith
  have hW : 0 < cut / (1 / 2 * fs) ∧ cut / (1 / 2 * fs) < 1 :=
    ⟨by positivity, by rw [div_lt_one (by positivity)]; linarith⟩
  unfold lowpass butter1 filtfilt
  rw [if_neg hfs.ne', if_pos hW]
  simp only [if_neg (not_le.2 h3)]
  exact ⟨_, rfl⟩

theorem lfilter_const {c : Coeffs} {t : ℝ} (hc : Good c t) (v : ℝ) (N : ℕ) :
    lfilter c ((1 - c.g) * v) (List.replicate N v) = List.replicate N v := by
  induction N with
  | zero => rfl
  | succ N ih =>
    rw [List.replicate_succ]
    simp only [lfilter]
    rw [show c.g * v + (1 - c.g) * v = v by ring,
      show c.g * v + c.r * v = (1 - c.g) * v by rw [hc.g_r]; ring, ih]

theorem pass_const {c : Coeffs} {t : ℝ} (hc : Good c t) (v : ℝ) (N : ℕ) :
    pass c (List.replicate N v) = List.replicate N v := by
  cases N with
  | zero => rfl
  | succ N =>
    unfold pass
    rw [hc.zi, show (List.replicate (N + 1) v).headD 0 = v by rw [List.replicate_succ]; rfl,
      lfilter_const hc]

theorem evenExt_const {v : ℝ} {N : ℕ} (h : 6 < N) :
    evenExt (List.replicate N v) = List.replicate (N + 12) v := by
  simp only [evenExt, List.drop_replicate, List.take_replicate, List.reverse_replicate,
    List.replicate_append_replicate]
  congr 1
  omega

theorem tan_le_one {cut fs : ℝ} (hc : 0 < cut) (h : cut ≤ fs / 4) :
    Real.tan (Real.pi * cut / fs) ≤ 1 := by
  have hfs : 0 < fs := by linarith
  have hp := Real.pi_pos
  rw [← Real.tan_pi_div_four]
  have hle : Real.pi * cut / fs ≤ Real.pi / 4 := by
    rw [div_le_iff₀ hfs]; nlinarith
  have h0 : 0 ≤ Real.pi * cut / fs := by positivity
  rcases hle.lt_or_eq with hlt | heq
  · exact (Real.tan_lt_tan_of_nonneg_of_lt_pi_div_two h0 (by linarith) hlt).le
  · rw [heq]

end Verif.Lowpass
