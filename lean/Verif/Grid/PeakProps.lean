import Verif.Grid.BasicGrid
import Mathlib.Tactic.FieldSimp
import Mathlib.Tactic.Linarith
import Mathlib.Tactic.Ring
import Mathlib.Data.Rat.Floor
import Mathlib.Analysis.SpecialFunctions.Pow.Real
import Mathlib.Analysis.SpecialFunctions.Log.Basic

/-!
# C73: the Gaussian fitted to a peak

`PeakParams` is documented to return the parameters of a Gaussian function through three points of the logarithm.
-/

set_option linter.unusedSectionVars false
set_option linter.unusedSimpArgs false

namespace Verif.Grid1

section
variable {K : Type} [Field K] [LinearOrder K] [IsStrictOrderedRing K] [FloorRing K]

theorem isPeak_iff {y0 y1 y2 : K} : isPeak y0 y1 y2 = true ↔ y0 < y1 ∧ y2 ≤ y1 := by
  unfold isPeak
  rw [decide_eq_true_iff]
  constructor
  · rintro (⟨h1, h2⟩ | ⟨h1, h2⟩)
    · exact ⟨h1, le_of_lt h2⟩
    · exact ⟨h1, le_of_eq h2.symm⟩
  · rintro ⟨h1, h2⟩
    rcases lt_or_eq_of_le h2 with h | h
    · exact Or.inl ⟨h1, h⟩
    · exact Or.inr ⟨h1, h.symm⟩

/-- Closed form of the fit, in terms of the spacings and drops. -/
theorem peakVar_eq (x0 y1 : K) {a b p q : K} (ha : 0 < a) (hb : 0 < b) (hp : 0 < p) (hq : 0 ≤ q) (hF : (a + b) ^ 2 - 2 * a ^ 2 ≠ 0) :
    (peakVar x0 (x0 + a) (x0 + a + b) (y1 - p) y1 (y1 - q)).2.1 = x0 + (a ^ 2 * q + b ^ 2 * p + 2 * a * b * p) / (2 * (a * q + b * p)) ∧
    (peakVar x0 (x0 + a) (x0 + a + b) (y1 - p) y1 (y1 - q)).2.2 = a * b * (a + b) / (2 * (a * q + b * p)) := by
  have hw : a + b ≠ 0 := ne_of_gt (add_pos ha hb)
  have hD : p + q ≠ 0 := ne_of_gt (by linarith)
  have hE : 0 < a * q + b * p := by
    have := mul_pos hb hp
    have := mul_nonneg (le_of_lt ha) hq
    linarith
  have hd : (peakVar x0 (x0 + a) (x0 + a + b) (y1 - p) y1 (y1 - q)).2.1 = x0 + (a ^ 2 * q + b ^ 2 * p + 2 * a * b * p) / (2 * (a * q + b * p)) := by
    unfold peakVar
    dsimp only
    congr 1
    have e1 : x0 + a + b - x0 = a + b := by ring
    have e2 : x0 + a - x0 = a := by ring
    have e3 : y1 - p - y1 = -p := by ring
    have e4 : -p - y1 + (y1 - q) = -(p + q) := by ring
    rw [e1, e2, e3, e4]
    have eF : 1 - 2 * (a / (a + b)) ^ 2 = ((a + b) ^ 2 - 2 * a ^ 2) / (a + b) ^ 2 := by field_simp
    rw [eF]
    obtain ⟨F, hFd⟩ : ∃ F, F = (a + b) ^ 2 - 2 * a ^ 2 := ⟨_, rfl⟩
    rw [← hFd] at hF ⊢
    have hE' := ne_of_gt hE
    have eC : (a / (a + b)) ^ 2 / (F / (a + b) ^ 2) + -p / -(p + q) =
        (a ^ 2 * (p + q) + p * F) / (F * (p + q)) := by
      rw [neg_div_neg_eq]
      field_simp
    rw [eC]
    have eden : 2 * (a / (a + b)) * (1 - a / (a + b)) + (a ^ 2 * (p + q) + p * F) / (F * (p + q)) *
        (2 - 4 * (a / (a + b))) * (F / (a + b) ^ 2) =
        2 * F * (a * q + b * p) / ((p + q) * (a + b) ^ 3) := by
      field_simp
      rw [hFd]
      ring
    rw [eden]
    field_simp
    rw [hFd]
    ring
  refine ⟨hd, ?_⟩
  have hs : (peakVar x0 (x0 + a) (x0 + a + b) (y1 - p) y1 (y1 - q)).2.2 =
      a * (1 / 2 * a - ((peakVar x0 (x0 + a) (x0 + a + b) (y1 - p) y1 (y1 - q)).2.1 - x0)) / -p := by
    unfold peakVar
    dsimp only
    have e1 : x0 + a + b - x0 = a + b := by ring
    have e2 : x0 + a - x0 = a := by ring
    have e3 : y1 - p - y1 = -p := by ring
    rw [e1, e2, e3]
    have e5 : (a + b) * (a / (a + b)) = a := by field_simp
    rw [e5, add_sub_cancel_left]
  rw [hs, hd]
  have hp' : p ≠ 0 := ne_of_gt hp
  have hE' := ne_of_gt hE
  field_simp
  ring

/-- **C73.** For three abscissas in order and ordinates that form a peak, the fitted variance is positive, the Gaussian with the fitted parameters goes
through all three points, and its centre lies between the midpoints of the two cells, in particular strictly inside the outer points. (The excluded spacing `√2 (x₁ - x₀) = x₂ - x₀`
makes the code divide by zero; it is not met on regular grids.) -/
theorem C73_through_points {x0 x1 x2 y0 y1 y2 : K} (h01 : x0 < x1) (h12 : x1 < x2) (hpk : isPeak y0 y1 y2 = true)
    (hF : (x2 - x0) ^ 2 ≠ 2 * (x1 - x0) ^ 2) :
    0 < (peakVar x0 x1 x2 y0 y1 y2).2.2 ∧
    (∀ p ∈ [(x0, y0), (x1, y1), (x2, y2)],
      p.2 = (peakVar x0 x1 x2 y0 y1 y2).1 - (p.1 - (peakVar x0 x1 x2 y0 y1 y2).2.1) ^ 2 / (2 * (peakVar x0 x1 x2 y0 y1 y2).2.2)) ∧
    (x0 + x1) / 2 < (peakVar x0 x1 x2 y0 y1 y2).2.1 ∧ (peakVar x0 x1 x2 y0 y1 y2).2.1 ≤ (x1 + x2) / 2 := by
  obtain ⟨h1, h2⟩ := isPeak_iff.mp hpk
  obtain ⟨a, ha, rfl⟩ : ∃ a, 0 < a ∧ x1 = x0 + a := ⟨x1 - x0, by linarith, by ring⟩
  obtain ⟨b, hb, rfl⟩ : ∃ b, 0 < b ∧ x2 = x0 + a + b := ⟨x2 - (x0 + a), by linarith, by ring⟩
  obtain ⟨p, hp, rfl⟩ : ∃ p, 0 < p ∧ y0 = y1 - p := ⟨y1 - y0, by linarith, by ring⟩
  obtain ⟨q, hq, rfl⟩ : ∃ q, 0 ≤ q ∧ y2 = y1 - q := ⟨y1 - y2, by linarith, by ring⟩
  have hF' : (a + b) ^ 2 - 2 * a ^ 2 ≠ 0 := by
    intro h
    apply hF
    have e1 : x0 + a + b - x0 = a + b := by ring
    have e2 : x0 + a - x0 = a := by ring
    rw [e1, e2]; linarith
  obtain ⟨hm, hv⟩ := peakVar_eq x0 y1 ha hb hp hq hF'
  have hA : (peakVar x0 (x0 + a) (x0 + a + b) (y1 - p) y1 (y1 - q)).1 =
      y1 + 1 / 2 * (x0 + a - (peakVar x0 (x0 + a) (x0 + a + b) (y1 - p) y1 (y1 - q)).2.1) ^ 2 / (peakVar x0 (x0 + a) (x0 + a + b) (y1 - p) y1 (y1 - q)).2.2 := rfl
  have hE : 0 < a * q + b * p := by
    have := mul_pos hb hp
    have := mul_nonneg (le_of_lt ha) hq
    linarith
  have hab := mul_pos ha hb
  have hab' : 0 < a * b * (a + b) := mul_pos hab (by linarith)
  have hE' := ne_of_gt hE
  have ha' := ne_of_gt ha
  have hb' := ne_of_gt hb
  have hw' : a + b ≠ 0 := ne_of_gt (by linarith)
  rw [hA, hm, hv]
  refine ⟨div_pos hab' (by linarith), ?_, ?_, ?_⟩
  · intro r hr
    simp only [List.mem_cons, List.not_mem_nil, or_false] at hr
    rcases hr with rfl | rfl | rfl
    · dsimp only
      field_simp
      ring
    · dsimp only
      field_simp
      ring
    · dsimp only
      field_simp
      ring
  · have : (a ^ 2 * q + b ^ 2 * p + 2 * a * b * p) / (2 * (a * q + b * p)) - a / 2 = b * p * (a + b) / (2 * (a * q + b * p)) := by
      field_simp; ring
    have h3 : 0 < b * p * (a + b) / (2 * (a * q + b * p)) := div_pos (mul_pos (mul_pos hb hp) (by linarith)) (by linarith)
    linarith
  · have : a + b / 2 - (a ^ 2 * q + b ^ 2 * p + 2 * a * b * p) / (2 * (a * q + b * p)) = a * q * (a + b) / (2 * (a * q + b * p)) := by
      field_simp; ring
    have h3 : 0 ≤ a * q * (a + b) / (2 * (a * q + b * p)) := div_nonneg (mul_nonneg (mul_nonneg (le_of_lt ha) hq) (by linarith)) (by linarith)
    linarith

/-- On a regular grid the excluded spacing does not occur. -/
theorem regular_ok {x0 s : K} (hs : 0 < s) : (x0 + 2 * s - x0) ^ 2 ≠ 2 * (x0 + s - x0) ^ 2 := by
  intro h
  have : s ^ 2 = 0 := by linarith [show (x0 + 2 * s - x0) ^ 2 - 2 * (x0 + s - x0) ^ 2 = 2 * s ^ 2 by ring]
  exact absurd (pow_pos hs 2) (by rw [this]; exact lt_irrefl _)

/-- **C73.** The fit is exact: if the three values are those of a Gaussian's logarithm, its parameters are returned. -/
theorem C73_exact {x0 x1 x2 A m v : K} (h01 : x0 < x1) (h12 : x1 < x2) (hv : 0 < v)
    (hpk : isPeak (A - (x0 - m) ^ 2 / (2 * v)) (A - (x1 - m) ^ 2 / (2 * v)) (A - (x2 - m) ^ 2 / (2 * v)) = true)
    (hF : (x2 - x0) ^ 2 ≠ 2 * (x1 - x0) ^ 2) :
    peakVar x0 x1 x2 (A - (x0 - m) ^ 2 / (2 * v)) (A - (x1 - m) ^ 2 / (2 * v)) (A - (x2 - m) ^ 2 / (2 * v)) = (A, m, v) := by
  obtain ⟨h1, h2, _⟩ := C73_through_points h01 h12 hpk hF
  generalize peakVar x0 x1 x2 (A - (x0 - m) ^ 2 / (2 * v)) (A - (x1 - m) ^ 2 / (2 * v)) (A - (x2 - m) ^ 2 / (2 * v)) = r at *
  obtain ⟨A', m', v'⟩ := r
  dsimp only at *
  have e0 := h2 (x0, A - (x0 - m) ^ 2 / (2 * v)) (by simp)
  have e1 := h2 (x1, A - (x1 - m) ^ 2 / (2 * v)) (by simp)
  have e2 := h2 (x2, A - (x2 - m) ^ 2 / (2 * v)) (by simp)
  dsimp only at e0 e1 e2
  have hv0 := ne_of_gt hv
  have hv0' := ne_of_gt h1
  have d1 : (x1 - x0) * (x1 + x0 - 2 * m) * v' = (x1 - x0) * (x1 + x0 - 2 * m') * v := by
    have : (x1 - m) ^ 2 / (2 * v) - (x0 - m) ^ 2 / (2 * v) = (x1 - m') ^ 2 / (2 * v') - (x0 - m') ^ 2 / (2 * v') := by linarith
    field_simp at this
    linarith
  have d2 : (x2 - x0) * (x2 + x0 - 2 * m) * v' = (x2 - x0) * (x2 + x0 - 2 * m') * v := by
    have : (x2 - m) ^ 2 / (2 * v) - (x0 - m) ^ 2 / (2 * v) = (x2 - m') ^ 2 / (2 * v') - (x0 - m') ^ 2 / (2 * v') := by linarith
    field_simp at this
    linarith
  have c1 : (x1 + x0 - 2 * m) * v' = (x1 + x0 - 2 * m') * v := by
    have : x1 - x0 ≠ 0 := ne_of_gt (by linarith)
    apply mul_left_cancel₀ this
    linarith
  have c2 : (x2 + x0 - 2 * m) * v' = (x2 + x0 - 2 * m') * v := by
    have : x2 - x0 ≠ 0 := ne_of_gt (by linarith)
    apply mul_left_cancel₀ this
    linarith
  have ev : v' = v := by
    have : (x2 - x1) * v' = (x2 - x1) * v := by linarith
    exact mul_left_cancel₀ (ne_of_gt (by linarith : (0 : K) < x2 - x1)) this
  subst ev
  have em : m' = m := by
    have := mul_right_cancel₀ hv0 c1
    linarith
  subst em
  simp only [Prod.mk.injEq, and_true]
  linarith

end

/-- **C73.** The width that is returned is the square root of the fitted variance, hence positive and finite. -/
theorem C73_width {fn : Fns ℝ} (hfn : fn.sqrt = Real.sqrt) {x0 x1 x2 y0 y1 y2 : ℝ} (h01 : x0 < x1) (h12 : x1 < x2) (hpk : isPeak y0 y1 y2 = true)
    (hF : (x2 - x0) ^ 2 ≠ 2 * (x1 - x0) ^ 2) :
    ∃ A m s, peakParams fn x0 x1 x2 y0 y1 y2 = (A, m, s) ∧ 0 < s ∧
      ∀ p ∈ [(x0, y0), (x1, y1), (x2, y2)], p.2 = A - (p.1 - m) ^ 2 / (2 * s ^ 2) := by
  obtain ⟨h1, h2, _⟩ := C73_through_points h01 h12 hpk hF
  refine ⟨_, _, _, rfl, ?_, ?_⟩
  · rw [hfn]; exact Real.sqrt_pos.mpr h1
  · intro p hp
    rw [hfn, Real.sq_sqrt (le_of_lt h1)]
    exact h2 p hp

/-- Non-vacuity: an asymmetric peak on unequal spacings. -/
example : (0 : ℚ) < 1 ∧ (1 : ℚ) < 3 ∧ isPeak (-2 : ℚ) 5 1 = true ∧ ((3 : ℚ) - 0) ^ 2 ≠ 2 * (1 - 0) ^ 2 ∧
    peakVar (0 : ℚ) 1 3 (-2) 5 1 = (19 / 3, 5 / 3, 1 / 6) := by decide +kernel

end Verif.Grid1
