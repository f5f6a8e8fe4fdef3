import Verif.Spatial.Spatial

/-!
# Properties C180-C182: ranges of distance along a line of sight
-/

set_option linter.unusedSectionVars false

noncomputable section

namespace Verif.Spatial

open Real

/-- Specification: the square of the distance from the centre of the point at distance `r` in direction `mu`, `phi`, in units in which the spheroid with squared minor axis `q` is a sphere. -/
def rho2 (q r0 mu phi r : ℝ) : ℝ := gx r0 mu r ^ 2 + gy mu phi r ^ 2 + gz mu phi r ^ 2 / q

/-- The coefficient of `r²` in `rho2`. -/
def coefA (q mu phi : ℝ) : ℝ := mu ^ 2 + (1 - mu ^ 2) * (sin phi ^ 2 + cos phi ^ 2 / q)

theorem rho2_eq {q r0 mu phi r : ℝ} (hm : |mu| ≤ 1) : rho2 q r0 mu phi r = coefA q mu phi * r ^ 2 - 2 * (r0 * mu) * r + r0 ^ 2 := by
  have h : 0 ≤ 1 - mu * mu := by nlinarith [abs_le.1 hm]
  have e : √(1 - mu * mu) ^ 2 = 1 - mu * mu := sq_sqrt h
  simp only [rho2, gx, gy, gz, coefA]
  have : (r * √(1 - mu * mu) * sin phi) ^ 2 + (r * √(1 - mu * mu) * cos phi) ^ 2 / q = r ^ 2 * (1 - mu * mu) * (sin phi ^ 2 + cos phi ^ 2 / q) := by
    rw [mul_pow, mul_pow, mul_pow, mul_pow, e]; ring
  rw [add_assoc, this]; ring

theorem coefA_one (mu phi : ℝ) : coefA 1 mu phi = 1 := by
  rw [coefA, div_one, sin_sq_add_cos_sq]; ring

theorem coefA_ge {q : ℝ} (h0 : 0 < q) (h1 : q ≤ 1) {mu phi : ℝ} (hm : |mu| ≤ 1) : 1 ≤ coefA q mu phi := by
  have h : 0 ≤ 1 - mu ^ 2 := by nlinarith [abs_le.1 hm]
  have h2 : cos phi ^ 2 ≤ cos phi ^ 2 / q := by
    rw [le_div_iff₀ h0]; nlinarith [sq_nonneg (cos phi)]
  have h3 := sin_sq_add_cos_sq phi
  rw [coefA]; nlinarith

/-- The quadratic formula behind all ranges: `u = A r - r0 mu` squared compared with the discriminant. -/
theorem quad {a r0 m r b : ℝ} : a * (a * r ^ 2 - 2 * m * r + r0 ^ 2 - b ^ 2) = (a * r - m) ^ 2 - (m * m - (r0 * r0 - b * b) * a) := by ring

section
variable {a r0 m r b : ℝ} (ha : 0 < a)
include ha

theorem quad_le : a * r ^ 2 - 2 * m * r + r0 ^ 2 ≤ b ^ 2 ↔ (a * r - m) ^ 2 ≤ m * m - (r0 * r0 - b * b) * a := by
  have := quad (a := a) (r0 := r0) (m := m) (r := r) (b := b)
  constructor
  · intro h; nlinarith [mul_nonneg ha.le (sub_nonneg.2 h)]
  · intro h
    have : a * (a * r ^ 2 - 2 * m * r + r0 ^ 2 - b ^ 2) ≤ 0 := by linarith
    have := nonpos_of_mul_nonpos_right this ha
    linarith

theorem quad_ge : b ^ 2 ≤ a * r ^ 2 - 2 * m * r + r0 ^ 2 ↔ m * m - (r0 * r0 - b * b) * a ≤ (a * r - m) ^ 2 := by
  have := quad (a := a) (r0 := r0) (m := m) (r := r) (b := b)
  constructor
  · intro h; nlinarith [mul_nonneg ha.le (sub_nonneg.2 h)]
  · intro h
    have : 0 ≤ a * (a * r ^ 2 - 2 * m * r + r0 ^ 2 - b ^ 2) := by linarith
    have := nonneg_of_mul_nonneg_right this ha
    linarith

theorem lt_div' {x : ℝ} : r < (m + x) / a ↔ a * r - m < x := by
  rw [lt_div_iff₀ ha]; constructor <;> intro h <;> linarith
theorem div_lt' {x : ℝ} : (m + x) / a < r ↔ x < a * r - m := by
  rw [div_lt_iff₀ ha]; constructor <;> intro h <;> linarith
theorem le_div' {x : ℝ} : r ≤ (m + x) / a ↔ a * r - m ≤ x := by
  rw [le_div_iff₀ ha]; constructor <;> intro h <;> linarith
theorem div_le' {x : ℝ} : (m + x) / a ≤ r ↔ x ≤ a * r - m := by
  rw [div_le_iff₀ ha]; constructor <;> intro h <;> linarith

end

/-- What the two ranges should say: all points strictly inside the two ranges are in the shell, and all points of the interior of the shell ahead are in the (closed) ranges. -/
def Exact (g : ℝ → ℝ) (inner outer : ℝ) (range1 range2 : ℝ × ℝ) : Prop :=
  (∀ r, (range1.1 < r ∧ r < range1.2) ∨ (range2.1 < r ∧ r < range2.2) → 0 < r ∧ inner ^ 2 ≤ g r ∧ g r ≤ outer ^ 2) ∧
  (∀ r, 0 < r → inner ^ 2 < g r → g r < outer ^ 2 → (range1.1 ≤ r ∧ r ≤ range1.2) ∨ (range2.1 ≤ r ∧ r ≤ range2.2)) ∧
  (range1.1 < range1.2 → range2.1 < range2.2 → range1.2 ≤ range2.1)

/-- The interval of the shell for an observer inside the inner boundary. -/
theorem exact_in {a r0 m inner outer : ℝ} (ha : 0 < a) (h0 : 0 ≤ r0) (hi : r0 ≤ inner) (ho : inner ≤ outer) :
    Exact (fun r => a * r ^ 2 - 2 * m * r + r0 ^ 2) inner outer
      ((m + √(m * m - (r0 * r0 - inner * inner) * a)) / a, (m + √(m * m - (r0 * r0 - outer * outer) * a)) / a) (0, 0) := by
  have d1 : m * m ≤ m * m - (r0 * r0 - inner * inner) * a := by nlinarith [mul_nonneg (sub_nonneg.2 (mul_self_le_mul_self h0 hi)) ha.le]
  have d2 : m * m - (r0 * r0 - inner * inner) * a ≤ m * m - (r0 * r0 - outer * outer) * a := by
    nlinarith [mul_nonneg (sub_nonneg.2 (mul_self_le_mul_self (h0.trans hi) ho)) ha.le]
  set D := m * m - (r0 * r0 - inner * inner) * a with hD
  set E := m * m - (r0 * r0 - outer * outer) * a with hE
  have hD0 : 0 ≤ D := le_trans (mul_self_nonneg m) d1
  have hE0 : 0 ≤ E := hD0.trans d2
  have w1 : |m| ≤ √D := abs_le_sqrt (by rw [pow_two]; exact d1)
  have s1 := sq_sqrt hD0
  have s2 := sq_sqrt hE0
  have p1 := sqrt_nonneg D
  have p2 := sqrt_nonneg E
  have hm := abs_le.1 w1
  refine ⟨fun r hr => ?_, fun r hr hi' ho' => Or.inl ?_, fun _ h => absurd h (lt_irrefl _)⟩
  · rcases hr with ⟨l, u⟩ | ⟨l, u⟩
    · have l' := (div_lt' ha).1 l
      have u' := (lt_div' ha).1 u
      refine ⟨?_, (quad_ge ha).2 ?_, (quad_le ha).2 ?_⟩
      · have : 0 < a * r := by linarith
        exact pos_of_mul_pos_right this ha.le
      · rw [← hD, ← s1]; exact pow_le_pow_left₀ p1 l'.le 2
      · rw [← hE, ← s2]; exact pow_le_pow_left₀ (by linarith) u'.le 2
    · exact absurd (lt_trans l u) (lt_irrefl _)
  · have i' := (quad_ge ha).1 hi'.le
    have o' := (quad_le ha).1 ho'.le
    rw [← hD, ← s1] at i'
    rw [← hE, ← s2] at o'
    have hpos : -√D < a * r - m := by nlinarith [mul_pos ha hr]
    refine ⟨(div_le' ha).2 ?_, (le_div' ha).2 ((abs_le_of_sq_le_sq' o' p2).2)⟩
    by_contra hlt
    push Not at hlt
    have := sq_lt_sq' hpos hlt
    linarith

/-- For an observer in the shell whose line of sight meets the inner boundary ahead. -/
theorem exact_hit {a r0 m inner outer : ℝ} (ha : 0 < a) (h0 : 0 ≤ inner) (hi : inner ≤ r0) (ho : r0 ≤ outer) (hm : 0 ≤ m)
    (hd : 0 ≤ m * m - (r0 * r0 - inner * inner) * a) :
    Exact (fun r => a * r ^ 2 - 2 * m * r + r0 ^ 2) inner outer (0, (m - √(m * m - (r0 * r0 - inner * inner) * a)) / a)
      ((m + √(m * m - (r0 * r0 - inner * inner) * a)) / a, (m + √(m * m - (r0 * r0 - outer * outer) * a)) / a) := by
  have hr0 : 0 ≤ r0 := h0.trans hi
  have d1 : m * m - (r0 * r0 - inner * inner) * a ≤ m * m := by nlinarith [mul_nonneg (sub_nonneg.2 (mul_self_le_mul_self h0 hi)) ha.le]
  have d2 : m * m ≤ m * m - (r0 * r0 - outer * outer) * a := by nlinarith [mul_nonneg (sub_nonneg.2 (mul_self_le_mul_self hr0 ho)) ha.le]
  set D := m * m - (r0 * r0 - inner * inner) * a with hD
  set E := m * m - (r0 * r0 - outer * outer) * a with hE
  have hE0 : 0 ≤ E := (mul_self_nonneg m).trans d2
  have w1 : √D ≤ m := by rw [sqrt_le_left hm, pow_two]; exact d1
  have w2 : m ≤ √E := le_sqrt_of_sq_le (by rw [pow_two]; exact d2)
  have s1 := sq_sqrt hd
  have s2 := sq_sqrt hE0
  have p1 := sqrt_nonneg D
  have p2 := sqrt_nonneg E
  refine ⟨fun r hr => ?_, fun r hr hi' ho' => ?_, fun _ _ => ?_⟩
  · rcases hr with ⟨l, u⟩ | ⟨l, u⟩
    · simp only [sub_eq_add_neg] at u
      have u' := (lt_div' ha).1 u
      have hp := mul_pos ha l
      refine ⟨l, (quad_ge ha).2 ?_, (quad_le ha).2 ?_⟩
      · rw [← hD, ← s1, ← neg_sq (a * r - m)]; exact pow_le_pow_left₀ p1 (by linarith) 2
      · rw [← hE, ← s2]; exact sq_le_sq' (by linarith) (by linarith)
    · have l' := (div_lt' ha).1 l
      have u' := (lt_div' ha).1 u
      refine ⟨?_, (quad_ge ha).2 ?_, (quad_le ha).2 ?_⟩
      · have : 0 < a * r := by linarith
        exact pos_of_mul_pos_right this ha.le
      · rw [← hD, ← s1]; exact pow_le_pow_left₀ p1 l'.le 2
      · rw [← hE, ← s2]; exact pow_le_pow_left₀ (by linarith) u'.le 2
  · have i' := (quad_ge ha).1 hi'.le
    have o' := (quad_le ha).1 ho'.le
    rw [← hD, ← s1] at i'
    rw [← hE, ← s2] at o'
    rcases le_or_gt √D (a * r - m) with h | h
    · exact Or.inr ⟨(div_le' ha).2 h, (le_div' ha).2 (abs_le_of_sq_le_sq' o' p2).2⟩
    · refine Or.inl ⟨hr.le, ?_⟩
      simp only [sub_eq_add_neg]
      refine (le_div' ha).2 ?_
      by_contra hlt
      push Not at hlt
      have := sq_lt_sq' (by linarith : -√D < a * r - m) h
      linarith
  · simp only
    rw [div_le_div_iff_of_pos_right ha]; linarith

/-- For an observer in the shell whose line of sight does not meet the inner boundary ahead. -/
theorem exact_miss {a r0 m inner outer : ℝ} (ha : 0 < a) (h0 : 0 ≤ inner) (hi : inner ≤ r0) (ho : r0 ≤ outer)
    (hd : m ≤ 0 ∨ m * m - (r0 * r0 - inner * inner) * a ≤ 0) :
    Exact (fun r => a * r ^ 2 - 2 * m * r + r0 ^ 2) inner outer (0, (m + √(m * m - (r0 * r0 - outer * outer) * a)) / a) (0, 0) := by
  have hr0 : 0 ≤ r0 := h0.trans hi
  have d1 : 0 ≤ (r0 * r0 - inner * inner) * a := mul_nonneg (sub_nonneg.2 (mul_self_le_mul_self h0 hi)) ha.le
  have d2 : m * m ≤ m * m - (r0 * r0 - outer * outer) * a := by nlinarith [mul_nonneg (sub_nonneg.2 (mul_self_le_mul_self hr0 ho)) ha.le]
  set E := m * m - (r0 * r0 - outer * outer) * a with hE
  have hE0 : 0 ≤ E := (mul_self_nonneg m).trans d2
  have w2 : |m| ≤ √E := abs_le_sqrt (by rw [pow_two]; exact d2)
  have hm := abs_le.1 w2
  have s2 := sq_sqrt hE0
  have p2 := sqrt_nonneg E
  refine ⟨fun r hr => ?_, fun r hr hi' ho' => Or.inl ⟨hr.le, ?_⟩, fun _ h => absurd h (lt_irrefl _)⟩
  · rcases hr with ⟨l, u⟩ | ⟨l, u⟩
    · have u' := (lt_div' ha).1 u
      have hp := mul_pos ha l
      refine ⟨l, (quad_ge ha).2 ?_, (quad_le ha).2 ?_⟩
      · rcases hd with h | h
        · nlinarith
        · exact h.trans (sq_nonneg _)
      · rw [← hE, ← s2]; exact sq_le_sq' (by linarith) (by linarith)
    · exact absurd (lt_trans l u) (lt_irrefl _)
  · have o' := (quad_le ha).1 ho'.le
    rw [← hE, ← s2] at o'
    exact (le_div' ha).2 (abs_le_of_sq_le_sq' o' p2).2

/-- For an observer outside whose line of sight meets both boundaries ahead. -/
theorem exact_both {a r0 m inner outer : ℝ} (ha : 0 < a) (h0 : 0 ≤ inner) (hi : inner ≤ outer) (ho : outer ≤ r0) (hm : 0 ≤ m)
    (hd : 0 ≤ m * m - (r0 * r0 - inner * inner) * a) :
    Exact (fun r => a * r ^ 2 - 2 * m * r + r0 ^ 2) inner outer ((m - √(m * m - (r0 * r0 - outer * outer) * a)) / a, (m - √(m * m - (r0 * r0 - inner * inner) * a)) / a)
      ((m + √(m * m - (r0 * r0 - inner * inner) * a)) / a, (m + √(m * m - (r0 * r0 - outer * outer) * a)) / a) := by
  have d2 : m * m - (r0 * r0 - outer * outer) * a ≤ m * m := by nlinarith [mul_nonneg (sub_nonneg.2 (mul_self_le_mul_self (h0.trans hi) ho)) ha.le]
  have d1 : m * m - (r0 * r0 - inner * inner) * a ≤ m * m - (r0 * r0 - outer * outer) * a := by nlinarith [mul_nonneg (sub_nonneg.2 (mul_self_le_mul_self h0 hi)) ha.le]
  set D := m * m - (r0 * r0 - inner * inner) * a with hD
  set E := m * m - (r0 * r0 - outer * outer) * a with hE
  have hE0 : 0 ≤ E := hd.trans d1
  have w1 : √D ≤ √E := sqrt_le_sqrt d1
  have w2 : √E ≤ m := by rw [sqrt_le_left hm, pow_two]; exact d2
  have s1 := sq_sqrt hd
  have s2 := sq_sqrt hE0
  have p1 := sqrt_nonneg D
  have p2 := sqrt_nonneg E
  refine ⟨fun r hr => ?_, fun r hr hi' ho' => ?_, fun _ _ => ?_⟩
  · rcases hr with ⟨l, u⟩ | ⟨l, u⟩
    · simp only [sub_eq_add_neg] at l u
      have l' := (div_lt' ha).1 l
      have u' := (lt_div' ha).1 u
      refine ⟨?_, (quad_ge ha).2 ?_, (quad_le ha).2 ?_⟩
      · have : 0 < a * r := by linarith
        exact pos_of_mul_pos_right this ha.le
      · rw [← hD, ← s1, ← neg_sq (a * r - m)]; exact pow_le_pow_left₀ p1 (by linarith) 2
      · rw [← hE, ← s2]; exact sq_le_sq' (by linarith) (by linarith)
    · have l' := (div_lt' ha).1 l
      have u' := (lt_div' ha).1 u
      refine ⟨?_, (quad_ge ha).2 ?_, (quad_le ha).2 ?_⟩
      · have : 0 < a * r := by linarith
        exact pos_of_mul_pos_right this ha.le
      · rw [← hD, ← s1]; exact pow_le_pow_left₀ p1 l'.le 2
      · rw [← hE, ← s2]; exact pow_le_pow_left₀ (by linarith) u'.le 2
  · have i' := (quad_ge ha).1 hi'.le
    have o' := (quad_le ha).1 ho'.le
    rw [← hD, ← s1] at i'
    rw [← hE, ← s2] at o'
    have o2 := abs_le_of_sq_le_sq' o' p2
    rcases le_or_gt √D (a * r - m) with h | h
    · exact Or.inr ⟨(div_le' ha).2 h, (le_div' ha).2 o2.2⟩
    · refine Or.inl ?_
      simp only [sub_eq_add_neg]
      refine ⟨(div_le' ha).2 o2.1, (le_div' ha).2 ?_⟩
      by_contra hlt
      push Not at hlt
      have := sq_lt_sq' (by linarith : -√D < a * r - m) h
      linarith
  · simp only
    rw [div_le_div_iff_of_pos_right ha]; linarith

/-- For an observer outside whose line of sight meets only the outer boundary ahead. -/
theorem exact_outer {a r0 m inner outer : ℝ} (ha : 0 < a) (h0 : 0 ≤ outer) (ho : outer ≤ r0) (hm : 0 ≤ m)
    (hd : m * m - (r0 * r0 - inner * inner) * a ≤ 0) (he : 0 ≤ m * m - (r0 * r0 - outer * outer) * a) :
    Exact (fun r => a * r ^ 2 - 2 * m * r + r0 ^ 2) inner outer ((m - √(m * m - (r0 * r0 - outer * outer) * a)) / a, (m + √(m * m - (r0 * r0 - outer * outer) * a)) / a) (0, 0) := by
  have d2 : m * m - (r0 * r0 - outer * outer) * a ≤ m * m := by nlinarith [mul_nonneg (sub_nonneg.2 (mul_self_le_mul_self h0 ho)) ha.le]
  set E := m * m - (r0 * r0 - outer * outer) * a with hE
  have w2 : √E ≤ m := by rw [sqrt_le_left hm, pow_two]; exact d2
  have s2 := sq_sqrt he
  have p2 := sqrt_nonneg E
  refine ⟨fun r hr => ?_, fun r hr hi' ho' => Or.inl ?_, fun _ h => absurd h (lt_irrefl _)⟩
  · rcases hr with ⟨l, u⟩ | ⟨l, u⟩
    · simp only [sub_eq_add_neg] at l
      have l' := (div_lt' ha).1 l
      have u' := (lt_div' ha).1 u
      refine ⟨?_, (quad_ge ha).2 (hd.trans (sq_nonneg _)), (quad_le ha).2 ?_⟩
      · have : 0 < a * r := by linarith
        exact pos_of_mul_pos_right this ha.le
      · rw [← hE, ← s2]; exact sq_le_sq' l'.le u'.le
    · exact absurd (lt_trans l u) (lt_irrefl _)
  · have o' := (quad_le ha).1 ho'.le
    rw [← hE, ← s2] at o'
    have o2 := abs_le_of_sq_le_sq' o' p2
    simp only [sub_eq_add_neg]
    exact ⟨(div_le' ha).2 o2.1, (le_div' ha).2 o2.2⟩

/-- For an observer outside whose line of sight does not meet the outer boundary ahead. -/
theorem exact_none {a r0 m inner outer : ℝ} (ha : 0 < a) (h0 : 0 ≤ outer) (ho : outer ≤ r0)
    (hd : m ≤ 0 ∨ m * m - (r0 * r0 - outer * outer) * a ≤ 0) :
    Exact (fun r => a * r ^ 2 - 2 * m * r + r0 ^ 2) inner outer (0, 0) (0, 0) := by
  refine ⟨fun r hr => ?_, fun r hr hi' ho' => ?_, fun _ h => absurd h (lt_irrefl _)⟩
  · rcases hr with ⟨l, u⟩ | ⟨l, u⟩ <;> exact absurd (lt_trans l u) (lt_irrefl _)
  · exfalso
    have d1 : 0 ≤ (r0 * r0 - outer * outer) * a := mul_nonneg (sub_nonneg.2 (mul_self_le_mul_self h0 ho)) ha.le
    have hp := mul_pos ha hr
    rcases hd with h | h
    · nlinarith [mul_pos hp hr, mul_nonneg (neg_nonneg.2 h) hr.le]
    · have h1 : ¬ outer ^ 2 ≤ a * r ^ 2 - 2 * m * r + r0 ^ 2 := not_le.2 ho'
      rw [quad_ge ha] at h1
      exact h1 (h.trans (sq_nonneg _))

/-! ## The sphere -/

theorem sqrt_scaled {r0 : ℝ} (h : 0 < r0) (mu b : ℝ) : r0 * √(mu * mu - 1 + (b / r0) ^ 2) = √((r0 * mu) * (r0 * mu) - (r0 * r0 - b * b) * 1) := by
  rw [show (r0 * mu) * (r0 * mu) - (r0 * r0 - b * b) * 1 = r0 ^ 2 * (mu * mu - 1 + (b / r0) ^ 2) by field_simp; ring, sqrt_mul (sq_nonneg _), sqrt_sq h.le]

theorem crit {r0 : ℝ} (h : 0 < r0) {mu b : ℝ} (hb : 0 ≤ b) (hbr : b ≤ r0) : mu > √(1 - (b / r0) ^ 2) ↔ 0 < mu ∧ 0 < (r0 * mu) * (r0 * mu) - (r0 * r0 - b * b) * 1 := by
  have e : (r0 * mu) * (r0 * mu) - (r0 * r0 - b * b) * 1 = r0 ^ 2 * (mu ^ 2 - (1 - (b / r0) ^ 2)) := by field_simp
  have hn : 0 ≤ 1 - (b / r0) ^ 2 := by
    rw [sub_nonneg]; exact pow_le_one₀ (div_nonneg hb h.le) ((div_le_one h).2 hbr)
  rw [e, mul_pos_iff_of_pos_left (by positivity)]
  constructor
  · intro hm
    have : 0 < mu := lt_of_le_of_lt (sqrt_nonneg _) hm
    exact ⟨this, by have := (sqrt_lt' this).1 hm; linarith⟩
  · rintro ⟨h1, h2⟩
    exact (sqrt_lt' h1).2 (by linarith)

/-- C180: for the bounded sphere the two ranges of distance are exactly those in which the line of sight is between the boundaries, in order, for every position of the observer and every direction. -/
theorem C180_sphere {r0 inner outer mu phi : ℝ} (h0 : 0 ≤ r0) (hi : 0 ≤ inner) (ho : inner ≤ outer) (hm : |mu| ≤ 1) :
    Exact (rho2 1 r0 mu phi) inner outer (sphere1 r0 inner outer mu) (sphere2 r0 inner outer mu) := by
  have hg : rho2 1 r0 mu phi = fun r => 1 * r ^ 2 - 2 * (r0 * mu) * r + r0 ^ 2 := by
    funext r; rw [rho2_eq hm, coefA_one]
  rw [hg]
  rcases h0.eq_or_lt with h | h
  · subst h
    have := exact_in (a := 1) (r0 := 0) (m := 0) one_pos le_rfl hi ho
    simp only [zero_mul, sub_zero, zero_sub, zero_add, mul_one, div_one, neg_neg, sqrt_mul_self hi, sqrt_mul_self (hi.trans ho), mul_zero] at this
    simpa [sphere1, sphere2] using this
  have hne : r0 ≠ 0 := h.ne'
  simp only [sphere1, sphere2, hne, if_false, false_or]
  by_cases h1 : r0 ≤ inner
  · simp only [if_pos h1, mul_add, sqrt_scaled h]
    simpa [add_comm] using exact_in (a := 1) (m := r0 * mu) one_pos h0 h1 ho
  · push Not at h1
    simp only [if_neg (not_le.2 h1)]
    by_cases h2 : r0 < outer
    · simp only [if_pos (show r0 > inner ∧ r0 < outer from ⟨h1, h2⟩)]
      by_cases h3 : mu > √(1 - (inner / r0) ^ 2)
      · have hc := (crit h hi h1.le).1 h3
        simp only [if_pos h3, mul_sub, mul_add, sqrt_scaled h]
        simpa using exact_hit (a := 1) (m := r0 * mu) one_pos hi h1.le h2.le (mul_pos h hc.1).le hc.2.le
      · have hc := (not_congr (crit h hi h1.le)).1 h3
        simp only [if_neg h3, mul_add, sqrt_scaled h]
        have : r0 * mu ≤ 0 ∨ (r0 * mu) * (r0 * mu) - (r0 * r0 - inner * inner) * 1 ≤ 0 := by
          rcases le_or_gt mu 0 with hmu | hmu
          · exact Or.inl (mul_nonpos_of_nonneg_of_nonpos h0 hmu)
          · exact Or.inr (not_lt.1 fun hh => hc ⟨hmu, hh⟩)
        simpa [add_comm] using exact_miss (a := 1) (m := r0 * mu) one_pos hi h1.le h2.le this
    · have h2' := not_lt.1 h2
      simp only [if_neg (show ¬ (r0 > inner ∧ r0 < outer) from fun hh => h2 hh.2)]
      by_cases h4 : mu > √(1 - (outer / r0) ^ 2)
      · have hc := (crit h (hi.trans ho) h2').1 h4
        simp only [if_pos h4]
        by_cases h3 : mu > √(1 - (inner / r0) ^ 2)
        · have hc' := (crit h hi h1.le).1 h3
          simp only [if_pos h3, mul_sub, mul_add, sqrt_scaled h]
          simpa using exact_both (a := 1) (m := r0 * mu) one_pos hi ho h2' (mul_pos h hc.1).le hc'.2.le
        · have hc' := (not_congr (crit h hi h1.le)).1 h3
          simp only [if_neg h3, mul_sub, mul_add, sqrt_scaled h]
          simpa using exact_outer (a := 1) (m := r0 * mu) one_pos (hi.trans ho) h2' (mul_pos h hc.1).le (not_lt.1 fun hh => hc' ⟨hc.1, hh⟩) hc.2.le
      · have hc := (not_congr (crit h (hi.trans ho) h2')).1 h4
        simp only [if_neg h4]
        refine exact_none (a := 1) (m := r0 * mu) one_pos (hi.trans ho) h2' ?_
        rcases le_or_gt mu 0 with hmu | hmu
        · exact Or.inl (mul_nonpos_of_nonneg_of_nonpos h0 hmu)
        · exact Or.inr (not_lt.1 fun hh => hc ⟨hmu, hh⟩)

/-- C180: so the density is that of the power law throughout the ranges. -/
theorem C180_density {c p r0 inner outer mu phi r : ℝ} (h0 : 0 ≤ r0) (hi : 0 ≤ inner) (ho : inner ≤ outer) (hm : |mu| ≤ 1)
    (hr : ((sphere1 r0 inner outer mu).1 < r ∧ r < (sphere1 r0 inner outer mu).2) ∨ ((sphere2 r0 inner outer mu).1 < r ∧ r < (sphere2 r0 inner outer mu).2)) :
    density1 c p inner outer (gx r0 mu r) (gy mu phi r) (gz mu phi r) = c / √(rho2 1 r0 mu phi r) ^ p := by
  obtain ⟨_, h2, h3⟩ := (C180_sphere (phi := phi) h0 hi ho hm).1 r hr
  have e : gx r0 mu r * gx r0 mu r + gy mu phi r * gy mu phi r + gz mu phi r * gz mu phi r = rho2 1 r0 mu phi r := by rw [rho2]; ring
  have hdel : (1 : ℝ) ≤ del := by rw [del]; norm_num
  have l1 : inner / del ≤ √(rho2 1 r0 mu phi r) := (div_le_self hi hdel).trans (le_sqrt_of_sq_le h2)
  have l2 : √(rho2 1 r0 mu phi r) ≤ outer * del := by
    refine le_trans ?_ (le_mul_of_one_le_right (hi.trans ho) hdel)
    rw [sqrt_le_left (hi.trans ho)]; exact h3
  simp only [density1, e, if_pos (show _ ≥ inner / del ∧ _ ≤ outer * del from ⟨l1, l2⟩)]
  split_ifs with hp
  · rfl
  · rw [not_not.1 hp, rpow_zero, div_one]

/-! ## The spheroid -/

theorem losC_eq (q mu phi : ℝ) : losC q mu phi = √(coefA q mu phi) := by rw [losC, coefA]; ring_nf

/-- With the square of `C` in its place the ranges of the spheroid would be right for directions towards the centre, and for all directions from inside the inner boundary. -/
theorem spheroid_exact {a r0 inner outer mu : ℝ} {junk : ℝ} (ha : 0 < a) (h0 : 0 < r0) (hi : 0 ≤ inner) (ho : inner ≤ outer) (hj : junk = inner) (hm : 0 ≤ mu ∨ r0 ≤ inner) :
    Exact (fun r => a * r ^ 2 - 2 * (r0 * mu) * r + r0 ^ 2) inner outer (spheroid1 r0 a inner outer mu) (spheroid2 junk r0 a inner outer mu) := by
  subst hj
  have hne : r0 ≠ 0 := h0.ne'
  simp only [spheroid1, spheroid2, hne, if_false, false_or]
  by_cases h1 : r0 ≤ junk
  · simp only [if_pos h1]
    exact exact_in ha h0.le h1 ho
  · have hm' : 0 ≤ r0 * mu := mul_nonneg h0.le (hm.resolve_right h1)
    push Not at h1
    simp only [if_neg (not_le.2 h1)]
    by_cases h2 : r0 < outer
    · simp only [if_pos (show r0 > junk ∧ r0 < outer from ⟨h1, h2⟩)]
      by_cases h3 : r0 * mu * (r0 * mu) - (r0 * r0 - junk * junk) * a > 0
      · simp only [if_pos h3]
        exact exact_hit ha hi h1.le h2.le hm' h3.le
      · simp only [if_neg h3]
        exact exact_miss ha hi h1.le h2.le (Or.inr (not_lt.1 h3))
    · have h2' := not_lt.1 h2
      simp only [if_neg (show ¬ (r0 > junk ∧ r0 < outer) from fun hh => h2 hh.2)]
      by_cases h4 : r0 * mu * (r0 * mu) - (r0 * r0 - outer * outer) * a > 0
      · by_cases h3 : r0 * mu * (r0 * mu) - (r0 * r0 - junk * junk) * a > 0
        · simp only [if_pos h4, if_pos h3, if_pos (And.intro h4 h3)]
          exact exact_both ha hi ho h2' hm' h3.le
        · simp only [if_pos h4, if_neg h3, if_neg (show ¬ (_ ∧ _) from fun hh => h3 hh.2)]
          exact exact_outer ha (hi.trans ho) h2' hm' (not_lt.1 h3) h4.le
      · simp only [if_neg h4, if_neg (show ¬ (_ ∧ _) from fun hh => h4 hh.1)]
        exact exact_none ha (hi.trans ho) h2' (Or.inr (not_lt.1 h4))

/-- C181: for the spheroid the ranges are exactly those in which the line of sight is between the boundaries if the eccentricity is zero, the direction is towards the centre (or the observer inside the inner boundary), and the variable that is not assigned happens to have the right value.

Missing: all of these (`C181_violated_oblate`, `C181_violated_offcentre`, `C181_violated_away`, `C181_violated_unset`). -/
theorem C181_spheroid_partial {r0 inner outer mu phi : ℝ} (h0 : 0 ≤ r0) (hi : 0 ≤ inner) (ho : inner ≤ outer) (hm : |mu| ≤ 1) (hd : 0 ≤ mu ∨ r0 ≤ inner) :
    Exact (rho2 1 r0 mu phi) inner outer (spheroid1 r0 (losC 1 mu phi) inner outer mu) (spheroid2 inner r0 (losC 1 mu phi) inner outer mu) := by
  have hg : rho2 1 r0 mu phi = fun r => 1 * r ^ 2 - 2 * (r0 * mu) * r + r0 ^ 2 := by
    funext r; rw [rho2_eq hm, coefA_one]
  rw [losC_eq, coefA_one, sqrt_one]
  rcases h0.eq_or_lt with h | h
  · subst h
    have := C180_sphere (phi := phi) (le_refl 0) hi ho hm
    simpa [spheroid1, spheroid2, sphere1, sphere2] using this
  · rw [hg]
    exact spheroid_exact one_pos h hi ho rfl hd

/-- C181 fails for an oblate spheroid seen from its centre: with axes 1 : 1/2 and boundaries 1 and 2 the range returned towards the pole is 2 to 4, while the shell extends from 1/2 to 1. -/
theorem C181_violated_oblate : spheroid1 0 (losC (1 / 4) 0 0) 1 2 0 = (2, 4) ∧ ∀ r, 0 ≤ r → ((1 : ℝ) ^ 2 ≤ rho2 (1 / 4) 0 0 0 r ∧ rho2 (1 / 4) 0 0 0 r ≤ 2 ^ 2 ↔ 1 / 2 ≤ r ∧ r ≤ 1) := by
  constructor
  · have e : losC (1 / 4) 0 0 = 2 := by
      rw [losC]; simp only [sin_zero, cos_zero]; norm_num
      rw [show (4 : ℝ) = 2 ^ 2 by norm_num]; exact sqrt_sq (by norm_num)
    rw [e, spheroid1]; norm_num
  · intro r hr
    rw [rho2_eq (by norm_num)]
    simp only [coefA, sin_zero, cos_zero]
    norm_num [abs_of_nonneg hr]
    intro _
    constructor <;> intro h1 <;> nlinarith

/-- C181 fails for an oblate spheroid seen from a point in it: with axes 1 : 1/2, no inner boundary, the outer one at 2 and the observer at 1, at right angles to the centre towards the pole, the range returned reaches beyond the boundary. -/
theorem C181_violated_offcentre : (spheroid1 1 (losC (1 / 4) 0 0) 0 2 0).1 = 0 ∧ 1 < (spheroid1 1 (losC (1 / 4) 0 0) 0 2 0).2 ∧ 2 ^ 2 < rho2 (1 / 4) 1 0 0 1 := by
  have e : losC (1 / 4) 0 0 = 2 := by
    rw [losC]; simp only [sin_zero, cos_zero]; norm_num
    rw [show (4 : ℝ) = 2 ^ 2 by norm_num]; exact sqrt_sq (by norm_num)
  rw [e, rho2_eq (by norm_num), spheroid1]
  simp only [coefA, sin_zero, cos_zero]
  norm_num
  rw [lt_div_iff₀ (by norm_num)]
  exact lt_sqrt_of_sq_lt (by norm_num)

/-- C181 fails for directions away from the centre, even for a sphere: from distance 2 in a shell from 1 to 3 the range of distances in the opposite direction is empty, and so is the rate of bursts, although the shell extends to distance 1. -/
theorem C181_violated_away (phi : ℝ) : (spheroid1 2 (losC 1 (-1) phi) 1 3 (-1)).2 ≤ (spheroid1 2 (losC 1 (-1) phi) 1 3 (-1)).1 ∧
    (∀ pi4 pi32 s el eu dist dens slope range2, dnDSdO pi4 pi32 s el eu dist dens slope (spheroid1 2 (losC 1 (-1) phi) 1 3 (-1)) range2 = 0) ∧
    ∀ r, 0 < r → r < 1 → 1 ^ 2 < rho2 1 2 (-1) phi r ∧ rho2 1 2 (-1) phi r < 3 ^ 2 := by
  have h1 : (spheroid1 2 (losC 1 (-1) phi) 1 3 (-1)).2 ≤ (spheroid1 2 (losC 1 (-1) phi) 1 3 (-1)).1 := by
    rw [losC_eq, coefA_one, sqrt_one, spheroid1]
    norm_num
  refine ⟨h1, fun pi4 pi32 s el eu dist dens slope range2 => ?_, fun r h0 h2 => ?_⟩
  · rw [dnDSdO, if_neg (not_lt.2 h1)]
  · rw [rho2_eq (by norm_num), coefA_one]
    constructor <;> nlinarith

/-- C181 fails for the second range: whether it is found depends on a variable that is not assigned. From distance 2 towards the centre of a shell from 1 to 3 it extends from 3 to 5; with a large value left in that variable it is missing. -/
theorem C181_violated_unset (phi : ℝ) : spheroid2 1 2 (losC 1 1 phi) 1 3 1 = (3, 5) ∧ spheroid2 5 2 (losC 1 1 phi) 1 3 1 = (0, 0) := by
  rw [losC_eq, coefA_one, sqrt_one]
  constructor
  · rw [spheroid2]
    norm_num
    rw [show (9 : ℝ) = 3 ^ 2 by norm_num, sqrt_sq (by norm_num)]; norm_num
  · rw [spheroid2]; norm_num

/-- An observer at 2 looking at the centre through a shell from 1 to 3: two ranges, 0 to 1 and 3 to 5. -/
example : sphere1 2 1 3 1 = (0, 1) ∧ sphere2 2 1 3 1 = (3, 5) := by
  have h : ¬ (1 : ℝ) ≤ √(1 - (1 / 2) ^ 2) := by
    rw [not_le, sqrt_lt' one_pos]; norm_num
  have h2 : √((1 : ℝ) * 1 - 1 + (1 / 2) ^ 2) = 1 / 2 := by
    rw [show (1 : ℝ) * 1 - 1 + (1 / 2) ^ 2 = (1 / 2) ^ 2 by norm_num]; exact sqrt_sq (by norm_num)
  have h3 : √((1 : ℝ) * 1 - 1 + (3 / 2) ^ 2) = 3 / 2 := by
    rw [show (1 : ℝ) * 1 - 1 + (3 / 2) ^ 2 = (3 / 2) ^ 2 by norm_num]; exact sqrt_sq (by norm_num)
  rw [sphere1, sphere2]
  rw [if_neg (by norm_num), if_neg (by norm_num), if_pos (by norm_num), if_pos (not_le.1 h), if_neg (by norm_num), if_pos (by norm_num), if_pos (not_le.1 h), h2, h3]
  norm_num

/-! ## C182: the nearest point and the range of directions -/

/-- Specification: the distances of the points of the shell from the observer at `r0` on the x axis. -/
def distances (r0 q inner outer : ℝ) : Set ℝ :=
  {d | ∃ x y z : ℝ, inner ^ 2 ≤ x ^ 2 + y ^ 2 + z ^ 2 / q ∧ x ^ 2 + y ^ 2 + z ^ 2 / q ≤ outer ^ 2 ∧ d = √((x - r0) ^ 2 + y ^ 2 + z ^ 2)}

theorem dist_outside {r0 outer q x y z : ℝ} (hq0 : 0 < q) (h0 : 0 ≤ outer) (h : x ^ 2 + y ^ 2 + z ^ 2 / q ≤ outer ^ 2) : r0 - outer ≤ √((x - r0) ^ 2 + y ^ 2 + z ^ 2) := by
  have hz : 0 ≤ z ^ 2 / q := by positivity
  have hx : x ≤ outer := abs_le_of_sq_le_sq' (by nlinarith [sq_nonneg y]) h0 |>.2
  refine le_trans (b := |x - r0|) ?_ ?_
  · rw [abs_sub_comm]; exact le_trans (by linarith) (le_abs_self _)
  · exact abs_le_sqrt (by nlinarith [sq_nonneg y, sq_nonneg z])

/-- C182: for the spheroid `r_min` is the distance to the nearest point of the shell, for every eccentricity and position of the observer. -/
theorem C182_spheroid {r0 q inner outer : ℝ} (h0 : 0 ≤ r0) (hq0 : 0 < q) (hq1 : q ≤ 1) (hi : 0 ≤ inner) (ho : inner ≤ outer) :
    IsLeast (distances r0 q inner outer) (rmin2 r0 q inner outer) := by
  have hio : inner ^ 2 ≤ outer ^ 2 := pow_le_pow_left₀ hi ho 2
  simp only [rmin2]
  by_cases h1 : r0 < inner
  · rw [if_pos h1]
    by_cases h2 : r0 ≥ inner * (1 - q)
    · rw [if_pos h2]
      constructor
      · refine ⟨inner, 0, 0, by simp, by simpa using hio, ?_⟩
        simp [sqrt_sq (sub_nonneg.2 h1.le)]
      · rintro d ⟨x, y, z, hx, -, rfl⟩
        refine le_sqrt_of_sq_le ?_
        have hz : q * (inner ^ 2 - x ^ 2 - y ^ 2) ≤ z ^ 2 := by
          have : inner ^ 2 - x ^ 2 - y ^ 2 ≤ z ^ 2 / q := by linarith
          calc q * (inner ^ 2 - x ^ 2 - y ^ 2) ≤ q * (z ^ 2 / q) := mul_le_mul_of_nonneg_left this hq0.le
            _ = z ^ 2 := by field_simp
        rcases le_or_gt x inner with hxi | hxi
        · have : 0 ≤ (inner - x) * (2 * r0 - (1 - q) * (x + inner)) := by
            refine mul_nonneg (by linarith) ?_
            nlinarith
          nlinarith [mul_nonneg (sub_nonneg.2 hq1) (sq_nonneg y)]
        · nlinarith [sq_nonneg y, sq_nonneg z]
    · rw [if_neg h2]
      push Not at h2
      have hq : 0 < 1 - q := by
        by_contra hh
        have : 1 - q = 0 := by linarith
        rw [this, mul_zero] at h2; linarith
      have hx0 : r0 / (1 - q) < inner := by rw [div_lt_iff₀ hq]; exact h2
      have hx0' : 0 ≤ r0 / (1 - q) := div_nonneg h0 hq.le
      set x0 := r0 / (1 - q) with hx0d
      have hr : r0 = x0 * (1 - q) := by rw [hx0d]; field_simp
      have hsq : 0 ≤ q * (inner ^ 2 - x0 ^ 2) := mul_nonneg hq0.le (by nlinarith)
      have e : q * inner ^ 2 - r0 ^ 2 * q / (1 - q) = (x0 - r0) ^ 2 + q * (inner ^ 2 - x0 ^ 2) := by
        rw [hr]; field_simp; ring
      rw [e]
      constructor
      · have hz : √(q * (inner ^ 2 - x0 ^ 2)) ^ 2 / q = inner ^ 2 - x0 ^ 2 := by rw [sq_sqrt hsq]; field_simp
        refine ⟨x0, 0, √(q * (inner ^ 2 - x0 ^ 2)), ?_, ?_, ?_⟩
        · rw [hz]; linarith
        · rw [hz]; linarith
        · rw [sq_sqrt hsq]; congr 1; ring
      · rintro d ⟨x, y, z, hx, -, rfl⟩
        refine sqrt_le_sqrt ?_
        have hz : q * (inner ^ 2 - x ^ 2 - y ^ 2) ≤ z ^ 2 := by
          have : inner ^ 2 - x ^ 2 - y ^ 2 ≤ z ^ 2 / q := by linarith
          calc q * (inner ^ 2 - x ^ 2 - y ^ 2) ≤ q * (z ^ 2 / q) := mul_le_mul_of_nonneg_left this hq0.le
            _ = z ^ 2 := by field_simp
        have := mul_nonneg hq.le (sq_nonneg (x - x0))
        have := mul_nonneg hq.le (sq_nonneg y)
        rw [hr]
        nlinarith
  · rw [if_neg h1]
    push Not at h1
    by_cases h2 : r0 ≤ outer
    · rw [if_pos ⟨h1, h2⟩]
      constructor
      · exact ⟨r0, 0, 0, by simpa using pow_le_pow_left₀ hi h1 2, by simpa using pow_le_pow_left₀ h0 h2 2, by simp⟩
      · rintro d ⟨x, y, z, -, -, rfl⟩; exact sqrt_nonneg _
    · rw [if_neg (fun hh => h2 hh.2)]
      push Not at h2
      rw [if_pos (by nlinarith [mul_nonneg (hi.trans ho) hq0.le] : r0 ≥ outer * (1 - q))]
      constructor
      · refine ⟨outer, 0, 0, by simpa using hio, by simp, ?_⟩
        rw [show (outer - r0) ^ 2 + (0 : ℝ) ^ 2 + 0 ^ 2 = (r0 - outer) ^ 2 by ring, sqrt_sq (by linarith)]
      · rintro d ⟨x, y, z, -, hx, rfl⟩
        exact dist_outside hq0 (hi.trans ho) hx

/-- C182: the same for the sphere. -/
theorem C182_sphere {r0 inner outer : ℝ} (h0 : 0 ≤ r0) (hi : 0 ≤ inner) (ho : inner ≤ outer) : IsLeast (distances r0 1 inner outer) (rmin1 r0 inner outer) := by
  have e : rmin1 r0 inner outer = rmin2 r0 1 inner outer := by
    simp only [rmin1, rmin2, sub_self, mul_zero, ge_iff_le, if_pos h0]
  rw [e]
  exact C182_spheroid h0 one_pos le_rfl hi ho

/-- C182: a line of sight that meets the spheroid is in the range of directions, for every eccentricity. -/
theorem C182_directions {r0 q outer mu phi r : ℝ} (hq0 : 0 < q) (hq1 : q ≤ 1) (ho : 0 < outer) (hm : |mu| ≤ 1) (hr : 0 < r)
    (h : rho2 q r0 mu phi r ≤ outer ^ 2) : muLo r0 outer ≤ mu := by
  rw [muLo]
  split_ifs with h1
  · have hr0 : 0 < r0 := lt_of_lt_of_le ho h1
    rw [rho2_eq hm] at h
    have ha := coefA_ge hq0 hq1 (phi := phi) hm
    have h2 : r ^ 2 - 2 * (r0 * mu) * r + r0 ^ 2 ≤ outer ^ 2 := by nlinarith [sq_nonneg r]
    have hmu : 0 ≤ mu := by
      by_contra hneg
      push Not at hneg
      nlinarith [mul_pos (mul_pos hr0 hr) (neg_pos.2 hneg), pow_le_pow_left₀ ho.le h1 2, pow_pos hr 2]
    rw [sqrt_le_left hmu]
    have : r0 ^ 2 * (1 - (outer / r0) ^ 2) ≤ r0 ^ 2 * mu ^ 2 := by
      have e : r0 ^ 2 * (1 - (outer / r0) ^ 2) = r0 ^ 2 - outer ^ 2 := by field_simp
      rw [e]; nlinarith [sq_nonneg (r - r0 * mu)]
    exact le_of_mul_le_mul_left this (by positivity)
  · exact (abs_le.1 hm).1

/-- C182: and for the sphere every direction above the lower limit meets it. -/
theorem C182_tight {r0 outer mu phi : ℝ} (ho : 0 < outer) (hr0 : outer ≤ r0) (hm : |mu| ≤ 1) (h : muLo r0 outer < mu) : 0 < r0 * mu ∧ rho2 1 r0 mu phi (r0 * mu) ≤ outer ^ 2 := by
  rw [muLo, if_pos hr0] at h
  have hp : 0 < r0 := lt_of_lt_of_le ho hr0
  have hc := (crit hp ho.le hr0).1 h
  refine ⟨mul_pos hp hc.1, ?_⟩
  rw [rho2_eq hm, coefA_one]
  nlinarith [hc.2]

/-- An observer at 1/4 in a spheroid of axes 1 : 1/2 with inner boundary 1: the nearest point is not on the axis. -/
example : rmin2 (1 / 4) (1 / 4) 1 2 = √(11 / 48) := by
  rw [rmin2, if_pos (by norm_num), if_neg (by norm_num)]; norm_num

end Verif.Spatial
