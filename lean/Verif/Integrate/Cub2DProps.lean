import Verif.Integrate.Cub2DLemmas
import Mathlib.Tactic.IntervalCases

/-!
# Cubature on rectangles: C69

A polynomial of degree `d` in two variables is `poly d c`, the sum of `c i j x^i y^j` over all `i + j ≤ d`.
-/

set_option linter.unusedSectionVars false
set_option linter.unusedSimpArgs false

namespace Verif.Cub

open Finset

/-- The rule of `rect3` on the square. -/
def l3 (g : ℝ) : List (ℝ × ℝ × ℝ) := [(1, g, 0), (1, -g, 0), (1, 0, g), (1, 0, -g)]

/-- The rule of `rect7` on the square. -/
def l7 (g0 g1 g2 : Gen) : List (ℝ × ℝ × ℝ) :=
  [(g0.w, g0.g, 0), (g0.w, -g0.g, 0), (g0.w, 0, g0.g), (g0.w, 0, -g0.g),
   (g1.w, g1.g, g1.g), (g1.w, g1.g, -g1.g), (g1.w, -g1.g, g1.g), (g1.w, -g1.g, -g1.g),
   (g2.w, g2.g, g2.g), (g2.w, g2.g, -g2.g), (g2.w, -g2.g, g2.g), (g2.w, -g2.g, -g2.g)]

theorem rect3_app (g : ℝ) (f : ℝ → ℝ → ℝ) (xl xu yl yu : ℝ) :
    rect3 g f xl xu yl yu = 1 / 2 * (xu - xl) * (1 / 2 * (yu - yl)) *
      app (l3 g) (fun u v => f (1 / 2 * (xu - xl) * u + 1 / 2 * (xu + xl)) (1 / 2 * (yu - yl) * v + 1 / 2 * (yu + yl))) := by
  simp only [rect3, app, l3, List.map_cons, List.map_nil, List.sum_cons, List.sum_nil]
  ring_nf

theorem rect7_app (g0 g1 g2 : Gen) (f : ℝ → ℝ → ℝ) (xl xu yl yu : ℝ) :
    rect7 g0 g1 g2 f xl xu yl yu = 1 / 2 * (xu - xl) * (1 / 2 * (yu - yl)) *
      app (l7 g0 g1 g2) (fun u v => f (1 / 2 * (xu - xl) * u + 1 / 2 * (xu + xl)) (1 / 2 * (yu - yl) * v + 1 / 2 * (yu + yl))) := by
  simp only [rect7, app, l7, List.map_cons, List.map_nil, List.sum_cons, List.sum_nil]
  ring_nf

theorem mom3 (g : ℝ) (i j : ℕ) : app (l3 g) (fun u v => u ^ i * v ^ j) = (g ^ i + (-g) ^ i) * 0 ^ j + 0 ^ i * (g ^ j + (-g) ^ j) := by
  simp only [app, l3, List.map_cons, List.map_nil, List.sum_cons, List.sum_nil]
  ring

theorem mom7 (g0 g1 g2 : Gen) (i j : ℕ) :
    app (l7 g0 g1 g2) (fun u v => u ^ i * v ^ j) = g0.w * ((g0.g ^ i + (-g0.g) ^ i) * 0 ^ j + 0 ^ i * (g0.g ^ j + (-g0.g) ^ j)) +
      g1.w * ((g1.g ^ i + (-g1.g) ^ i) * (g1.g ^ j + (-g1.g) ^ j)) + g2.w * ((g2.g ^ i + (-g2.g) ^ i) * (g2.g ^ j + (-g2.g) ^ j)) := by
  simp only [app, l7, List.map_cons, List.map_nil, List.sum_cons, List.sum_nil]
  ring

theorem code3 (i j : ℕ) (h : i + j ≤ 3) : |app (l3 gen3) (fun u v => u ^ i * v ^ j) - m1 i * m1 j| ≤ 1 / 10 ^ 32 := by
  rw [mom3, m1_val, m1_val]
  have hi : i ≤ 3 := by omega
  have hj : j ≤ 3 := by omega
  unfold gen3
  interval_cases i <;> interval_cases j <;> first | (exfalso; omega) | norm_num [abs_le]

theorem code7 (i j : ℕ) (h : i + j ≤ 7) : |app (l7 gen70 gen71 gen72) (fun u v => u ^ i * v ^ j) - m1 i * m1 j| ≤ 1 / 10 ^ 32 := by
  rw [mom7, m1_val, m1_val]
  have hi : i ≤ 7 := by omega
  have hj : j ≤ 7 := by omega
  unfold gen70 gen71 gen72
  interval_cases i <;> interval_cases j <;> first | (exfalso; omega) | norm_num [abs_le]

/-! ## The exact rules -/

theorem exact3 {g : ℝ} (hg : g ^ 2 = 2 / 3) (i j : ℕ) (h : i + j ≤ 3) : app (l3 g) (fun u v => u ^ i * v ^ j) = m1 i * m1 j := by
  rw [mom3, m1_val, m1_val]
  have hi : i ≤ 3 := by omega
  have hj : j ≤ 3 := by omega
  interval_cases i <;> interval_cases j <;> first | (exfalso; omega) | (norm_num; done) | (norm_num [hg]; done) | (ring_nf; done) | (norm_num; linear_combination 2 * hg)

/-- The generators and weights that solve the moment equations of degree seven. -/
structure Exact7 (g0 g1 g2 : Gen) : Prop where
  a : g0.g ^ 2 = 6 / 7
  b : g1.g ^ 2 = (114 - 3 * √583) / 287
  c : g2.g ^ 2 = (114 + 3 * √583) / 287
  wa : g0.w = 98 / 405
  wb : g1.w = (178981 + 2769 * √583) / 472230
  wc : g2.w = (178981 - 2769 * √583) / 472230

theorem exact7 {g0 g1 g2 : Gen} (h7 : Exact7 g0 g1 g2) (i j : ℕ) (h : i + j ≤ 7) : app (l7 g0 g1 g2) (fun u v => u ^ i * v ^ j) = m1 i * m1 j := by
  obtain ⟨a, b, c, wa, wb, wc⟩ := h7
  have ht : √583 ^ 2 = (583 : ℝ) := Real.sq_sqrt (by norm_num)
  have ht3 : √583 ^ 3 = (583 : ℝ) * √583 := by rw [pow_succ, ht]
  have ht4 : √583 ^ 4 = (583 : ℝ) ^ 2 := by rw [show √(583 : ℝ) ^ 4 = (√583 ^ 2) ^ 2 by ring, ht]
  have a4 : g0.g ^ 4 = (6 / 7) ^ 2 := by rw [show g0.g ^ 4 = (g0.g ^ 2) ^ 2 by ring, a]
  have b4 : g1.g ^ 4 = ((114 - 3 * √583) / 287) ^ 2 := by rw [show g1.g ^ 4 = (g1.g ^ 2) ^ 2 by ring, b]
  have c4 : g2.g ^ 4 = ((114 + 3 * √583) / 287) ^ 2 := by rw [show g2.g ^ 4 = (g2.g ^ 2) ^ 2 by ring, c]
  have a6 : g0.g ^ 6 = (6 / 7) ^ 3 := by rw [show g0.g ^ 6 = (g0.g ^ 2) ^ 3 by ring, a]
  have b6 : g1.g ^ 6 = ((114 - 3 * √583) / 287) ^ 3 := by rw [show g1.g ^ 6 = (g1.g ^ 2) ^ 3 by ring, b]
  have c6 : g2.g ^ 6 = ((114 + 3 * √583) / 287) ^ 3 := by rw [show g2.g ^ 6 = (g2.g ^ 2) ^ 3 by ring, c]
  rw [mom7, m1_val, m1_val, wa, wb, wc]
  have odd : ∀ x : ℝ, (-x) ^ 1 = - x ^ 1 ∧ (-x) ^ 3 = - x ^ 3 ∧ (-x) ^ 5 = - x ^ 5 ∧ (-x) ^ 7 = - x ^ 7 := fun x => ⟨by ring, by ring, by ring, by ring⟩
  have even : ∀ x : ℝ, (-x) ^ 2 = x ^ 2 ∧ (-x) ^ 4 = x ^ 4 ∧ (-x) ^ 6 = x ^ 6 := fun x => ⟨by ring, by ring, by ring⟩
  have hi : i ≤ 7 := by omega
  have hj : j ≤ 7 := by omega
  interval_cases i <;> interval_cases j <;>
    first
    | (exfalso; omega)
    | (simp only [(odd _).1, (odd _).2.1, (odd _).2.2.1, (odd _).2.2.2]; norm_num; done)
    | (norm_num; ring_nf; done)
    | (simp only [(even _).1, (even _).2.1, (even _).2.2, a, b, c, a4, b4, c4, a6, b6, c6]; ring_nf; simp only [ht, ht3, ht4]; ring_nf)

theorem sqrt583 : (241453929352992721181596798105553840854435 : ℝ) / 10 ^ 40 < √583 ∧ √583 < (241453929352992721181596798105553840854436 : ℝ) / 10 ^ 40 := by
  constructor
  · apply Real.lt_sqrt_of_sq_lt; norm_num
  · rw [Real.sqrt_lt' (by norm_num)]; norm_num

/-- A root is close to a decimal constant. -/
theorem sqrt_close {x a e : ℝ} (he : 0 < e) (ha : e < a) (h1 : (a - e) ^ 2 ≤ x) (h2 : x ≤ (a + e) ^ 2) : |√x - a| ≤ e := by
  rw [abs_le]
  constructor
  · have := Real.le_sqrt_of_sq_le h1; linarith
  · have := Real.sqrt_le_iff.2 ⟨(by linarith : 0 ≤ a + e), h2⟩; linarith

/-- The exact generators of the rule of degree seven. -/
noncomputable def ex70 : Gen := ⟨√(6 / 7), 98 / 405⟩
noncomputable def ex71 : Gen := ⟨√((114 - 3 * √583) / 287), (178981 + 2769 * √583) / 472230⟩
noncomputable def ex72 : Gen := ⟨√((114 + 3 * √583) / 287), (178981 - 2769 * √583) / 472230⟩

theorem ex7 : Exact7 ex70 ex71 ex72 := by
  obtain ⟨h1, h2⟩ := sqrt583
  refine ⟨Real.sq_sqrt (by norm_num), Real.sq_sqrt ?_, Real.sq_sqrt ?_, rfl, rfl, rfl⟩
  · apply div_nonneg _ (by norm_num)
    norm_num at h2
    linarith
  · positivity

theorem rect3_err (g : ℝ) (ε : ℝ) (h : ∀ i j, i + j ≤ 3 → |app (l3 g) (fun u v => u ^ i * v ^ j) - m1 i * m1 j| ≤ ε) (c : ℕ → ℕ → ℝ) (xl xu yl yu : ℝ) :
    |rect3 g (poly 3 c) xl xu yl yu - ∫ x in xl..xu, ∫ y in yl..yu, poly 3 c x y| ≤ ε * (|1 / 2 * (xu - xl)| * |1 / 2 * (yu - yl)|) *
        poly 3 (fun i j => |c i j|) (|1 / 2 * (xu - xl)| + |1 / 2 * (xu + xl)|) (|1 / 2 * (yu - yl)| + |1 / 2 * (yu + yl)|) := by
  rw [rect3_app]; exact rect_err _ _ _ h c xl xu yl yu

theorem rect7_err (g0 g1 g2 : Gen) (ε : ℝ) (h : ∀ i j, i + j ≤ 7 → |app (l7 g0 g1 g2) (fun u v => u ^ i * v ^ j) - m1 i * m1 j| ≤ ε) (c : ℕ → ℕ → ℝ) (xl xu yl yu : ℝ) :
    |rect7 g0 g1 g2 (poly 7 c) xl xu yl yu - ∫ x in xl..xu, ∫ y in yl..yu, poly 7 c x y| ≤ ε * (|1 / 2 * (xu - xl)| * |1 / 2 * (yu - yl)|) *
        poly 7 (fun i j => |c i j|) (|1 / 2 * (xu - xl)| + |1 / 2 * (xu + xl)|) (|1 / 2 * (yu - yl)| + |1 / 2 * (yu + yl)|) := by
  rw [rect7_app]; exact rect_err _ _ _ h c xl xu yl yu

/-! ## Theorems -/

/-- **C69** (rule with four points on a rectangle).  For every rectangle and every polynomial of degree three, the result of `rect3d4pt` differs from the integral by at most `10^-32` of the area
(of a quarter of it) times the sum of the sizes that the terms of the polynomial can have in the rectangle.  The difference is due to the decimal constant: see `C69_exact3`. -/
theorem C69_rect3 (c : ℕ → ℕ → ℝ) (xl xu yl yu : ℝ) :
    |rect3d4pt (poly 3 c) xl xu yl yu - ∫ x in xl..xu, ∫ y in yl..yu, poly 3 c x y| ≤ 1 / 10 ^ 32 * (|1 / 2 * (xu - xl)| * |1 / 2 * (yu - yl)|) *
        poly 3 (fun i j => |c i j|) (|1 / 2 * (xu - xl)| + |1 / 2 * (xu + xl)|) (|1 / 2 * (yu - yl)| + |1 / 2 * (yu + yl)|) :=
  rect3_err _ _ code3 c xl xu yl yu

/-- **C69** (rule with twelve points on a rectangle), for polynomials of degree seven. -/
theorem C69_rect7 (c : ℕ → ℕ → ℝ) (xl xu yl yu : ℝ) :
    |rect7d12pt (poly 7 c) xl xu yl yu - ∫ x in xl..xu, ∫ y in yl..yu, poly 7 c x y| ≤ 1 / 10 ^ 32 * (|1 / 2 * (xu - xl)| * |1 / 2 * (yu - yl)|) *
        poly 7 (fun i j => |c i j|) (|1 / 2 * (xu - xl)| + |1 / 2 * (xu + xl)|) (|1 / 2 * (yu - yl)| + |1 / 2 * (yu + yl)|) :=
  rect7_err _ _ _ _ code7 c xl xu yl yu

/-- **C69** (exactness).  The decimal constant of the rule with four points is that of a number, to all its digits, with which the rule gives the integral of every polynomial of degree three exactly,
on every rectangle. -/
theorem C69_exact3 : ∃ g : ℝ, |g - gen3| ≤ 1 / 10 ^ 33 ∧ ∀ (c : ℕ → ℕ → ℝ) (xl xu yl yu : ℝ), rect3 g (poly 3 c) xl xu yl yu = ∫ x in xl..xu, ∫ y in yl..yu, poly 3 c x y := by
  refine ⟨√(2 / 3), sqrt_close (by norm_num) (by norm_num [gen3]) (by norm_num [gen3]) (by norm_num [gen3]), fun c xl xu yl yu => ?_⟩
  have := rect3_err (√(2 / 3)) 0 (fun i j h => by rw [exact3 (Real.sq_sqrt (by norm_num)) i j h]; simp) c xl xu yl yu
  rw [zero_mul, zero_mul] at this
  exact sub_eq_zero.1 (abs_nonpos_iff.1 this)

/-- **C69** (exactness), for the rule with twelve points. -/
theorem C69_exact7 : ∃ g0 g1 g2 : Gen,
    (|g0.g - gen70.g| ≤ 1 / 10 ^ 33 ∧ |g1.g - gen71.g| ≤ 1 / 10 ^ 33 ∧ |g2.g - gen72.g| ≤ 1 / 10 ^ 33) ∧
    (|g0.w - gen70.w| ≤ 1 / 10 ^ 33 ∧ |g1.w - gen71.w| ≤ 1 / 10 ^ 33 ∧ |g2.w - gen72.w| ≤ 1 / 10 ^ 33) ∧
    ∀ (c : ℕ → ℕ → ℝ) (xl xu yl yu : ℝ), rect7 g0 g1 g2 (poly 7 c) xl xu yl yu = ∫ x in xl..xu, ∫ y in yl..yu, poly 7 c x y := by
  obtain ⟨h1, h2⟩ := sqrt583
  refine ⟨ex70, ex71, ex72, ⟨?_, ?_, ?_⟩, ⟨?_, ?_, ?_⟩, fun c xl xu yl yu => ?_⟩
  · exact sqrt_close (by norm_num) (by norm_num [gen70]) (by norm_num [gen70]) (by norm_num [gen70])
  · refine sqrt_close (by norm_num) (by norm_num [gen71]) ?_ ?_
    · norm_num [gen71]; norm_num at h1 h2; linarith
    · norm_num [gen71]; norm_num at h1 h2; linarith
  · refine sqrt_close (by norm_num) (by norm_num [gen72]) ?_ ?_
    · norm_num [gen72]; norm_num at h1 h2; linarith
    · norm_num [gen72]; norm_num at h1 h2; linarith
  · norm_num [ex70, gen70, abs_le]
  · rw [abs_le]; norm_num [ex71, gen71]; norm_num at h1 h2; constructor <;> linarith
  · rw [abs_le]; norm_num [ex72, gen72]; norm_num at h1 h2; constructor <;> linarith
  · have := rect7_err ex70 ex71 ex72 0 (fun i j h => by rw [exact7 ex7 i j h]; simp) c xl xu yl yu
    rw [zero_mul, zero_mul] at this
    exact sub_eq_zero.1 (abs_nonpos_iff.1 this)

/-- **C69** (rules on the square).  The rule with the corners is exact for polynomials of degree one, and the others are those for rectangles. -/
theorem C69_square (c : ℕ → ℕ → ℝ) (f : ℝ → ℝ → ℝ) :
    square1d4pt (poly 1 c) = (∫ x in (-1 : ℝ)..1, ∫ y in (-1 : ℝ)..1, poly 1 c x y) ∧
    square3d4pt f = rect3d4pt f (-1) 1 (-1) 1 ∧ square7d12pt f = rect7d12pt f (-1) 1 (-1) 1 := by
  refine ⟨?_, ?_, ?_⟩
  · rw [int_poly]
    simp only [square1d4pt, poly, shift, sum_range_succ, sum_range_zero, m1_val]
    norm_num [Nat.choose]
    ring
  · simp only [square3d4pt, square3, rect3d4pt, rect3]
    ring_nf
  · simp only [square7d12pt, square7, rect7d12pt, rect7]
    ring_nf

/-- **C69** (nodes).  On a proper rectangle the rules use values of the function strictly inside only. -/
theorem C69_inside {xl xu yl yu : ℝ} (hx : xl < xu) (hy : yl < yu) (f g : ℝ → ℝ → ℝ) (h : ∀ x y, xl < x → x < xu → yl < y → y < yu → f x y = g x y) :
    rect3d4pt f xl xu yl yu = rect3d4pt g xl xu yl yu ∧ rect7d12pt f xl xu yl yu = rect7d12pt g xl xu yl yu := by
  have key : ∀ u v : ℝ, |u| < 1 → |v| < 1 →
      f (1 / 2 * (xu - xl) * u + 1 / 2 * (xu + xl)) (1 / 2 * (yu - yl) * v + 1 / 2 * (yu + yl)) =
      g (1 / 2 * (xu - xl) * u + 1 / 2 * (xu + xl)) (1 / 2 * (yu - yl) * v + 1 / 2 * (yu + yl)) := by
    intro u v hu hv
    rw [abs_lt] at hu hv
    apply h <;> nlinarith
  constructor
  · rw [rect3d4pt, rect3_app, rect3_app]
    congr 1
    simp only [app, l3, List.map_cons, List.map_nil, List.sum_cons, List.sum_nil]
    have a : |gen3| < 1 := by norm_num [gen3, abs_lt]
    have a' : |-gen3| < 1 := by rwa [abs_neg]
    have z : |(0 : ℝ)| < 1 := by norm_num
    rw [key _ _ a z, key _ _ a' z, key _ _ z a, key _ _ z a']
  · rw [rect7d12pt, rect7_app, rect7_app]
    congr 1
    simp only [app, l7, List.map_cons, List.map_nil, List.sum_cons, List.sum_nil]
    have a : |gen70.g| < 1 := by norm_num [gen70, abs_lt]
    have b : |gen71.g| < 1 := by norm_num [gen71, abs_lt]
    have c : |gen72.g| < 1 := by norm_num [gen72, abs_lt]
    have a' : |-gen70.g| < 1 := by rwa [abs_neg]
    have b' : |-gen71.g| < 1 := by rwa [abs_neg]
    have c' : |-gen72.g| < 1 := by rwa [abs_neg]
    have z : |(0 : ℝ)| < 1 := by norm_num
    rw [key _ _ a z, key _ _ a' z, key _ _ z a, key _ _ z a', key _ _ b b, key _ _ b b', key _ _ b' b, key _ _ b' b', key _ _ c c, key _ _ c c', key _ _ c' c, key _ _ c' c']

/-- A case: `x^4 y^2` on the rectangle from 0 to 1 and 0 to 2 has the integral 8/15, and the rule gives it to 31 digits. -/
example : |rect7d12pt (fun x y => x ^ 4 * y ^ 2) 0 1 0 2 - 8 / 15| ≤ 1 / 10 ^ 31 := by
  have h := C69_rect7 (fun i j => if i = 4 ∧ j = 2 then 1 else 0) 0 1 0 2
  have hp : poly 7 (fun i j => if i = 4 ∧ j = 2 then 1 else 0) = fun x y => x ^ 4 * y ^ 2 := by
    funext x y
    simp [poly, sum_range_succ]
  rw [hp] at h
  refine le_trans (le_of_eq ?_) (h.trans ?_)
  · congr 2
    simp only [intervalIntegral.integral_const_mul, integral_pow, intervalIntegral.integral_mul_const]
    norm_num
  · simp [poly, sum_range_succ, abs_of_nonneg]
    norm_num

end Verif.Cub
