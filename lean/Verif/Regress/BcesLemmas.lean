import Verif.Regress.SixLemmas

/-!
# Regressions with measurement errors: helper lemmas
-/

set_option linter.unusedSectionVars false

namespace Verif.Regress

open Real Topology Filter

/-- One of the four lines as one of the six. -/
def of4 (j : Fin 4) : Fin 6 := j.castLE (by norm_num)

section spec

variable {n : ℕ} {x y vx vy vxy : ℕ → ℝ}

theorem trueCov_deriv {i : ℕ} (hi : i < n) (u v e : ℕ → ℝ) :
    HasDerivAt (fun ε => trueCov n (up i ε) u v e)
      (((u i - mean n one u) * (v i - mean n one v) - e i - trueCov n one u v e) / n) 0 := by
  have hn := (n_pos hi).ne'
  have h2 : HasDerivAt (fun ε : ℝ => ∑ k ∈ Finset.range n, up i ε k) 1 0 := by
    simp only [sum_up_one hi]; exact (hasDerivAt_id (0 : ℝ)).const_add (n : ℝ)
  have hW : ∑ k ∈ Finset.range n, up i 0 k ≠ 0 := by rw [sum_up_one hi]; simpa using hn
  have := ((cov_deriv hi u v).fun_div h2 hW).fun_sub (mean_deriv hi e)
  refine this.congr_deriv ?_
  unfold trueCov
  rw [up_zero]
  simp only [Finset.sum_const, Finset.card_range, nsmul_eq_mul, mul_one]
  field_simp
  ring

/-- The influence of a datum on slope `j`, and on intercept `j`. -/
noncomputable def inflBE (n : ℕ) (x y vx vy vxy : ℕ → ℝ) (j : Fin 6) (i : ℕ) : ℝ :=
  let cx := trueCov n one x x vx
  let cy := trueCov n one y y vy
  let c := trueCov n one x y vxy
  slopeRate (sgn c) (c / cx) (cy / c)
    (((x i - mean n one x) * (y i - mean n one y - c / cx * (x i - mean n one x)) - vxy i + c / cx * vx i) / cx / n)
    (((y i - mean n one y) * (y i - mean n one y - cy / c * (x i - mean n one x)) - vy i + cy / c * vxy i) / c / n) j

noncomputable def slopeE (n : ℕ) (x y vx vy vxy : ℕ → ℝ) : Fin 6 → ℝ :=
  slopes (sgn (trueCov n one x y vxy)) (trueCov n one x y vxy / trueCov n one x x vx) (trueCov n one y y vy / trueCov n one x y vxy)

noncomputable def inflAE (n : ℕ) (x y vx vy vxy : ℕ → ℝ) (j : Fin 6) (i : ℕ) : ℝ :=
  (y i - mean n one y - slopeE n x y vx vy vxy j * (x i - mean n one x)) / n - mean n one x * inflBE n x y vx vy vxy j i

theorem influenceE_iff (hx : 0 < trueCov n one x x vx) (hy : 0 < trueCov n one y y vy) (hc : trueCov n one x y vxy ≠ 0)
    {i : ℕ} (hi : i < n) (j : Fin 6) (da db : ℝ) :
    InfluenceE n x y vx vy vxy j i da db ↔ da = inflAE n x y vx vy vxy j i ∧ db = inflBE n x y vx vy vxy j i := by
  have z : ∀ u v e, trueCov n (up i 0) u v e = trueCov n one u v e := by intro u v e; rw [up_zero]
  obtain ⟨he, hd⟩ := slope_path (trueCov_deriv hi x x vx) (trueCov_deriv hi y y vy) (trueCov_deriv hi x y vxy)
    (by rw [z]; exact hx) (by rw [z]; exact hy) (by rw [z]; exact hc) j
  simp only [z] at he hd
  have hn := (n_pos hi).ne'
  set cx := trueCov n one x x vx with hcx
  set cy := trueCov n one y y vy with hcy
  set c := trueCov n one x y vxy with hcc
  have hrate : slopeRate (sgn c) (c / cx) (cy / c)
      ((((x i - mean n one x) * (y i - mean n one y) - vxy i - c) / n - c / cx * (((x i - mean n one x) * (x i - mean n one x) - vx i - cx) / n)) / cx)
      ((((y i - mean n one y) * (y i - mean n one y) - vy i - cy) / n - cy / c * (((x i - mean n one x) * (y i - mean n one y) - vxy i - c) / n)) / c) j
      = inflBE n x y vx vy vxy j i := by
    unfold inflBE
    dsimp only
    rw [← hcx, ← hcy, ← hcc]
    congr 1
    · field_simp; ring
    · field_simp; ring
  rw [hrate] at hd
  set B := fun ε => slopes (sgn c) (trueCov n (up i ε) x y vxy / trueCov n (up i ε) x x vx)
    (trueCov n (up i ε) y y vy / trueCov n (up i ε) x y vxy) j with hB
  set A := fun ε => mean n (up i ε) y - B ε * mean n (up i ε) x with hA
  have hB0 : B 0 = slopeE n x y vx vy vxy j := by simp only [hB, z]; rfl
  have hdA : HasDerivAt A (inflAE n x y vx vy vxy j i) 0 := by
    have := (mean_deriv hi y).fun_sub (hd.fun_mul (mean_deriv hi x))
    refine this.congr_deriv ?_
    rw [up_zero]
    unfold inflAE
    rw [hB0]
    field_simp; ring
  have hline : ∀ᶠ ε in 𝓝 (0 : ℝ), ∀ a b, IsLineE n (up i ε) x y vx vy vxy j a b ↔ a = A ε ∧ b = B ε := by
    filter_upwards [he] with ε h1 a b
    unfold IsLineE
    rw [h1, centred_iff]
    constructor
    · rintro ⟨rfl, rfl⟩; exact ⟨rfl, rfl⟩
    · rintro ⟨rfl, rfl⟩; exact ⟨rfl, rfl⟩
  constructor
  · rintro ⟨a, b, hl, ha, hb⟩
    have ea : a =ᶠ[𝓝 0] A := by filter_upwards [hl, hline] with ε h1 h2; exact ((h2 _ _).1 h1).1
    have eb : b =ᶠ[𝓝 0] B := by filter_upwards [hl, hline] with ε h1 h2; exact ((h2 _ _).1 h1).2
    exact ⟨ha.unique (hdA.congr_of_eventuallyEq ea), hb.unique (hd.congr_of_eventuallyEq eb)⟩
  · rintro ⟨rfl, rfl⟩
    exact ⟨A, B, by filter_upwards [hline] with ε h; exact (h _ _).2 ⟨rfl, rfl⟩, hdA, hd⟩

end spec

/-! ## The model -/

/-- The rates the code uses: without the sign of the orthogonal line. -/
noncomputable def codeRate (sign b1 b2 u w : ℝ) : Fin 6 → ℝ :=
  ![u, w, gam1 b1 b2 (bisSlope b1 b2) * ((1 + b2 ^ 2) * u + (1 + b1 ^ 2) * w),
    gam2 b1 b2 (orthSlope sign b1 b2) * (u / |b1| + |b1| * w),
    1 / 2 * (√(b2 / b1) * u + √(b1 / b2) * w), 1 / 2 * (u + w)]

theorem codeRate_sq {sign : ℝ} (h : sign ^ 2 = 1) (b1 b2 u w : ℝ) (j : Fin 6) :
    codeRate sign b1 b2 u w j ^ 2 = slopeRate sign b1 b2 u w j ^ 2 := by
  match j with
  | 0 => rfl
  | 1 => rfl
  | 2 => rfl
  | 3 =>
    show (gam2 _ _ _ * _) ^ 2 = (sign * gam2 _ _ _ * _) ^ 2
    rw [mul_assoc sign, mul_pow sign, h, one_mul]
  | 4 => rfl
  | 5 => rfl

theorem codeRate_eq {sign : ℝ} (b1 b2 u w : ℝ) (j : Fin 6) (h : j = 3 → sign = 1) :
    codeRate sign b1 b2 u w j = slopeRate sign b1 b2 u w j := by
  match j with
  | 0 => rfl
  | 1 => rfl
  | 2 => rfl
  | 3 =>
    show gam2 _ _ _ * _ = sign * gam2 _ _ _ * _
    rw [h rfl, one_mul]
  | 4 => rfl
  | 5 => rfl

theorem codeRate_lin (sign b1 b2 k u w : ℝ) (j : Fin 6) : codeRate sign b1 b2 (k * u) (k * w) j = k * codeRate sign b1 b2 u w j := by
  match j with
  | 0 => rfl
  | 1 => rfl
  | 2 => show gam1 _ _ _ * _ = k * (gam1 _ _ _ * _); ring
  | 3 => show gam2 _ _ _ * _ = k * (gam2 _ _ _ * _); ring
  | 4 => show 1 / 2 * _ = k * (1 / 2 * _); ring
  | 5 => show 1 / 2 * _ = k * (1 / 2 * _); ring

theorem codeRate_add (sign b1 b2 u w u' w' : ℝ) (j : Fin 6) :
    codeRate sign b1 b2 (u + u') (w + w') j = codeRate sign b1 b2 u w j + codeRate sign b1 b2 u' w' j := by
  match j with
  | 0 => rfl
  | 1 => rfl
  | 2 => show gam1 _ _ _ * _ = gam1 _ _ _ * _ + gam1 _ _ _ * _; ring
  | 3 => show gam2 _ _ _ * _ = gam2 _ _ _ * _ + gam2 _ _ _ * _; ring
  | 4 => show 1 / 2 * _ = 1 / 2 * _ + 1 / 2 * _; ring
  | 5 => show 1 / 2 * _ = 1 / 2 * _ + 1 / 2 * _; ring

theorem codeRate_sum (sign b1 b2 : ℝ) (n : ℕ) (u w : ℕ → ℝ) (j : Fin 6) :
    ∑ i ∈ Finset.range n, codeRate sign b1 b2 (u i) (w i) j
      = codeRate sign b1 b2 (∑ i ∈ Finset.range n, u i) (∑ i ∈ Finset.range n, w i) j := by
  induction n with
  | zero =>
    simp only [Finset.range_zero, Finset.sum_empty]
    have := codeRate_lin sign b1 b2 0 0 0 j
    simp only [mul_zero, zero_mul] at this
    exact this.symm
  | succ n ih => rw [Finset.sum_range_succ, Finset.sum_range_succ, Finset.sum_range_succ, codeRate_add, ih]

theorem cls_fst (n : ℕ) (u : ℕ → ℝ) : (cls n u).1 = mean n one u := tot_mean u

theorem cls_sq (n : ℕ) (u : ℕ → ℝ) : (cls n u).2 ^ 2 = cov n one u u / n := by
  show √_ ^ 2 = _
  rw [tot_mean u, tot_var]
  exact sq_sqrt (div_nonneg (cov_nonneg (fun _ _ => zero_le_one) u) (Nat.cast_nonneg n))

theorem mean_cov (n : ℕ) (u v : ℕ → ℝ) : (mean n one fun i => (u i - mean n one u) * (v i - mean n one v)) = cov n one u v / n := by
  rw [← tot_mean, tot_cov]

theorem trueCov_one (n : ℕ) (u v e : ℕ → ℝ) : trueCov n one u v e = cov n one u v / n - mean n one e := by
  unfold trueCov; simp

/-- `xi` is the rate of change of the slope, times the number of data. -/
theorem bessXi_eq {y1 y1err y2 y2err : ℕ → ℝ} {y1av y2av vx cov sign b1 b2 : ℝ} (hb1 : b1 ≠ 0) (j : Fin 4) (i : ℕ) :
    bessXi y1 y1err y2 y2err y1av y2av vx cov
        (fun j => y2av - (![b1, b2, bisSlope b1 b2, orthSlope sign b1 b2] : Fin 4 → ℝ) j * y1av)
        ![b1, b2, bisSlope b1 b2, orthSlope sign b1 b2] j i =
      codeRate sign b1 b2 (((y1 i - y1av) * (y2 i - y2av - b1 * (y1 i - y1av)) + b1 * y1err i ^ 2) / vx)
        (((y2 i - y2av) * (y2 i - y2av - b2 * (y1 i - y1av)) - y2err i ^ 2) / cov) (of4 j) := by
  have e1 : ((y1 i - y1av) * (y2 i - b1 * y1 i - (y2av - b1 * y1av)) + b1 * y1err i ^ 2) / vx
      = ((y1 i - y1av) * (y2 i - y2av - b1 * (y1 i - y1av)) + b1 * y1err i ^ 2) / vx := by
    congr 1; ring
  have e2 : ((y2 i - y2av) * (y2 i - b2 * y1 i - (y2av - b2 * y1av)) - y2err i ^ 2) / cov
      = ((y2 i - y2av) * (y2 i - y2av - b2 * (y1 i - y1av)) - y2err i ^ 2) / cov := by
    congr 1; ring
  rw [← e1, ← e2]
  unfold bessXi
  dsimp only
  match j with
  | 0 => rfl
  | 1 => rfl
  | 2 =>
    simp only [Matrix.cons_val]
    generalize ((y1 i - y1av) * (y2 i - b1 * y1 i - (y2av - b1 * y1av)) + b1 * y1err i ^ 2) / vx = u
    generalize ((y2 i - y2av) * (y2 i - b2 * y1 i - (y2av - b2 * y1av)) - y2err i ^ 2) / cov = w
    show _ = gam1 b1 b2 (bisSlope b1 b2) * ((1 + b2 ^ 2) * u + (1 + b1 ^ 2) * w)
    unfold gam1; ring
  | 3 =>
    simp only [Matrix.cons_val]
    generalize ((y1 i - y1av) * (y2 i - b1 * y1 i - (y2av - b1 * y1av)) + b1 * y1err i ^ 2) / vx = u
    generalize ((y2 i - y2av) * (y2 i - b2 * y1 i - (y2av - b2 * y1av)) - y2err i ^ 2) / cov = w
    show _ = gam2 b1 b2 (orthSlope sign b1 b2) * (u / |b1| + |b1| * w)
    have e : √(4 * b1 ^ 2 + (b1 * b2 - 1) ^ 2) = |b1| * √(4 + (b2 - 1 / b1) ^ 2) := by
      rw [← sqrt_sq_eq_abs, ← sqrt_mul (sq_nonneg _)]
      congr 1; field_simp
    unfold gam2
    rw [e]
    have ha : |b1| ≠ 0 := abs_ne_zero.2 hb1
    have hq0 : √(4 + (b2 - 1 / b1) ^ 2) ≠ 0 := (sqrt_pos.2 (by positivity)).ne'
    rw [← sq_abs b1]
    field_simp

end Verif.Regress

namespace Verif.Regress

open Real

section model

variable {n : ℕ} {x xe y ye ce : ℕ → ℝ}

/-- The first two rates of change, times the number of data, as the code computes them. -/
noncomputable def xi1 (n : ℕ) (x xe y ce : ℕ → ℝ) (i : ℕ) : ℝ :=
  let b1 := trueCov n one x y ce / trueCov n one x x fun i => xe i ^ 2
  ((x i - mean n one x) * (y i - mean n one y - b1 * (x i - mean n one x)) + b1 * xe i ^ 2) / trueCov n one x x fun i => xe i ^ 2

noncomputable def xi2 (n : ℕ) (x y ye ce : ℕ → ℝ) (i : ℕ) : ℝ :=
  let b2 := (trueCov n one y y fun i => ye i ^ 2) / trueCov n one x y ce
  ((y i - mean n one y) * (y i - mean n one y - b2 * (x i - mean n one x)) - ye i ^ 2) / (cov n one x y / n)

/-- The rates of change of all slopes, times the number of data, as the code computes them. -/
noncomputable def xiC (n : ℕ) (x xe y ye ce : ℕ → ℝ) (j : Fin 4) (i : ℕ) : ℝ :=
  codeRate (sgn (cov n one x y / n)) (trueCov n one x y ce / trueCov n one x x fun i => xe i ^ 2)
    ((trueCov n one y y fun i => ye i ^ 2) / trueCov n one x y ce) (xi1 n x xe y ce i) (xi2 n x y ye ce i) (of4 j)

/-- The slopes as the code computes them. -/
noncomputable def slopeC (n : ℕ) (x xe y ye ce : ℕ → ℝ) (j : Fin 4) : ℝ :=
  slopes (sgn (cov n one x y / n)) (trueCov n one x y ce / trueCov n one x x fun i => xe i ^ 2)
    ((trueCov n one y y fun i => ye i ^ 2) / trueCov n one x y ce) (of4 j)

noncomputable def zetaC (n : ℕ) (x xe y ye ce : ℕ → ℝ) (j : Fin 4) (i : ℕ) : ℝ :=
  y i - slopeC n x xe y ye ce j * x i - mean n one x * xiC n x xe y ye ce j i

theorem slopes4 (sign b1 b2 : ℝ) (j : Fin 4) :
    (![b1, b2, bisSlope b1 b2, orthSlope sign b1 b2] : Fin 4 → ℝ) j = slopes sign b1 b2 (of4 j) := by
  match j with
  | 0 => rfl
  | 1 => rfl
  | 2 => rfl
  | 3 => rfl

theorem bess_eq (h1 : (trueCov n one x x fun i => xe i ^ 2) ≠ 0) (h2 : trueCov n one x y ce ≠ 0) (h3 : cov n one x y / n ≠ 0)
    (h4 : trueCov n one x y ce / (trueCov n one x x fun i => xe i ^ 2) + (trueCov n one y y fun i => ye i ^ 2) / trueCov n one x y ce ≠ 0) :
    ∃ r, bess n x xe y ye ce = some r ∧ (∀ j, r.b j = slopeC n x xe y ye ce j)
      ∧ (∀ j, r.a j = mean n one y - slopeC n x xe y ye ce j * mean n one x)
      ∧ (∀ j, r.bvar j = cov n one (xiC n x xe y ye ce j) (xiC n x xe y ye ce j) / n / n)
      ∧ (∀ j, r.avar j = cov n one (zetaC n x xe y ye ce j) (zetaC n x xe y ye ce j) / n / n)
      ∧ r.ifab3 = (let b1 := trueCov n one x y ce / trueCov n one x x fun i => xe i ^ 2
          let b2 := (trueCov n one y y fun i => ye i ^ 2) / trueCov n one x y ce
          let s1 := √(cov n one (xi1 n x xe y ce) (xi1 n x xe y ce) / n)
          let s2 := √(cov n one (xi2 n x y ye ce) (xi2 n x y ye ce) / n)
          gam1 b1 b2 (bisSlope b1 b2) ^ 2 * ((1 + b2 ^ 2) * s1 + (1 + b1 ^ 2) * s2) ^ 2 / n)
      ∧ r.ifab4 = (let b1 := trueCov n one x y ce / trueCov n one x x fun i => xe i ^ 2
          let b2 := (trueCov n one y y fun i => ye i ^ 2) / trueCov n one x y ce
          let s1 := √(cov n one (xi1 n x xe y ce) (xi1 n x xe y ce) / n)
          let s2 := √(cov n one (xi2 n x y ye ce) (xi2 n x y ye ce) / n)
          gam2 b1 b2 (orthSlope (sgn (cov n one x y / n)) b1 b2) ^ 2 * (s1 / |b1| + |b1| * s2) ^ 2 / n) := by
  have hb1 : trueCov n one x y ce / (trueCov n one x x fun i => xe i ^ 2) ≠ 0 := div_ne_zero h2 h1
  unfold bess
  dsimp only
  simp only [cls_fst, cls_sq, tot_mean]
  simp only [mean_cov, ← trueCov_one]
  rw [if_neg (by push Not; exact ⟨h1, h2, h3, h4⟩)]
  have hxi : ∀ j, bessXi x xe y ye (mean n one x) (mean n one y) (trueCov n one x x fun i => xe i ^ 2) (cov n one x y / n)
      (fun j => mean n one y - (![trueCov n one x y ce / (trueCov n one x x fun i => xe i ^ 2), (trueCov n one y y fun i => ye i ^ 2) / trueCov n one x y ce,
        bisSlope (trueCov n one x y ce / (trueCov n one x x fun i => xe i ^ 2)) ((trueCov n one y y fun i => ye i ^ 2) / trueCov n one x y ce),
        orthSlope (sgn (cov n one x y / n)) (trueCov n one x y ce / (trueCov n one x x fun i => xe i ^ 2)) ((trueCov n one y y fun i => ye i ^ 2) / trueCov n one x y ce)] : Fin 4 → ℝ) j * mean n one x)
      ![trueCov n one x y ce / (trueCov n one x x fun i => xe i ^ 2), (trueCov n one y y fun i => ye i ^ 2) / trueCov n one x y ce,
        bisSlope (trueCov n one x y ce / (trueCov n one x x fun i => xe i ^ 2)) ((trueCov n one y y fun i => ye i ^ 2) / trueCov n one x y ce),
        orthSlope (sgn (cov n one x y / n)) (trueCov n one x y ce / (trueCov n one x x fun i => xe i ^ 2)) ((trueCov n one y y fun i => ye i ^ 2) / trueCov n one x y ce)] j
      = xiC n x xe y ye ce j := by
    intro j
    funext i
    rw [bessXi_eq hb1]
    rfl
  refine ⟨_, rfl, fun j => slopes4 _ _ _ j, fun j => ?_, fun j => ?_, fun j => ?_, ?_, ?_⟩
  · dsimp only; rw [slopes4]; rfl
  · dsimp only; rw [hxi]
  · dsimp only
    simp only [hxi]
    simp only [slopes4]
    rfl
  · dsimp only
    rw [hxi, hxi]
    have x0 : xiC n x xe y ye ce 0 = xi1 n x xe y ce := rfl
    have x1 : xiC n x xe y ye ce 1 = xi2 n x y ye ce := rfl
    have c2 : ∀ u, (cls n u).2 = √(cov n one u u / n) := by
      intro u; show √_ = _; rw [tot_mean u, tot_var]
    rw [x0, x1, c2, c2]
    have k1 := sq_sqrt (div_nonneg (cov_nonneg (n := n) (w := one) (fun _ _ => zero_le_one) (xi1 n x xe y ce)) (Nat.cast_nonneg n))
    have k2 := sq_sqrt (div_nonneg (cov_nonneg (n := n) (w := one) (fun _ _ => zero_le_one) (xi2 n x y ye ce)) (Nat.cast_nonneg n))
    set b1 := trueCov n one x y ce / trueCov n one x x fun i => xe i ^ 2
    set b2 := (trueCov n one y y fun i => ye i ^ 2) / trueCov n one x y ce
    clear_value b1 b2
    have hn0 : (0 : ℝ) ≤ (1 + b1 ^ 2) * (1 + b2 ^ 2) := by positivity
    unfold gam1
    simp only [Matrix.cons_val]
    rw [div_pow, mul_pow, sq_sqrt hn0]
    generalize √(cov n one (xi1 n x xe y ce) (xi1 n x xe y ce) / n) = s1 at *
    generalize √(cov n one (xi2 n x y ye ce) (xi2 n x y ye ce) / n) = s2 at *
    rw [← k1, ← k2]
    ring
  · dsimp only
    rw [hxi, hxi]
    have x0 : xiC n x xe y ye ce 0 = xi1 n x xe y ce := rfl
    have x1 : xiC n x xe y ye ce 1 = xi2 n x y ye ce := rfl
    have c2 : ∀ u, (cls n u).2 = √(cov n one u u / n) := by
      intro u; show √_ = _; rw [tot_mean u, tot_var]
    rw [x0, x1, c2, c2]
    have k1 := sq_sqrt (div_nonneg (cov_nonneg (n := n) (w := one) (fun _ _ => zero_le_one) (xi1 n x xe y ce)) (Nat.cast_nonneg n))
    have k2 := sq_sqrt (div_nonneg (cov_nonneg (n := n) (w := one) (fun _ _ => zero_le_one) (xi2 n x y ye ce)) (Nat.cast_nonneg n))
    set b1 := trueCov n one x y ce / trueCov n one x x fun i => xe i ^ 2
    set b2 := (trueCov n one y y fun i => ye i ^ 2) / trueCov n one x y ce
    clear_value b1 b2
    have hn0 : (0 : ℝ) ≤ 4 * b1 ^ 2 + (b1 * b2 - 1) ^ 2 := by positivity
    unfold gam2
    simp only [Matrix.cons_val]
    rw [div_pow, sq_sqrt hn0]
    generalize √(cov n one (xi1 n x xe y ce) (xi1 n x xe y ce) / n) = s1 at *
    generalize √(cov n one (xi2 n x y ye ce) (xi2 n x y ye ce) / n) = s2 at *
    rw [← k1, ← k2, ← sq_abs b1]
    have ha : |b1| ≠ 0 := abs_ne_zero.2 hb1
    field_simp
    ring

/-- Sums of rates of change vanish when the errors are not correlated. -/
theorem xi_sum (hn : 0 < n) (hce : ∀ i < n, ce i = 0) (h1 : (trueCov n one x x fun i => xe i ^ 2) ≠ 0) (h2 : trueCov n one x y ce ≠ 0) (j : Fin 4) :
    mean n one (xiC n x xe y ye ce j) = 0 := by
  have hn' : (n : ℝ) ≠ 0 := by exact_mod_cast hn.ne'
  have hm : mean n one ce = 0 := by
    unfold mean; rw [Finset.sum_eq_zero (fun i hi => by rw [hce i (Finset.mem_range.1 hi), mul_zero]), zero_div]
  have hcc : trueCov n one x y ce = cov n one x y / n := by rw [trueCov_one, hm, sub_zero]
  have sq : ∀ u v : ℕ → ℝ, ∑ i ∈ Finset.range n, (u i - mean n one u) * (v i - mean n one v) = cov n one u v := by
    intro u v; rw [← tot_cov, tot_eq]
  have me : ∀ e : ℕ → ℝ, ∑ i ∈ Finset.range n, e i = n * mean n one e := by
    intro e; rw [mean_one]; field_simp
  have s1 : ∑ i ∈ Finset.range n, xi1 n x xe y ce i = 0 := by
    unfold xi1
    dsimp only
    rw [← Finset.sum_div]
    have e : ∀ b i, (x i - mean n one x) * (y i - mean n one y - b * (x i - mean n one x)) + b * xe i ^ 2 =
      (x i - mean n one x) * (y i - mean n one y) - b * ((x i - mean n one x) * (x i - mean n one x)) + b * xe i ^ 2 := by intro b i; ring
    simp only [e, Finset.sum_add_distrib, Finset.sum_sub_distrib, ← Finset.mul_sum, sq, me fun i => xe i ^ 2]
    rw [div_eq_zero_iff]; left
    have hx := trueCov_one n x x fun i => xe i ^ 2
    rw [hcc]
    rw [hcc] at h2
    generalize (trueCov n one x x fun i => xe i ^ 2) = V at *
    have : cov n one x x = n * V + n * mean n one fun i => xe i ^ 2 := by rw [hx]; field_simp; ring
    rw [this]; field_simp; ring
  have s2 : ∑ i ∈ Finset.range n, xi2 n x y ye ce i = 0 := by
    unfold xi2
    dsimp only
    rw [← Finset.sum_div]
    have e : ∀ b i, (y i - mean n one y) * (y i - mean n one y - b * (x i - mean n one x)) - ye i ^ 2 =
      (y i - mean n one y) * (y i - mean n one y) - b * ((x i - mean n one x) * (y i - mean n one y)) - ye i ^ 2 := by intro b i; ring
    simp only [e, Finset.sum_sub_distrib, ← Finset.mul_sum, sq, me fun i => ye i ^ 2]
    rw [div_eq_zero_iff]; left
    have hx := trueCov_one n y y fun i => ye i ^ 2
    rw [hcc] at h2 ⊢
    generalize (trueCov n one y y fun i => ye i ^ 2) = V at *
    have h5 : cov n one y y = n * V + n * mean n one fun i => ye i ^ 2 := by rw [hx]; field_simp; ring
    have h6 : cov n one x y ≠ 0 := by intro h; rw [h] at h2; simp at h2
    rw [h5]; field_simp; ring
  rw [mean_one]
  unfold xiC
  rw [codeRate_sum, s1, s2]
  have := codeRate_lin (sgn (cov n one x y / n)) (trueCov n one x y ce / trueCov n one x x fun i => xe i ^ 2)
    ((trueCov n one y y fun i => ye i ^ 2) / trueCov n one x y ce) 0 0 0 (of4 j)
  simp only [mul_zero, zero_mul] at this
  rw [this, zero_div]

theorem zeta_dev (hx : mean n one (xiC n x xe y ye ce j) = 0) (i : ℕ) :
    zetaC n x xe y ye ce j i - mean n one (zetaC n x xe y ye ce j) =
      y i - mean n one y - slopeC n x xe y ye ce j * (x i - mean n one x) - mean n one x * xiC n x xe y ye ce j i := by
  have : mean n one (zetaC n x xe y ye ce j) = mean n one y - slopeC n x xe y ye ce j * mean n one x := by
    have hx' := hx
    rw [mean_one] at hx' ⊢
    unfold zetaC
    simp only [Finset.sum_sub_distrib, ← Finset.mul_sum, sub_div, mul_div_assoc, ← mean_one]
    rw [hx]; ring
  rw [this]; unfold zetaC; ring

/-- Without measurement errors the rates are those of the six regressions. -/
theorem xi_zero (hn : 0 < n) (j : Fin 4) (i : ℕ) : xiC n x (fun _ => 0) y (fun _ => 0) (fun _ => 0) j i =
    n * codeRate (sgn (cov n one x y / n)) (cov n one x y / cov n one x x) (cov n one y y / cov n one x y) (infl1 n x y i) (infl2 n x y i) (of4 j) := by
  have hn' : (n : ℝ) ≠ 0 := by exact_mod_cast hn.ne'
  have hm : mean n one (fun _ => (0 : ℝ)) = 0 := by unfold mean; simp
  have z : ∀ u v : ℕ → ℝ, trueCov n one u v (fun _ => 0) = cov n one u v / n := by intro u v; rw [trueCov_one, hm, sub_zero]
  have z2 : ((0 : ℝ) ^ 2) = 0 := by norm_num
  rw [← codeRate_lin]
  unfold xiC xi1 xi2 infl1 infl2
  simp only [z2, z]
  rw [div_div_div_cancel_right₀ hn', div_div_div_cancel_right₀ hn']
  congr 1
  · rw [mul_zero, add_zero]; field_simp
  · rw [sub_zero]; field_simp

theorem sgn_div (hn : 0 < n) (c : ℝ) : sgn (c / n) = sgn c := by
  have hn' : (0 : ℝ) < n := by exact_mod_cast hn
  unfold sgn
  simp only [div_lt_iff₀ hn', zero_mul]

/-- The sums for the intercepts in terms of the rates of the code. -/
theorem interSums_code (hn : 0 < n) (hc : cov n one x y ≠ 0) (j : Fin 6) :
    interSums n (fun i => x i - mean n one x) (fun i => y i - mean n one y) (mean n one x) (cov n one x x) (cov n one x y) (slopeOf n x y) j
      = ∑ i ∈ Finset.range n, (y i - mean n one y - slopeOf n x y j * (x i - mean n one x) - mean n one x * (n * codeRate (sgn (cov n one x y))
        (cov n one x y / cov n one x x) (cov n one y y / cov n one x y) (infl1 n x y i) (infl2 n x y i) j)) ^ 2 := by
  have hn' : (n : ℝ) ≠ 0 := by exact_mod_cast hn.ne'
  by_cases hj : j = 3
  · subst hj
    obtain ⟨hx, hy⟩ := cov_pos (w := one) (fun _ _ => zero_le_one) hc
    have s0 : slopeOf n x y 0 = cov n one x y / cov n one x x := rfl
    have s1 : slopeOf n x y 1 = cov n one y y / cov n one x y := rfl
    unfold interSums
    dsimp only
    simp only [Matrix.cons_val]
    rw [s0, s1, tot_eq]
    refine Finset.sum_congr rfl fun i _ => ?_
    rw [show codeRate (sgn (cov n one x y)) (cov n one x y / cov n one x x) (cov n one y y / cov n one x y) (infl1 n x y i) (infl2 n x y i) 3
      = gam2 (cov n one x y / cov n one x x) (cov n one y y / cov n one x y) (slopeOf n x y 3)
        * (infl1 n x y i / |cov n one x y / cov n one x x| + |cov n one x y / cov n one x x| * infl2 n x y i) from rfl]
    rw [sqrt_sq_eq_abs, ← sq_abs (cov n one x y / cov n one x x)]
    have ha : |cov n one x y / cov n one x x| ≠ 0 := abs_ne_zero.2 (div_ne_zero hc hx.ne')
    unfold infl1 infl2
    generalize |cov n one x y / cov n one x x| = k at *
    generalize gam2 _ _ _ = g
    generalize slopeOf n x y 3 = b
    rw [← neg_sq]
    congr 1; field_simp; ring
  · rw [interSums_eq hn hc j fun h => absurd h hj, Finset.mul_sum]
    refine Finset.sum_congr rfl fun i _ => ?_
    rw [codeRate_eq _ _ _ _ j fun h => absurd h hj]
    unfold inflA inflB
    generalize slopeRate _ _ _ _ _ _ = R
    field_simp

end model

end Verif.Regress
