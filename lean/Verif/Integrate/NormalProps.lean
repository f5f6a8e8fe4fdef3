import Verif.Integrate.Cub2DLemmas

/-!
# Cubature with a normal weight: C86
-/

set_option linter.unusedSectionVars false
set_option linter.unusedSimpArgs false

namespace Verif.Cub

open Finset MeasureTheory

/-! ## Specification -/

/-- The normal density. -/
noncomputable def phi (m s x : ℝ) : ℝ := Real.exp (-(x - m) ^ 2 / (2 * s ^ 2)) / (s * √(2 * Real.pi))

/-! ## Moments -/

/-- Moments of a normal variable with mean zero and variance one half. -/
noncomputable def gm (k : ℕ) : ℝ := if k % 2 = 0 then ((k - 1).doubleFactorial : ℝ) / 2 ^ (k / 2) else 0

theorem integrable_pow (k : ℕ) : Integrable fun u : ℝ => u ^ k * Real.exp (-u ^ 2) := by
  have := integrable_rpow_mul_exp_neg_mul_sq (b := 1) one_pos (s := k) (by have : (0 : ℝ) ≤ k := Nat.cast_nonneg k; linarith)
  simpa using this

theorem int_gauss (k : ℕ) : ∫ u : ℝ, u ^ k * Real.exp (-u ^ 2) = √Real.pi * gm k := by
  unfold gm
  rcases Nat.even_or_odd k with ⟨n, hn⟩ | hodd
  · rw [if_pos (by omega)]
    have h1 : (fun u : ℝ => u ^ k * Real.exp (-u ^ 2)) = fun u => (fun x : ℝ => x ^ k * Real.exp (-x ^ 2)) |u| := by
      funext u
      have : Even k := ⟨n, hn⟩
      simp only [this.pow_abs, sq_abs]
    rw [h1, integral_comp_abs (f := fun x : ℝ => x ^ k * Real.exp (-x ^ 2))]
    have h2 := integral_rpow_mul_exp_neg_rpow (p := 2) (q := (k : ℝ)) (by norm_num) (by have : (0 : ℝ) ≤ k := Nat.cast_nonneg k; linarith)
    have h3 : ∫ x in Set.Ioi (0 : ℝ), x ^ k * Real.exp (-x ^ 2) = 1 / 2 * Real.Gamma ((k + 1) / 2) := by
      rw [← h2]
      refine setIntegral_congr_fun measurableSet_Ioi fun x _ => ?_
      simp only [Real.rpow_natCast, Real.rpow_two]
    rw [h3, show ((k : ℝ) + 1) / 2 = (n : ℝ) + 1 / 2 by rw [hn]; push_cast; ring, Real.Gamma_nat_add_half]
    rw [show k - 1 = 2 * n - 1 by omega, show k / 2 = n by omega]
    ring
  · rw [if_neg (by rcases hodd with ⟨n, hn⟩; omega), mul_zero]
    have := integral_neg_eq_self (μ := volume) (fun u : ℝ => u ^ k * Real.exp (-u ^ 2))
    have h2 : (fun u : ℝ => (-u) ^ k * Real.exp (-(-u) ^ 2)) = fun u => -(u ^ k * Real.exp (-u ^ 2)) := by
      funext u; rw [hodd.neg_pow, neg_sq]; ring
    rw [h2, integral_neg] at this
    linarith

theorem phi_affine {s : ℝ} (hs : 0 < s) (m u : ℝ) : phi m s (√2 * s * u + m) = Real.exp (-u ^ 2) / (√2 * s * √Real.pi) := by
  unfold phi
  have h2 : √2 ^ 2 = (2 : ℝ) := Real.sq_sqrt (by norm_num)
  congr 1
  · congr 1
    rw [div_eq_iff (by positivity), add_sub_cancel_right, mul_pow, mul_pow, h2]
    ring
  · rw [Real.sqrt_mul (by norm_num)]; ring

theorem pow_phi_affine {s : ℝ} (hs : 0 < s) (m : ℝ) (i : ℕ) :
    (fun u => (√2 * s * u + m) ^ i * phi m s (√2 * s * u + m)) =
      fun u => ∑ k ∈ range (i + 1), ((√2 * s) ^ k * m ^ (i - k) * (i.choose k : ℝ) / (√2 * s * √Real.pi)) * (u ^ k * Real.exp (-u ^ 2)) := by
  funext u
  rw [phi_affine hs, add_pow, sum_mul]
  refine sum_congr rfl fun k _ => ?_
  rw [mul_pow]
  ring

theorem integrable_pow_phi {s : ℝ} (hs : 0 < s) (m : ℝ) (i : ℕ) : Integrable fun x => x ^ i * phi m s x := by
  have hc : √2 * s ≠ 0 := by positivity
  have h1 : Integrable fun u => (√2 * s * u + m) ^ i * phi m s (√2 * s * u + m) := by
    rw [pow_phi_affine hs]
    exact integrable_finsetSum _ fun k _ => (integrable_pow k).const_mul _
  have h2 := (integrable_comp_mul_left_iff (fun y => (y + m) ^ i * phi m s (y + m)) hc).1 h1
  have h3 := h2.comp_sub_right m
  simpa using h3

theorem int_pow_phi {s : ℝ} (hs : 0 < s) (m : ℝ) (i : ℕ) : ∫ x, x ^ i * phi m s x = shift gm m (√2 * s) i := by
  have hc : 0 < √2 * s := by positivity
  have h1 := Measure.integral_comp_mul_left (fun y => (y + m) ^ i * phi m s (y + m)) (√2 * s)
  rw [integral_add_right_eq_self (fun y => y ^ i * phi m s y) m, pow_phi_affine hs, integral_finsetSum] at h1
  · rw [abs_of_pos (by positivity), smul_eq_mul, eq_comm, inv_mul_eq_iff_eq_mul₀ hc.ne'] at h1
    rw [h1, mul_sum]
    unfold shift
    refine sum_congr rfl fun k _ => ?_
    rw [integral_const_mul, int_gauss]
    have : √Real.pi ≠ 0 := by positivity
    field_simp
  · exact fun k _ => (integrable_pow k).const_mul _

theorem expect_poly (d : ℕ) (c : ℕ → ℕ → ℝ) (m1 m2 : ℝ) {s1 s2 : ℝ} (h1 : 0 < s1) (h2 : 0 < s2) :
    ∫ x, ∫ y, poly d c x y * (phi m1 s1 x * phi m2 s2 y) =
      ∑ i ∈ range (d + 1), ∑ j ∈ range (d + 1 - i), c i j * (shift gm m1 (√2 * s1) i * shift gm m2 (√2 * s2) j) := by
  have e1 : ∀ x, ∫ y, poly d c x y * (phi m1 s1 x * phi m2 s2 y) =
      ∑ i ∈ range (d + 1), ∑ j ∈ range (d + 1 - i), c i j * shift gm m2 (√2 * s2) j * (x ^ i * phi m1 s1 x) := by
    intro x
    have : (fun y => poly d c x y * (phi m1 s1 x * phi m2 s2 y)) =
        fun y => ∑ i ∈ range (d + 1), ∑ j ∈ range (d + 1 - i), (c i j * (x ^ i * phi m1 s1 x)) * (y ^ j * phi m2 s2 y) := by
      funext y
      unfold poly
      rw [sum_mul]
      refine sum_congr rfl fun i _ => ?_
      rw [sum_mul]
      exact sum_congr rfl fun j _ => by ring
    rw [this, integral_finsetSum]
    · refine sum_congr rfl fun i _ => ?_
      rw [integral_finsetSum]
      · refine sum_congr rfl fun j _ => ?_
        rw [integral_const_mul, int_pow_phi h2]; ring
      · exact fun j _ => (integrable_pow_phi h2 _ _).const_mul _
    · exact fun i _ => integrable_finsetSum _ fun j _ => (integrable_pow_phi h2 _ _).const_mul _
  simp only [e1]
  rw [integral_finsetSum]
  · refine sum_congr rfl fun i _ => ?_
    rw [integral_finsetSum]
    · refine sum_congr rfl fun j _ => ?_
      rw [integral_const_mul, int_pow_phi h1]; ring
    · exact fun j _ => (integrable_pow_phi h1 _ _).const_mul _
  · exact fun i _ => integrable_finsetSum _ fun j _ => (integrable_pow_phi h1 _ _).const_mul _

/-! ## The tables -/

/-- The moments of a table, times `10^34` to the power `1 + i + j`. -/
def tmom (t : List ((Int × Int) × Int)) (i j : ℕ) : Int := t.foldl (fun a n => a + n.2 * n.1.1 ^ i * n.1.2 ^ j) 0

/-- The moments of the normal weight are `num i * num j / 2^(i/2 + j/2)`. -/
def num (k : ℕ) : ℕ := if k % 2 = 0 then (k - 1).doubleFactorial else 0

/-- A moment of a table is right to a part in `N`, if the circle number is between `L / T` and `U / T` and the entries of the table are multiples of `1 / S`. -/
def chk (L U T N S : Int) (t : List ((Int × Int) × Int)) (i j : ℕ) : Bool :=
  let V := tmom t i j * (T * N * 2 ^ (i / 2 + j / 2))
  let A : Int := num i * num j * N
  let h : Int := 2 ^ (i / 2 + j / 2)
  let S : Int := S ^ (1 + i + j)
  decide (V ≤ L * (A + h) * S) && decide (L * (A - h) * S ≤ V) && decide (U * (A - h) * S ≤ V)

def chkAll (d : ℕ) (t : List ((Int × Int) × Int)) : Bool :=
  (List.range (d + 1)).all fun i => (List.range (d + 1 - i)).all fun j => chk 314159265358979323846 314159265358979323847 (10 ^ 20) (10 ^ 13) (10 ^ 34) t i j

/-- The rule of a table. -/
noncomputable def lr (t : List ((Int × Int) × Int)) : List (ℝ × ℝ × ℝ) := t.map fun n => ((n.2 : ℝ) / 10 ^ 34 / Real.pi, (n.1.1 : ℝ) / 10 ^ 34, (n.1.2 : ℝ) / 10 ^ 34)

theorem tmom_cons (n : (Int × Int) × Int) (t : List ((Int × Int) × Int)) (i j : ℕ) : tmom (n :: t) i j = n.2 * n.1.1 ^ i * n.1.2 ^ j + tmom t i j := by
  have : ∀ (t : List ((Int × Int) × Int)) (a : Int), t.foldl (fun a n => a + n.2 * n.1.1 ^ i * n.1.2 ^ j) a = a + t.foldl (fun a n => a + n.2 * n.1.1 ^ i * n.1.2 ^ j) 0 := by
    intro t
    induction t with
    | nil => intro a; simp
    | cons n t ih => intro a; rw [List.foldl_cons, List.foldl_cons, ih, ih (0 + _)]; ring
  unfold tmom
  rw [List.foldl_cons, this]; ring

theorem lr_mom (t : List ((Int × Int) × Int)) (i j : ℕ) : app (lr t) (fun u v => u ^ i * v ^ j) = (tmom t i j : ℝ) / (10 ^ 34) ^ (1 + i + j) / Real.pi := by
  induction t with
  | nil => simp [app, lr, tmom]
  | cons n t ih =>
    rw [tmom_cons]
    unfold app lr at ih ⊢
    rw [List.map_cons, List.map_cons, List.sum_cons, ih]
    push_cast
    rw [div_pow, div_pow, pow_add, pow_add, pow_one]
    have : Real.pi ≠ 0 := Real.pi_ne_zero
    field_simp

theorem gm_num (k : ℕ) : gm k = num k / 2 ^ (k / 2) := by
  unfold gm num
  split_ifs <;> simp

theorem chk_real {L U T N : Int} {S : ℝ} {V : Int} {A H : ℕ} {P : ℝ} (p1 : (L : ℝ) ≤ P * T) (p2 : P * T ≤ U) (hP : 0 < P) (hT : (0 : ℝ) < T) (hN : (0 : ℝ) < N) (hS : 0 < S) (hH : (0 : ℝ) < H)
    (h1 : (V : ℝ) * (T * N * H) ≤ L * (A * N + H) * S) (h2 : (L : ℝ) * (A * N - H) * S ≤ V * (T * N * H)) (h3 : (U : ℝ) * (A * N - H) * S ≤ V * (T * N * H)) :
    |(V : ℝ) / S / P - A / H| ≤ 1 / N := by
  have hA0 : (0 : ℝ) ≤ A := by positivity
  have l1 : V * (T * N * H) ≤ P * T * (A * N + H) * S :=
    h1.trans (mul_le_mul_of_nonneg_right (mul_le_mul_of_nonneg_right p1 (by positivity)) hS.le)
  have l2 : P * T * (A * N - H) * S ≤ V * (T * N * H) := by
    rcases le_total 0 ((A : ℝ) * N - H) with hs | hs
    · exact le_trans (mul_le_mul_of_nonneg_right (mul_le_mul_of_nonneg_right p2 hs) hS.le) h3
    · exact le_trans (mul_le_mul_of_nonneg_right (mul_le_mul_of_nonpos_right p1 hs) hS.le) h2
  rw [abs_le]
  constructor
  · rw [neg_le_sub_iff_le_add, ← sub_le_iff_le_add, div_div, le_div_iff₀ (by positivity)]
    have : ((A : ℝ) / H - 1 / N) * (S * P) = P * T * (A * N - H) * S / (T * N * H) := by field_simp
    rw [this, div_le_iff₀ (by positivity)]; exact l2
  · rw [sub_le_iff_le_add, div_div, div_le_iff₀ (by positivity)]
    have : (1 / (N : ℝ) + A / H) * (S * P) = P * T * (A * N + H) * S / (T * N * H) := by field_simp; ring
    rw [this, le_div_iff₀ (by positivity)]; exact l1

theorem chk_gen {L U T N S : Int} {t : List ((Int × Int) × Int)} {i j : ℕ} {P : ℝ} (p1 : (L : ℝ) ≤ P * T) (p2 : P * T ≤ U) (hP : 0 < P) (hT : (0 : ℝ) < T) (hN : (0 : ℝ) < N) (hS : (0 : ℝ) < S)
    (h : chk L U T N S t i j = true) : |(tmom t i j : ℝ) / (S : ℝ) ^ (1 + i + j) / P - gm i * gm j| ≤ 1 / N := by
  simp only [chk, Bool.and_eq_true, decide_eq_true_eq] at h
  obtain ⟨⟨h1, h2⟩, h3⟩ := h
  have e : gm i * gm j = ((num i * num j : ℕ) : ℝ) / ((2 ^ (i / 2 + j / 2) : ℕ) : ℝ) := by
    rw [gm_num, gm_num]; push_cast; rw [pow_add]; ring
  rw [e]
  refine chk_real p1 p2 hP hT hN (pow_pos hS _) (by positivity) ?_ ?_ ?_
  · exact_mod_cast h1
  · have h2' : ((L * (num i * num j * N - 2 ^ (i / 2 + j / 2)) * S ^ (1 + i + j) : ℤ) : ℝ) ≤ ((tmom t i j * (T * N * 2 ^ (i / 2 + j / 2)) : ℤ) : ℝ) := by exact_mod_cast h2
    push_cast at h2' ⊢; exact h2'
  · have h3' : ((U * (num i * num j * N - 2 ^ (i / 2 + j / 2)) * S ^ (1 + i + j) : ℤ) : ℝ) ≤ ((tmom t i j * (T * N * 2 ^ (i / 2 + j / 2)) : ℤ) : ℝ) := by exact_mod_cast h3
    push_cast at h3' ⊢; exact h3'

theorem chkAll_sound {d : ℕ} {t : List ((Int × Int) × Int)} (h : chkAll d t = true) (i j : ℕ) (hij : i + j ≤ d) :
    |app (lr t) (fun u v => u ^ i * v ^ j) - gm i * gm j| ≤ 1 / 10 ^ 13 := by
  unfold chkAll at h
  rw [List.all_eq_true] at h
  have h1 := h i (List.mem_range.2 (by omega))
  rw [List.all_eq_true] at h1
  have h2 := h1 j (List.mem_range.2 (by omega))
  have q1 := Real.pi_gt_d20
  have q2 := Real.pi_lt_d20
  have := chk_gen (P := Real.pi) (by push_cast; norm_num at q1 ⊢; linarith) (by push_cast; norm_num at q2 ⊢; linarith) Real.pi_pos (by norm_num) (by norm_num) (by norm_num) h2
  rw [lr_mom]
  convert this using 3 <;> norm_num

theorem call_app (m1 m2 s1 s2 : ℝ) (absc : List (Int × Int)) (wts : List Int) (f : ℝ → ℝ → ℝ) :
    NormWt.call ⟨absc.map fun n : Int × Int => (m1 + √2 * s1 * ((n.1 : ℝ) / 10 ^ 34), m2 + √2 * s2 * ((n.2 : ℝ) / 10 ^ 34)), wts.map fun w : Int => (w : ℝ) / 10 ^ 34 / Real.pi⟩ f =
      app (lr (absc.zip wts)) (fun u v => f (√2 * s1 * u + m1) (√2 * s2 * v + m2)) := by
  unfold NormWt.call app lr
  rw [List.zip_map, List.foldl_map, List.map_map]
  have : ∀ (t : List ((Int × Int) × Int)) (a : ℝ), t.foldl (fun (cub : ℝ) (n : (Int × Int) × Int) => cub +
      (Prod.map (fun n : Int × Int => (m1 + √2 * s1 * ((n.1 : ℝ) / 10 ^ 34), m2 + √2 * s2 * ((n.2 : ℝ) / 10 ^ 34))) (fun w : Int => (w : ℝ) / 10 ^ 34 / Real.pi) n).2 *
      f (Prod.map (fun n : Int × Int => (m1 + √2 * s1 * ((n.1 : ℝ) / 10 ^ 34), m2 + √2 * s2 * ((n.2 : ℝ) / 10 ^ 34))) (fun w : Int => (w : ℝ) / 10 ^ 34 / Real.pi) n).1.1
        (Prod.map (fun n : Int × Int => (m1 + √2 * s1 * ((n.1 : ℝ) / 10 ^ 34), m2 + √2 * s2 * ((n.2 : ℝ) / 10 ^ 34))) (fun w : Int => (w : ℝ) / 10 ^ 34 / Real.pi) n).1.2) a =
      a + (t.map ((fun n : ℝ × ℝ × ℝ => n.1 * f (√2 * s1 * n.2.1 + m1) (√2 * s2 * n.2.2 + m2)) ∘
        fun n : (Int × Int) × Int => ((n.2 : ℝ) / 10 ^ 34 / Real.pi, (n.1.1 : ℝ) / 10 ^ 34, (n.1.2 : ℝ) / 10 ^ 34))).sum := by
    intro t
    induction t with
    | nil => intro a; simp
    | cons n t ih =>
      intro a
      rw [List.foldl_cons, ih, List.map_cons, List.sum_cons]
      simp only [Prod.map, Function.comp]
      rw [add_comm m1, add_comm m2]; ring
  rw [this]; simp

/-! ## Theorems -/

/-- The degree to which each rule is right.  Its name gives the first number after the underscore as the degree: it is larger for the last three. -/
def degrees : List (String × ℕ) :=
  [("e2r2_3_4a", 3), ("e2_r2_3_4b", 3), ("e2r2_5_9a", 5), ("e2r2_5_9b", 5), ("e2r2_7_12", 7), ("e2r2_9_21", 9), ("e2r2_11_28a", 11), ("e2r2_13_36", 13),
   ("e2r2_13_41", 9), ("e2r2_9_19a", 5), ("e2r2_11_28c", 3)]

theorem tables : ∀ p ∈ degrees, ∃ absc wts, ruleDict.lookup p.1 = some (absc, wts) ∧ chkAll p.2 (absc.zip wts) = true := by
  have : degrees.all (fun p => match ruleDict.lookup p.1 with | none => false | some (absc, wts) => chkAll p.2 (absc.zip wts)) = true := by decide +kernel
  rw [List.all_eq_true] at this
  intro p hp
  have := this p hp
  split at this
  · cases this
  · rename_i absc wts heq
    exact ⟨absc, wts, heq, this⟩

/-- **C86** (part).  With each rule, for every location, positive scale and polynomial of the degree listed above, a `NormWtCub2D` object gives the expectation of the polynomial for independent normal
variables with these means and standard deviations, up to `10^-13` of the sum of the sizes of its terms.  Missing: for the last three rules, the degree is below the one stated by the rule, see
`C86_violated`. -/
theorem C86_normal_partial {rule : String} {d : ℕ} (hr : (rule, d) ∈ degrees) (c : ℕ → ℕ → ℝ) (m1 m2 : ℝ) {s1 s2 : ℝ} (h1 : 0 < s1) (h2 : 0 < s2) :
    ∃ o, NormWt.new [m1, m2] [s1, s2] rule = .ok o ∧
      |o.call (poly d c) - ∫ x, ∫ y, poly d c x y * (phi m1 s1 x * phi m2 s2 y)| ≤ 1 / 10 ^ 13 * poly d (fun i j => |c i j|) (√2 * s1 + |m1|) (√2 * s2 + |m2|) := by
  obtain ⟨absc, wts, hl, hchk⟩ := tables _ hr
  refine ⟨_, by unfold NormWt.new; rw [hl]; dsimp only; rw [if_neg (by simp)], ?_⟩
  simp only [List.getD_cons_zero, List.getD_cons_succ]
  rw [call_app, expect_poly d c m1 m2 h1 h2]
  have := affine_err (lr (absc.zip wts)) gm d (1 / 10 ^ 13) (chkAll_sound hchk) c m1 (√2 * s1) m2 (√2 * s2)
  rwa [abs_of_pos (show 0 < √2 * s1 by positivity), abs_of_pos (show 0 < √2 * s2 by positivity)] at this

/-- **C86** (errors).  An unknown rule raises a KeyError, and a location or scale that does not have two entries a ValueError. -/
theorem C86_errors (locn scale : List ℝ) (rule : String) :
    (rule ∉ degrees.map (·.1) → NormWt.new locn scale rule = .error .key) ∧
    (rule ∈ degrees.map (·.1) → (locn.length ≠ 2 ∨ scale.length ≠ 2) → NormWt.new locn scale rule = .error .value) := by
  constructor
  · intro h
    have : ruleDict.lookup rule = none := by
      rw [List.lookup_eq_none_iff]
      intro p hp
      have hsub : ∀ p ∈ ruleDict, p.1 ∈ degrees.map (·.1) := by decide +kernel
      simp only [beq_eq_false_iff_ne, bne_iff_ne]
      rintro rfl
      exact h (hsub p hp)
    unfold NormWt.new; rw [this]
  · intro h hlen
    obtain ⟨p, hp, rfl⟩ := List.mem_map.1 h
    obtain ⟨absc, wts, hl, -⟩ := tables p hp
    unfold NormWt.new; rw [hl]; dsimp only; rw [if_pos hlen]

theorem moment_std {rule : String} {absc : List (Int × Int)} {wts : List Int} (h : ruleDict.lookup rule = some (absc, wts)) (i j : ℕ) :
    ∃ o, NormWt.new [0, 0] [1, 1] rule = .ok o ∧ o.call (fun x y => x ^ i * y ^ j) = √2 ^ (i + j) * (tmom (absc.zip wts) i j / (10 ^ 34) ^ (1 + i + j) / Real.pi) := by
  refine ⟨_, by unfold NormWt.new; rw [h]; dsimp only; rw [if_neg (by simp)], ?_⟩
  simp only [List.getD_cons_zero, List.getD_cons_succ]
  rw [call_app, ← lr_mom, ← app_mul]
  congr 1
  funext u v
  simp only [mul_one, add_zero]
  rw [mul_pow, mul_pow, pow_add]; ring

theorem std_moment (i j : ℕ) : ∫ x, ∫ y, (x ^ i * y ^ j) * (phi 0 1 x * phi 0 1 y) = √2 ^ (i + j) * (gm i * gm j) := by
  have e1 : ∀ k, shift gm 0 (√2 * 1) k = √2 ^ k * gm k := by
    intro k
    unfold shift
    rw [sum_range_succ, sum_eq_zero]
    · simp
    · intro q hq
      rw [mem_range] at hq
      rw [zero_pow (by omega)]; ring
  have e2 : ∀ x : ℝ, ∫ y, (x ^ i * y ^ j) * (phi 0 1 x * phi 0 1 y) = (√2 ^ j * gm j) * (x ^ i * phi 0 1 x) := by
    intro x
    rw [← e1, ← int_pow_phi one_pos, mul_comm, ← integral_const_mul]
    congr 1
    funext y; ring
  simp only [e2]
  rw [integral_const_mul, int_pow_phi one_pos, e1, pow_add]; ring

/-- **C86 is violated by three rules**, by their degrees: for standard normal variables, the rule `e2r2_11_28c` of degree 11 gives 0.24 for the expectation of `x^2 y^2`, which is 1; the rule `e2r2_9_19a`
of degree 9 gives 16.5 for that of `x^6`, which is 15; the rule `e2r2_13_41` of degree 13 gives 937.5 for that of `y^10`, which is 945. -/
theorem C86_violated :
    (∃ o, NormWt.new [0, 0] [1, 1] "e2r2_11_28c" = .ok o ∧ |o.call (fun x y => x ^ 2 * y ^ 2) - 24 / 100| < 1 / 1000 ∧
      ∫ x, ∫ y, (x ^ 2 * y ^ 2) * (phi 0 1 x * phi 0 1 y) = 1) ∧
    (∃ o, NormWt.new [0, 0] [1, 1] "e2r2_9_19a" = .ok o ∧ |o.call (fun x y => x ^ 6 * y ^ 0) - 165 / 10| < 1 / 1000 ∧
      ∫ x, ∫ y, (x ^ 6 * y ^ 0) * (phi 0 1 x * phi 0 1 y) = 15) ∧
    (∃ o, NormWt.new [0, 0] [1, 1] "e2r2_13_41" = .ok o ∧ |o.call (fun x y => x ^ 0 * y ^ 10) - 9375 / 10| < 1 / 1000 ∧
      ∫ x, ∫ y, (x ^ 0 * y ^ 10) * (phi 0 1 x * phi 0 1 y) = 945) := by
  have r2 : √2 ^ 2 = (2 : ℝ) := Real.sq_sqrt (by norm_num)
  have p1 := Real.pi_gt_d20
  have p2 := Real.pi_lt_d20
  have key : ∀ (V : Int) (n : ℕ) (a b : ℝ), (a - 1 / 1000) * 3.14159265358979323847 * b < 2 ^ n * V → 2 ^ n * V < (a + 1 / 1000) * 3.14159265358979323846 * b → 1 / 1000 ≤ a → 0 < b →
      |√2 ^ (2 * n) * (V / b / Real.pi) - a| < 1 / 1000 := by
    intro V n a b ha hb h1 hb0
    rw [pow_mul, r2, abs_lt]
    have hp : 0 < Real.pi := Real.pi_pos
    constructor
    · have hlt : a - 1 / 1000 < 2 ^ n * (V / b / Real.pi) := by
        rw [div_div, ← mul_div_assoc, lt_div_iff₀ (show 0 < b * Real.pi by positivity)]
        refine lt_of_le_of_lt ?_ ha
        have := mul_le_mul_of_nonneg_left p2.le (show 0 ≤ (a - 1 / 1000) * b by apply mul_nonneg _ hb0.le; linarith)
        linarith
      linarith
    · rw [sub_lt_iff_lt_add, div_div, ← mul_div_assoc, div_lt_iff₀ (by positivity)]
      refine lt_of_lt_of_le hb ?_
      have := mul_le_mul_of_nonneg_left p1.le (show 0 ≤ (a + 1 / 1000) * b by apply mul_nonneg _ hb0.le; linarith)
      linarith
  refine ⟨?_, ?_, ?_⟩
  · obtain ⟨o, ho, hc⟩ := moment_std (rule := "e2r2_11_28c") (absc := e2r2_11_28c_absc) (wts := e2r2_11_28c_wts) (by decide +kernel) 2 2
    refine ⟨o, ho, ?_, ?_⟩
    · rw [hc, show tmom (e2r2_11_28c_absc.zip e2r2_11_28c_wts) 2 2 = 18849555921538760121351186211118180387011538566707028941258538472721981448795257091051827972518328091980507279430135000000000000000000000000000000000000000000000000000000 by decide +kernel]
      exact key _ 2 _ _ (by norm_num) (by norm_num) (by norm_num) (by norm_num)
    · rw [std_moment, show 2 + 2 = 2 * 2 from rfl, pow_mul, r2]
      norm_num [gm, Nat.doubleFactorial]
  · obtain ⟨o, ho, hc⟩ := moment_std (rule := "e2r2_9_19a") (absc := e2r2_9_19a_absc) (wts := e2r2_9_19a_wts) (by decide +kernel) 6 0
    refine ⟨o, ho, ?_, ?_⟩
    · rw [hc, show tmom (e2r2_9_19a_absc.zip e2r2_9_19a_wts) 6 0 = 64795348480289476580307640898965539843163503391188873553525083924103103051238327726277141687191790090951829424670089601920000000000000000000000000000000000000000000000000000000000000000000000000000000000000000000000000000000000000000000000 by decide +kernel]
      exact key _ 3 _ _ (by norm_num) (by norm_num) (by norm_num) (by norm_num)
    · rw [std_moment, show 6 + 0 = 2 * 3 from rfl, pow_mul, r2]
      norm_num [gm, Nat.doubleFactorial]
  · obtain ⟨o, ho, hc⟩ := moment_std (rule := "e2r2_13_41") (absc := e2r2_13_41_absc) (wts := e2r2_13_41_wts) (by decide +kernel) 0 10
    refine ⟨o, ho, ?_, ?_⟩
    · rw [hc, show tmom (e2r2_13_41_absc.zip e2r2_13_41_wts) 0 10 = 9203884727313845241625011175955606491237739556230757730279297829113112365240824106212244641382975954541363311565406057989950562806619167122695984765404538058678443850734781042730047640746557792861248728516707710657815606589966522057561882579377883815291918258547125575160321574838869493826372564301456422140959334841951765838224371927163647780000000000000000000000000000000000 by decide +kernel]
      exact key _ 5 _ _ (by norm_num) (by norm_num) (by norm_num) (by norm_num)
    · rw [std_moment, show 0 + 10 = 2 * 5 from rfl, pow_mul, r2]
      norm_num [gm, Nat.doubleFactorial]

end Verif.Cub
