import Verif.Integrate.DrlExact7

/-!
# The basic rules of DCUHRE: moments of the rule of degree nine
-/

set_option linter.unusedSectionVars false

namespace Verif.Drl

open Finset

/-- The sums of the moments with the weights before the final values, in more than two dimensions. -/
noncomputable def M9 (T m l0 : ℝ) (k : ℕ) (nz : List ℕ) : ℝ :=
  raw9 true T m l0 k 2 * F1 m (lam1 l0) nz + raw9 true T m l0 k 3 * F1 m (lam2 l0) nz + raw9 true T m l0 k 4 * F1 m (lam3 l0) nz + raw9 true T m l0 k 5 * F1 m (625 / 10000) nz +
    raw9 true T m l0 k 6 * F2 m (lam1 l0) nz + raw9 true T m l0 k 7 * F12 m (lam1 l0) (lam2 l0) nz + raw9 true T m l0 k 8 * F3 m (lam1 l0) nz + raw9 true T m l0 k 9 * (T * l0 ^ nz.sum)

/-- The same in two dimensions. -/
noncomputable def M92 (l0 : ℝ) (k : ℕ) (nz : List ℕ) : ℝ :=
  raw9 false 4 2 l0 k 2 * F1 2 (lam1 l0) nz + raw9 false 4 2 l0 k 3 * F1 2 (lam2 l0) nz + raw9 false 4 2 l0 k 4 * F1 2 (lam3 l0) nz + raw9 false 4 2 l0 k 5 * F1 2 (625 / 10000) nz +
    raw9 false 4 2 l0 k 6 * F2 2 (lam1 l0) nz + raw9 false 4 2 l0 k 7 * F12 2 (lam1 l0) (lam2 l0) nz + raw9 false 4 2 l0 k 8 * (4 * l0 ^ nz.sum)

/-- The weights without the dimension. -/
structure W9 where
  a : ℝ
  b : ℝ
  c : ℝ
  p : ℝ
  e : ℝ
  f : ℝ
  h : ℝ
  d : ℝ

/-- The weights are made from those. -/
structure Made (w : W9) (big : Bool) (T m l0 : ℝ) (k : ℕ) : Prop where
  a : raw9 big T m l0 k 2 = w.a - 2 * (m - 1) * (raw9 big T m l0 k 7 + raw9 big T m l0 k 6 + (m - 2) * raw9 big T m l0 k 8)
  b : raw9 big T m l0 k 3 = w.b - 2 * (m - 1) * raw9 big T m l0 k 7
  c : raw9 big T m l0 k 4 = w.c
  p : raw9 big T m l0 k 5 = w.p
  e : raw9 big T m l0 k 6 = w.e - 2 * (m - 2) * raw9 big T m l0 k 8
  f : raw9 big T m l0 k 7 = w.f
  h : big = true → raw9 big T m l0 k 8 = w.h
  h' : big = false → raw9 big T m l0 k 8 = w.d / T
  d : raw9 big T m l0 k 9 = w.d / T

/-- For `K` 1. -/
noncomputable def w91 (l0 : ℝ) : W9 :=
  let l1 := lam1 l0
  let l2 := lam2 l0
  let l3 := lam3 l0
  ⟨(1 - 9 * ((l0 + l2 + l3) / 7 - (l0 * l2 + l0 * l3 + l2 * l3) / 5) - 3 * l0 * l2 * l3) / (18 * l1 * (l1 - l0) * (l1 - l2) * (l1 - l3)),
    (1 - 9 * ((l0 + l1 + l3) / 7 - (l0 * l1 + l0 * l3 + l1 * l3) / 5) - 3 * l0 * l1 * l3) / (18 * l2 * (l2 - l0) * (l2 - l1) * (l2 - l3)),
    (1 - 9 * ((l0 + l1 + l2) / 7 - (l0 * l1 + l0 * l2 + l1 * l2) / 5) - 3 * l0 * l1 * l2) / (18 * l3 * (l3 - l0) * (l3 - l1) * (l3 - l2)),
    0,
    (1 - 7 * (l0 + l2) / 5 + 7 * l0 * l2 / 3) / (84 * l1 * l1 * (l1 - l0) * (l1 - l2)) - (1 - 7 * (l0 + l1) / 5 + 7 * l0 * l1 / 3) / (84 * l1 * l2 * (l2 - l0) * (l2 - l1)) * l2 / l1,
    (1 - 7 * (l0 + l1) / 5 + 7 * l0 * l1 / 3) / (84 * l1 * l2 * (l2 - l0) * (l2 - l1)),
    (1 - 1 / (3 * l0)) / (6 * l1) ^ 3,
    1 / (3 * l0) ^ 4⟩

theorem made91 (big : Bool) {T : ℝ} (hT : T ≠ 0) (m l0 : ℝ) : Made (w91 l0) big T m l0 1 := by
  have k1 : ∀ c x : ℝ, c * T * (x / T) = c * x := fun c x => by field_simp
  have k2 : ∀ x : ℝ, T * (x / T) = x := fun x => by field_simp
  constructor
  · simp only [raw9, w91, k1, k2]; try ring
  · simp only [raw9, w91, k1, k2]; try ring
  · simp only [raw9, w91, k1, k2]; try ring
  · simp only [raw9, w91, k1, k2]; try ring
  · simp only [raw9, w91, k1, k2]; try ring
  · simp only [raw9, w91, k1, k2]; try ring
  · rintro rfl; simp only [raw9, w91, k1, k2, if_true]
  · rintro rfl; simp only [raw9, w91]; simp
  · simp only [raw9, w91]; try simp

/-- For `K` 2. -/
noncomputable def w92 (l0 : ℝ) : W9 :=
  let l1 := lam1 l0
  let l2 := lam2 l0
  let l3 := lam3 l0
  ⟨(1 - 7 * ((l2 + l3) / 5 - l2 * l3 / 3 + (1 / (108 * l0 ^ 4)) * l0 * (l0 - l2) * (l0 - l3))) / (14 * l1 * (l1 - l2) * (l1 - l3)),
    (1 - 7 * ((l1 + l3) / 5 - l1 * l3 / 3 + (1 / (108 * l0 ^ 4)) * l0 * (l0 - l1) * (l0 - l3))) / (14 * l2 * (l2 - l1) * (l2 - l3)),
    (1 - 7 * ((l1 + l2) / 5 - l1 * l2 / 3 + (1 / (108 * l0 ^ 4)) * l0 * (l0 - l1) * (l0 - l2))) / (14 * l3 * (l3 - l1) * (l3 - l2)),
    0,
    (1 - 9 * (8 * l1 * l2 * ((1 - 5 * l1 / 3 - 15 * (1 / (108 * l0 ^ 4)) * l0 ^ 2 * (l0 - l1)) / (60 * l1 * l2 * (l2 - l1))) + (1 / (108 * l0 ^ 4)) * l0 ^ 2)) / (36 * l1 * l1),
    (1 - 5 * l1 / 3 - 15 * (1 / (108 * l0 ^ 4)) * l0 ^ 2 * (l0 - l1)) / (60 * l1 * l2 * (l2 - l1)),
    (1 - 27 * (1 / (108 * l0 ^ 4)) * l0 ^ 3) / (6 * l1) ^ 3,
    1 / (108 * l0 ^ 4)⟩

theorem made92 (big : Bool) {T : ℝ} (hT : T ≠ 0) (m l0 : ℝ) : Made (w92 l0) big T m l0 2 := by
  have k1 : ∀ c x : ℝ, c * T * (x / T) = c * x := fun c x => by field_simp
  have k2 : ∀ x : ℝ, T * (x / T) = x := fun x => by field_simp
  constructor
  · simp only [raw9, w92, k1, k2]; try ring
  · simp only [raw9, w92, k1, k2]; try ring
  · simp only [raw9, w92, k1, k2]; try ring
  · simp only [raw9, w92, k1, k2]; try ring
  · simp only [raw9, w92, k1, k2]; try ring
  · simp only [raw9, w92, k1, k2]; try ring
  · rintro rfl; simp only [raw9, w92, k1, k2, if_true]
  · rintro rfl; simp only [raw9, w92]; simp
  · simp only [raw9, w92]; try simp

/-- For `K` 3. -/
noncomputable def w93 (l0 : ℝ) : W9 :=
  let l1 := lam1 l0
  let l2 := lam2 l0
  let lp := 625 / 10000
  ⟨(1 - 7 * ((l2 + lp) / 5 - l2 * lp / 3 + (5 / (324 * l0 ^ 4)) * l0 * (l0 - l2) * (l0 - lp))) / (14 * l1 * (l1 - l2) * (l1 - lp)),
    (1 - 7 * ((l1 + lp) / 5 - l1 * lp / 3 + (5 / (324 * l0 ^ 4)) * l0 * (l0 - l1) * (l0 - lp))) / (14 * l2 * (l2 - l1) * (l2 - lp)),
    0,
    (1 - 7 * ((l1 + l2) / 5 - l1 * l2 / 3 + (5 / (324 * l0 ^ 4)) * l0 * (l0 - l1) * (l0 - l2))) / (14 * lp * (lp - l1) * (lp - l2)),
    (1 - 9 * (8 * l1 * l2 * ((1 - 5 * l1 / 3 - 15 * (5 / (324 * l0 ^ 4)) * l0 ^ 2 * (l0 - l1)) / (60 * l1 * l2 * (l2 - l1))) + (5 / (324 * l0 ^ 4)) * l0 ^ 2)) / (36 * l1 * l1),
    (1 - 5 * l1 / 3 - 15 * (5 / (324 * l0 ^ 4)) * l0 ^ 2 * (l0 - l1)) / (60 * l1 * l2 * (l2 - l1)),
    (1 - 27 * (5 / (324 * l0 ^ 4)) * l0 ^ 3) / (6 * l1) ^ 3,
    5 / (324 * l0 ^ 4)⟩

theorem made93 (big : Bool) {T : ℝ} (hT : T ≠ 0) (m l0 : ℝ) : Made (w93 l0) big T m l0 3 := by
  have k1 : ∀ c x : ℝ, c * T * (x / T) = c * x := fun c x => by field_simp
  have k2 : ∀ x : ℝ, T * (x / T) = x := fun x => by field_simp
  constructor
  · simp only [raw9, w93, k1, k2]; try ring
  · simp only [raw9, w93, k1, k2]; try ring
  · simp only [raw9, w93, k1, k2]; try ring
  · simp only [raw9, w93, k1, k2]; try ring
  · simp only [raw9, w93, k1, k2]; try ring
  · simp only [raw9, w93, k1, k2]; try ring
  · rintro rfl; simp only [raw9, w93, k1, k2, if_true]
  · rintro rfl; simp only [raw9, w93]; simp
  · simp only [raw9, w93]; try simp

/-- For `K` 4. -/
noncomputable def w94 (l0 : ℝ) : W9 :=
  let l1 := lam1 l0
  let l2 := lam2 l0
  let l3 := lam3 l0
  ⟨(2 - 7 * ((l2 + l3) / 5 - l2 * l3 / 3 + (2 / (81 * l0 ^ 4)) * l0 * (l0 - l2) * (l0 - l3))) / (14 * l1 * (l1 - l2) * (l1 - l3)),
    (2 - 7 * ((l1 + l3) / 5 - l1 * l3 / 3 + (2 / (81 * l0 ^ 4)) * l0 * (l0 - l1) * (l0 - l3))) / (14 * l2 * (l2 - l1) * (l2 - l3)),
    (2 - 7 * ((l1 + l2) / 5 - l1 * l2 / 3 + (2 / (81 * l0 ^ 4)) * l0 * (l0 - l1) * (l0 - l2))) / (14 * l3 * (l3 - l1) * (l3 - l2)),
    0,
    (1 - 9 * (8 * l1 * l2 * ((2 - 15 * l1 / 9 - 15 * (2 / (81 * l0 ^ 4)) * l0 * (l0 - l1)) / (60 * l1 * l2 * (l2 - l1))) + (2 / (81 * l0 ^ 4)) * l0 ^ 2)) / (36 * l1 * l1),
    (2 - 15 * l1 / 9 - 15 * (2 / (81 * l0 ^ 4)) * l0 * (l0 - l1)) / (60 * l1 * l2 * (l2 - l1)),
    (2 - 27 * (2 / (81 * l0 ^ 4)) * l0 ^ 3) / (6 * l1) ^ 3,
    2 / (81 * l0 ^ 4)⟩

theorem made94 (big : Bool) {T : ℝ} (hT : T ≠ 0) (m l0 : ℝ) : Made (w94 l0) big T m l0 4 := by
  have k1 : ∀ c x : ℝ, c * T * (x / T) = c * x := fun c x => by field_simp
  have k2 : ∀ x : ℝ, T * (x / T) = x := fun x => by field_simp
  constructor
  · simp only [raw9, w94, k1, k2]; try ring
  · simp only [raw9, w94, k1, k2]; try ring
  · simp only [raw9, w94, k1, k2]; try ring
  · simp only [raw9, w94, k1, k2]; try ring
  · simp only [raw9, w94, k1, k2]; try ring
  · simp only [raw9, w94, k1, k2]; try ring
  · rintro rfl; simp only [raw9, w94, k1, k2, if_true]
  · rintro rfl; simp only [raw9, w94]; simp
  · simp only [raw9, w94]; try simp

/-- For `K` 5. -/
noncomputable def w95 (l0 : ℝ) : W9 :=
  let l1 := lam1 l0
  ⟨1 / (6 * l1),
    0,
    0,
    0,
    0,
    0,
    0,
    0⟩

theorem made95 (big : Bool) {T : ℝ} (hT : T ≠ 0) (m l0 : ℝ) : Made (w95 l0) big T m l0 5 := by
  have k1 : ∀ c x : ℝ, c * T * (x / T) = c * x := fun c x => by field_simp
  have k2 : ∀ x : ℝ, T * (x / T) = x := fun x => by field_simp
  constructor
  · simp only [raw9, w95, k1, k2]; try ring
  · simp only [raw9, w95, k1, k2]; try ring
  · simp only [raw9, w95, k1, k2]; try ring
  · simp only [raw9, w95, k1, k2]; try ring
  · simp only [raw9, w95, k1, k2]; try ring
  · simp only [raw9, w95, k1, k2]; try ring
  · rintro rfl; simp only [raw9, w95, k1, k2, if_true]
  · rintro rfl; simp only [raw9, w95]; simp
  · simp only [raw9, w95]; try simp

/-- The moment equations. -/
structure Eqs (w : W9) (l0 : ℝ) (D : ℕ) : Prop where
  one : ∀ a, 1 ≤ a → a ≤ D → 2 * lam1 l0 ^ a * w.a + 2 * lam2 l0 ^ a * w.b + 2 * lam3 l0 ^ a * w.c + 2 * (625 / 10000) ^ a * w.p + w.d * l0 ^ a = J [a]
  two : ∀ a b, 1 ≤ a → 1 ≤ b → a + b ≤ D → 4 * lam1 l0 ^ (a + b) * w.e + 4 * (lam1 l0 ^ a * lam2 l0 ^ b + lam2 l0 ^ a * lam1 l0 ^ b) * w.f + w.d * l0 ^ (a + b) = J [a, b]
  three : ∀ a b c, 1 ≤ a → 1 ≤ b → 1 ≤ c → a + b + c ≤ D → 8 * lam1 l0 ^ (a + b + c) * w.h + w.d * l0 ^ (a + b + c) = J [a, b, c]
  four : 4 ≤ D → w.d * l0 ^ 4 = J [1, 1, 1, 1]

theorem M9_eq {w : W9} {T m l0 : ℝ} (hT : T ≠ 0) {k D : ℕ} (hw : Made w true T m l0 k) (he : Eqs w l0 D) (hD : D ≤ 4) {nz : List ℕ} (h0 : nz ≠ []) (hp : ∀ a ∈ nz, a ≠ 0) (hs : nz.sum ≤ D) : M9 T m l0 k nz = J nz := by
  have hd : ∀ x : ℝ, w.d / T * (T * x) = w.d * x := fun x => by field_simp
  unfold M9
  rw [hw.a, hw.b, hw.c, hw.p, hw.e, hw.f, hw.h rfl, hw.d, hd]
  rcases nz with _ | ⟨a, _ | ⟨b, _ | ⟨c, _ | ⟨d, _ | ⟨e, r⟩⟩⟩⟩⟩
  · exact absurd rfl h0
  · simp at hp hs
    rw [← he.one a (by omega) hs]
    simp only [F1, F2, F3, F12, List.sum_cons, List.sum_nil, Nat.add_zero]
    ring
  · simp at hp hs
    rw [← he.two a b (by omega) (by omega) (by omega)]
    simp only [F1, F2, F3, F12, List.sum_cons, List.sum_nil, Nat.add_zero]
    ring
  · simp at hp hs
    rw [← he.three a b c (by omega) (by omega) (by omega) (by omega)]
    simp only [F1, F2, F3, F12, List.sum_cons, List.sum_nil, Nat.add_zero, Nat.add_assoc]
    ring
  · simp at hp hs
    obtain ⟨rfl, rfl, rfl, rfl⟩ : a = 1 ∧ b = 1 ∧ c = 1 ∧ d = 1 := by omega
    rw [← he.four (by omega)]
    simp only [F1, F2, F3, F12, List.sum_cons, List.sum_nil, Nat.add_zero]
    ring
  · exfalso; simp at hp hs; omega

theorem M92_eq {w : W9} {l0 : ℝ} {k D : ℕ} (hw : Made w false 4 2 l0 k) (he : Eqs w l0 D) {nz : List ℕ} (h0 : nz ≠ []) (h2 : nz.length ≤ 2) (hp : ∀ a ∈ nz, a ≠ 0) (hs : nz.sum ≤ D) : M92 l0 k nz = J nz := by
  have hd : ∀ x : ℝ, w.d / 4 * (4 * x) = w.d * x := fun x => by ring
  unfold M92
  rw [hw.a, hw.b, hw.c, hw.p, hw.e, hw.f, hw.h' rfl, hd]
  rcases nz with _ | ⟨a, _ | ⟨b, _ | ⟨c, r⟩⟩⟩
  · exact absurd rfl h0
  · simp at hp hs
    rw [← he.one a (by omega) hs]
    simp only [F1, F2, F3, F12, List.sum_cons, List.sum_nil, Nat.add_zero]
    ring
  · simp at hp hs
    rw [← he.two a b (by omega) (by omega) (by omega)]
    simp only [F1, F2, F3, F12, List.sum_cons, List.sum_nil, Nat.add_zero]
    ring
  · simp at h2

theorem eqs91 {l0 : ℝ} (hl : Lit l0) : Eqs (w91 l0) l0 4 := by
  constructor
  · intro a h1 h2
    interval_cases a <;> simp only [J, w91, List.map_cons, List.map_nil, List.prod_cons, List.prod_nil] <;> rcases hl with rfl | rfl <;> norm_num [lam0, lam1, lam2, lam3]
  · intro a b h1 h2 h3
    have h4 : a ≤ 3 := by omega
    have h5 : b ≤ 3 := by omega
    interval_cases a <;> interval_cases b <;> first
      | (exfalso; omega)
      | (simp only [J, w91, List.map_cons, List.map_nil, List.prod_cons, List.prod_nil]; rcases hl with rfl | rfl <;> norm_num [lam0, lam1, lam2, lam3])
  · intro a b c h1 h2 h3 h4
    have h5 : a ≤ 2 := by omega
    have h6 : b ≤ 2 := by omega
    have h7 : c ≤ 2 := by omega
    interval_cases a <;> interval_cases b <;> interval_cases c <;> first
      | (exfalso; omega)
      | (simp only [J, w91, List.map_cons, List.map_nil, List.prod_cons, List.prod_nil]; rcases hl with rfl | rfl <;> norm_num [lam0, lam1, lam2, lam3])
  · intro h
    simp only [J, w91, List.map_cons, List.map_nil, List.prod_cons, List.prod_nil]; rcases hl with rfl | rfl <;> norm_num [lam0, lam1, lam2, lam3]

theorem eqs92 {l0 : ℝ} (hl : Lit l0) : Eqs (w92 l0) l0 3 := by
  constructor
  · intro a h1 h2
    interval_cases a <;> simp only [J, w92, List.map_cons, List.map_nil, List.prod_cons, List.prod_nil] <;> rcases hl with rfl | rfl <;> norm_num [lam0, lam1, lam2, lam3]
  · intro a b h1 h2 h3
    have h4 : a ≤ 3 := by omega
    have h5 : b ≤ 3 := by omega
    interval_cases a <;> interval_cases b <;> first
      | (exfalso; omega)
      | (simp only [J, w92, List.map_cons, List.map_nil, List.prod_cons, List.prod_nil]; rcases hl with rfl | rfl <;> norm_num [lam0, lam1, lam2, lam3])
  · intro a b c h1 h2 h3 h4
    have h5 : a ≤ 2 := by omega
    have h6 : b ≤ 2 := by omega
    have h7 : c ≤ 2 := by omega
    interval_cases a <;> interval_cases b <;> interval_cases c <;> first
      | (exfalso; omega)
      | (simp only [J, w92, List.map_cons, List.map_nil, List.prod_cons, List.prod_nil]; rcases hl with rfl | rfl <;> norm_num [lam0, lam1, lam2, lam3])
  · intro h
    omega

theorem eqs93 {l0 : ℝ} (hl : Lit l0) : Eqs (w93 l0) l0 3 := by
  constructor
  · intro a h1 h2
    interval_cases a <;> simp only [J, w93, List.map_cons, List.map_nil, List.prod_cons, List.prod_nil] <;> rcases hl with rfl | rfl <;> norm_num [lam0, lam1, lam2, lam3]
  · intro a b h1 h2 h3
    have h4 : a ≤ 3 := by omega
    have h5 : b ≤ 3 := by omega
    interval_cases a <;> interval_cases b <;> first
      | (exfalso; omega)
      | (simp only [J, w93, List.map_cons, List.map_nil, List.prod_cons, List.prod_nil]; rcases hl with rfl | rfl <;> norm_num [lam0, lam1, lam2, lam3])
  · intro a b c h1 h2 h3 h4
    have h5 : a ≤ 2 := by omega
    have h6 : b ≤ 2 := by omega
    have h7 : c ≤ 2 := by omega
    interval_cases a <;> interval_cases b <;> interval_cases c <;> first
      | (exfalso; omega)
      | (simp only [J, w93, List.map_cons, List.map_nil, List.prod_cons, List.prod_nil]; rcases hl with rfl | rfl <;> norm_num [lam0, lam1, lam2, lam3])
  · intro h
    omega

theorem eqs94 {l0 : ℝ} (hl : Lit l0) : Eqs (w94 l0) l0 2 := by
  constructor
  · intro a h1 h2
    interval_cases a <;> simp only [J, w94, List.map_cons, List.map_nil, List.prod_cons, List.prod_nil] <;> rcases hl with rfl | rfl <;> norm_num [lam0, lam1, lam2, lam3]
  · intro a b h1 h2 h3
    have h4 : a ≤ 3 := by omega
    have h5 : b ≤ 3 := by omega
    interval_cases a <;> interval_cases b <;> first
      | (exfalso; omega)
      | (simp only [J, w94, List.map_cons, List.map_nil, List.prod_cons, List.prod_nil]; rcases hl with rfl | rfl <;> norm_num [lam0, lam1, lam2, lam3])
  · intro a b c h1 h2 h3 h4
    have h5 : a ≤ 2 := by omega
    have h6 : b ≤ 2 := by omega
    have h7 : c ≤ 2 := by omega
    interval_cases a <;> interval_cases b <;> interval_cases c <;> first
      | (exfalso; omega)
      | (simp only [J, w94, List.map_cons, List.map_nil, List.prod_cons, List.prod_nil]; rcases hl with rfl | rfl <;> norm_num [lam0, lam1, lam2, lam3])
  · intro h
    omega

theorem eqs95 {l0 : ℝ} (hl : Lit l0) : Eqs (w95 l0) l0 1 := by
  constructor
  · intro a h1 h2
    interval_cases a <;> simp only [J, w95, List.map_cons, List.map_nil, List.prod_cons, List.prod_nil] <;> rcases hl with rfl | rfl <;> norm_num [lam0, lam1, lam2, lam3]
  · intro a b h1 h2 h3
    have h4 : a ≤ 3 := by omega
    have h5 : b ≤ 3 := by omega
    interval_cases a <;> interval_cases b <;> first
      | (exfalso; omega)
      | (simp only [J, w95, List.map_cons, List.map_nil, List.prod_cons, List.prod_nil]; rcases hl with rfl | rfl <;> norm_num [lam0, lam1, lam2, lam3])
  · intro a b c h1 h2 h3 h4
    have h5 : a ≤ 2 := by omega
    have h6 : b ≤ 2 := by omega
    have h7 : c ≤ 2 := by omega
    interval_cases a <;> interval_cases b <;> interval_cases c <;> first
      | (exfalso; omega)
      | (simp only [J, w95, List.map_cons, List.map_nil, List.prod_cons, List.prod_nil]; rcases hl with rfl | rfl <;> norm_num [lam0, lam1, lam2, lam3])
  · intro h
    omega

end Verif.Drl
