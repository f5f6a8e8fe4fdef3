import Verif.Mvnt.Mvnt
import Mathlib.LinearAlgebra.Matrix.Block
import Mathlib.LinearAlgebra.Matrix.NonsingularInverse
import Mathlib.Algebra.BigOperators.Fin
import Mathlib.LinearAlgebra.Matrix.DotProduct

/-!
# Lemmas about the decomposition
-/

set_option linter.unusedSectionVars false

namespace Verif.Mvnt

open Finset Matrix

/-! ## Specification -/

/-- The matrix an array holds. -/
def mat (n : ℕ) (A : Arr2) : Matrix (Fin n) (Fin n) ℝ := fun i j => A i j

/-- The vector an array holds. -/
def vec (n : ℕ) (v : Arr) : Fin n → ℝ := fun i => v i

/-- Symmetric and positive definite. -/
def PD {n : ℕ} (A : Matrix (Fin n) (Fin n) ℝ) : Prop := Aᵀ = A ∧ ∀ v : Fin n → ℝ, v ≠ 0 → 0 < v ⬝ᵥ A *ᵥ v

/-! ## Loops -/

theorem down_eq (f : ℕ → ℝ) (m : ℕ) (x : ℝ) : down f m x = x - ∑ k ∈ range m, f k := by
  induction m generalizing x with
  | zero => simp [down]
  | succ m ih => rw [down, ih, sum_range_succ]; ring

theorem up_eq (f : ℕ → ℝ) (m : ℕ) (x : ℝ) : up f m x = x + ∑ k ∈ range m, f k := by
  induction m with
  | zero => simp [up]
  | succ m ih => rw [up, ih, sum_range_succ]; ring

/-! ## The decomposition -/

theorem cholCol_eq (S : Arr2) (i : ℕ) (js : List ℕ) (hj : ∀ j ∈ js, i < j) (L : Arr2) (a b : ℕ) : cholCol S i js L a b =
    if b = i ∧ a ∈ js then (S i a - ∑ k ∈ range i, L a k * L i k) / L i i
    else if a = i ∧ b ∈ js then 0 else L a b := by
  induction js generalizing L with
  | nil => simp [cholCol]
  | cons j js ih =>
    have hji := hj j (by simp)
    rw [cholCol]
    set x := down (fun k => L j k * L i k) i (S i j) with hx
    set L1 := set2 (set2 L j i (x / L i i)) i j 0 with hL1
    have h1 : ∀ a k, k < i → L1 a k = L a k := by
      intro a k hk
      simp only [hL1, set2]
      rw [if_neg (by rintro ⟨_, rfl⟩; omega), if_neg (by rintro ⟨_, rfl⟩; omega)]
    have h2 : L1 i i = L i i := by
      simp only [hL1, set2]
      rw [if_neg (by rintro ⟨_, h⟩; omega), if_neg (by rintro ⟨h, _⟩; omega)]
    rw [ih (fun j hj' => hj j (by simp [hj'])) L1, h2]
    have hs : ∀ a, ∑ k ∈ range i, L1 a k * L1 i k = ∑ k ∈ range i, L a k * L i k := fun a =>
      sum_congr rfl fun k hk => by rw [h1 a k (mem_range.1 hk), h1 i k (mem_range.1 hk)]
    rw [hs]
    simp only [List.mem_cons]
    have hjn : i ∉ js := fun h => by have := hj i (by simp [h]); omega
    have hset : L1 a b = if a = i ∧ b = j then 0 else if a = j ∧ b = i then x / L i i else L a b := by
      simp only [hL1, set2]
    have hx' : x = S i j - ∑ k ∈ range i, L j k * L i k := by rw [hx, down_eq]
    rw [hset, hx']
    clear_value L1 x
    clear ih h1 hs hset hx' hL1 hx
    by_cases haj : a = j
    · subst haj
      split_ifs <;> grind
    · split_ifs <;> grind

/-- What is known of the first `i` columns. -/
structure Inv (n : ℕ) (S : Arr2) (i : ℕ) (L : Arr2) (d : ℝ) : Prop where
  pos : ∀ k < i, 0 < L k k
  col : ∀ k < i, ∀ a, k ≤ a → a < n → ∑ t ∈ range (k + 1), L a t * L k t = S k a
  zero : ∀ k < i, ∀ b, k < b → b < n → L k b = 0
  det : d = ∏ k ∈ range i, L k k ^ 2

theorem Inv.step {n : ℕ} {S : Arr2} {i : ℕ} {L : Arr2} {d : ℝ} (h : Inv n S i L d) (hi : i < n) {x : ℝ}
    (hx : x = S i i - ∑ k ∈ range i, L i k * L i k) (hpos : 0 < x) :
    Inv n S (i + 1) (cholCol S i (List.range' (i + 1) (n - (i + 1))) (set2 L i i (√x))) (d * x) := by
  set js := List.range' (i + 1) (n - (i + 1)) with hjs
  have hmem : ∀ a, a ∈ js ↔ i < a ∧ a < n := by intro a; rw [hjs, List.mem_range'_1]; omega
  have hL := cholCol_eq S i js (fun j hj => ((hmem j).1 hj).1) (set2 L i i (√x))
  set L2 := cholCol S i js (set2 L i i (√x)) with hL2
  have hset : ∀ a k, k < i → set2 L i i (√x) a k = L a k := fun a k hk => by
    unfold set2; rw [if_neg (by rintro ⟨_, rfl⟩; omega)]
  have hii : L2 i i = √x := by
    rw [hL, if_neg (by rw [hmem]; omega), if_neg (by rw [hmem]; omega)]
    simp [set2]
  have hlow : ∀ a k, k < i → L2 a k = L a k := by
    intro a k hk
    rw [hL, if_neg (by omega), if_neg (by rw [hmem]; omega), hset a k hk]
  have hcol : ∀ a, i < a → a < n → L2 a i = (S i a - ∑ k ∈ range i, L a k * L i k) / √x := by
    intro a h1 h2
    rw [hL, if_pos ⟨rfl, (hmem a).2 ⟨h1, h2⟩⟩]
    have : set2 L i i (√x) i i = √x := by simp [set2]
    rw [this]
    congr 2
    exact sum_congr rfl fun k hk => by rw [hset a k (mem_range.1 hk), hset i k (mem_range.1 hk)]
  have hs : 0 < √x := Real.sqrt_pos.2 hpos
  refine ⟨fun k hk => ?_, fun k hk a h1 h2 => ?_, fun k hk b h1 h2 => ?_, ?_⟩
  · rcases Nat.lt_succ_iff_lt_or_eq.1 hk with hk | rfl
    · rw [hlow k k hk]; exact h.pos k hk
    · rw [hii]; exact hs
  · rcases Nat.lt_succ_iff_lt_or_eq.1 hk with hk | rfl
    · rw [← h.col k hk a h1 h2]
      exact sum_congr rfl fun t ht => by
        have : t < i := by have := mem_range.1 ht; omega
        rw [hlow a t this, hlow k t this]
    · rw [sum_range_succ, hii, sum_congr rfl fun t ht => by rw [hlow a t (mem_range.1 ht), hlow k t (mem_range.1 ht)]]
      rcases Nat.eq_or_lt_of_le h1 with rfl | h1
      · rw [hii, Real.mul_self_sqrt hpos.le, hx]; ring
      · rw [hcol a h1 h2]; field_simp; ring
  · rcases Nat.lt_succ_iff_lt_or_eq.1 hk with hk | rfl
    · have hb : L2 k b = L k b := by
        by_cases hbi : b = i
        · subst hbi
          rw [hL, if_neg (by rw [hmem]; omega), if_neg (by omega)]
          unfold set2; rw [if_neg (by omega)]
        · rw [hL, if_neg (by omega), if_neg (by omega)]
          unfold set2; rw [if_neg (by omega)]
      rw [hb]; exact h.zero k hk b h1 h2
    · rw [hL, if_neg (by rw [hmem]; omega), if_pos ⟨rfl, (hmem b).2 ⟨h1, h2⟩⟩]
  · rw [prod_range_succ, hii, Real.sq_sqrt hpos.le, h.det]
    congr 1
    exact prod_congr rfl fun k hk => by rw [hlow k k (mem_range.1 hk)]

/-- The decomposition of a matrix by a lower triangular one. -/
structure Factor (n : ℕ) (A : Matrix (Fin n) (Fin n) ℝ) (M : Matrix (Fin n) (Fin n) ℝ) : Prop where
  upper : ∀ i j, i < j → M i j = 0
  diag : ∀ i, 0 < M i i
  eq : M * Mᵀ = A

theorem Factor.det {n : ℕ} {A M : Matrix (Fin n) (Fin n) ℝ} (h : Factor n A M) : M.det = ∏ i, M i i := by
  apply Matrix.det_of_isLowerTriangular
  intro i j hij
  exact h.upper i j hij

theorem Factor.det_pos {n : ℕ} {A M : Matrix (Fin n) (Fin n) ℝ} (h : Factor n A M) : 0 < M.det := by
  rw [h.det]; exact prod_pos fun i _ => h.diag i

theorem Factor.det_sq {n : ℕ} {A M : Matrix (Fin n) (Fin n) ℝ} (h : Factor n A M) : A.det = M.det ^ 2 := by
  rw [← h.eq, Matrix.det_mul, Matrix.det_transpose, sq]

theorem Factor.pd {n : ℕ} {A M : Matrix (Fin n) (Fin n) ℝ} (h : Factor n A M) : PD A := by
  have hu : IsUnit Mᵀ.det := by rw [Matrix.det_transpose]; exact (ne_of_gt h.det_pos).isUnit
  refine ⟨by rw [← h.eq]; simp, fun v hv => ?_⟩
  have h1 : v ⬝ᵥ A *ᵥ v = (Mᵀ *ᵥ v) ⬝ᵥ (Mᵀ *ᵥ v) := by
    rw [← h.eq, ← Matrix.mulVec_mulVec, Matrix.dotProduct_mulVec, ← Matrix.mulVec_transpose]
  rw [h1]
  have h2 : Mᵀ *ᵥ v ≠ 0 := by
    intro h0
    apply hv
    have := congrArg (fun w => Mᵀ⁻¹ *ᵥ w) h0
    simpa [Matrix.mulVec_mulVec, Matrix.nonsing_inv_mul _ hu] using this
  have h3 : (Mᵀ *ᵥ v) ⬝ᵥ (Mᵀ *ᵥ v) ≠ 0 := fun h => h2 (dotProduct_self_eq_zero.1 h)
  exact lt_of_le_of_ne (sum_nonneg fun i _ => mul_self_nonneg _) h3.symm

theorem Inv.factor {n : ℕ} {S L : Arr2} {d : ℝ} (h : Inv n S n L d) (hsym : (mat n S)ᵀ = mat n S) : Factor n (mat n S) (mat n L) ∧ d = (mat n S).det := by
  have hz : ∀ i j : Fin n, i < j → mat n L i j = 0 := fun i j hij => h.zero i i.2 j hij j.2
  have hf : Factor n (mat n S) (mat n L) := by
    refine ⟨hz, fun i => h.pos i i.2, ?_⟩
    have key : ∀ i j : Fin n, i ≤ j → (mat n L * (mat n L)ᵀ) i j = mat n S i j := by
      intro i j hij
      rw [Matrix.mul_apply]
      simp only [Matrix.transpose_apply]
      change ∑ t : Fin n, L i t * L j t = _
      rw [Fin.sum_univ_eq_sum_range (fun t => L i t * L j t) n]
      rw [show mat n S i j = S i j from rfl, ← h.col i i.2 j hij j.2]
      rw [← sum_subset (s₁ := range ((i : ℕ) + 1)) (s₂ := range n)]
      · exact sum_congr rfl fun t _ => mul_comm _ _
      · intro t ht; rw [mem_range] at *; omega
      · intro t ht ht'
        rw [mem_range] at ht ht'
        rw [h.zero i i.2 t (by omega) ht, zero_mul]
    ext i j
    rcases le_total i j with hij | hij
    · exact key i j hij
    · have := key j i hij
      rw [show (mat n L * (mat n L)ᵀ) i j = (mat n L * (mat n L)ᵀ)ᵀ j i from rfl, Matrix.transpose_mul, Matrix.transpose_transpose, this]
      exact congrFun (congrFun hsym i) j |>.symm ▸ rfl
  refine ⟨hf, ?_⟩
  rw [hf.det_sq, hf.det, h.det, ← prod_pow, ← Fin.prod_univ_eq_prod_range (fun k => L k k ^ 2) n]
  rfl

/-- If the first `i` columns could be found and the matrix is positive definite, the next one can be found. -/
theorem Inv.pivot {n : ℕ} {S : Arr2} {i : ℕ} {L : Arr2} {d : ℝ} (h : Inv n S i L d) (hi : i < n) (hpd : PD (mat n S)) :
    0 < S i i - ∑ k ∈ range i, L i k * L i k := by
  -- the block of the first `i` rows and columns
  set B : Matrix (Fin i) (Fin i) ℝ := mat i L with hB
  have hBd : B.det ≠ 0 := by
    have : B.det = ∏ k, B k k := by
      apply Matrix.det_of_isLowerTriangular
      intro a b hab
      exact h.zero a a.2 b hab (by have := b.2; omega)
    rw [this]
    exact (prod_pos fun (k : Fin i) _ => (h.pos k k.2 : 0 < B k k)).ne'
  have hBu : IsUnit Bᵀ.det := by rw [Matrix.det_transpose]; exact hBd.isUnit
  -- w solves Bᵀ w = l
  set l : Fin i → ℝ := fun k => L i k with hl
  set w : Fin i → ℝ := Bᵀ⁻¹ *ᵥ l with hw
  have hBw : Bᵀ *ᵥ w = l := by rw [hw, Matrix.mulVec_mulVec, Matrix.mul_nonsing_inv _ hBu, Matrix.one_mulVec]
  -- extended by 1 and zeros
  set W : ℕ → ℝ := fun a => if h : a < i then -w ⟨a, h⟩ else if a = i then 1 else 0 with hW
  have hWi : W i = 1 := by simp [hW]
  have hWlow : ∀ k : Fin i, W k = -w k := fun k => by simp [hW, k.2]
  have hWhigh : ∀ a, i < a → W a = 0 := fun a ha => by simp [hW, show ¬a < i by omega, show a ≠ i by omega]
  have hsym : ∀ a b, a < n → b < n → S a b = S b a := fun a b ha hb => (congrFun (congrFun hpd.1 ⟨b, hb⟩) ⟨a, ha⟩)
  have hq := hpd.2 (vec n W) (by
    intro h0
    have := congrFun h0 ⟨i, hi⟩
    simp only [vec, hWi, Pi.zero_apply] at this
    norm_num at this)
  -- the sums over all indices are sums over the first `i + 1`
  have hsum : ∀ f : ℕ → ℝ, (∀ a, i < a → f a = 0) → ∑ a ∈ range n, f a = ∑ a ∈ range i, f a + f i := by
    intro f hf
    rw [← sum_range_succ]
    symm
    apply sum_subset
    · intro a ha; rw [mem_range] at *; omega
    · intro a _ ha'; rw [mem_range] at ha'; exact hf a (by omega)
  -- sums of products with L
  have hBw' : ∀ t < i, ∑ a ∈ range i, L a t * W a = -L i t := by
    intro t ht
    have h1 := congrFun hBw ⟨t, ht⟩
    rw [Matrix.mulVec, dotProduct] at h1
    rw [← Fin.sum_univ_eq_sum_range (fun a => L a t * W a) i]
    rw [show -L i t = -l ⟨t, ht⟩ from rfl, ← h1, ← sum_neg_distrib]
    exact sum_congr rfl fun a _ => by rw [hWlow]; simp [hB, mat]
  have hz : ∀ k t, k < i → k < t → t < n → L k t = 0 := fun k t h1 h2 h3 => h.zero k h1 t h2 h3
  -- rows of S in terms of L
  have hrow : ∀ k < i, ∀ a, a ≤ i → S k a = ∑ t ∈ range i, L a t * L k t := by
    intro k hk a ha
    have key : ∀ k < i, ∀ a, k ≤ a → a ≤ i → S k a = ∑ t ∈ range i, L a t * L k t := by
      intro k hk a h1 h2
      rw [← h.col k hk a h1 (by omega)]
      apply sum_subset
      · intro t ht; rw [mem_range] at *; omega
      · intro t ht ht'
        rw [mem_range] at ht ht'
        rw [hz k t hk (by omega) (by omega), mul_zero]
    rcases le_total k a with h1 | h1
    · exact key k hk a h1 ha
    · rcases Nat.eq_or_lt_of_le h1 with rfl | h2
      · exact key a hk a le_rfl ha
      · rw [hsym k a (by omega) (by omega), key a (by omega) k h1 (by omega)]
        exact sum_congr rfl fun t _ => mul_comm _ _
  -- S W, on the first i
  have hSW : ∀ k < i, ∑ a ∈ range n, S k a * W a = 0 := by
    intro k hk
    rw [hsum _ fun a ha => by rw [hWhigh a ha, mul_zero], hWi, mul_one, hrow k hk i le_rfl]
    rw [sum_congr rfl fun a ha => by rw [hrow k hk a (mem_range.1 ha).le, sum_mul], sum_comm,
      sum_congr rfl fun t ht => by
        rw [show ∑ a ∈ range i, L a t * L k t * W a = L k t * ∑ a ∈ range i, L a t * W a by
          rw [mul_sum]; exact sum_congr rfl fun a _ => by ring, hBw' t (mem_range.1 ht)],
      ← sum_add_distrib]
    exact sum_eq_zero fun t _ => by ring
  have hSi : ∑ a ∈ range n, S i a * W a = S i i - ∑ k ∈ range i, L i k * L i k := by
    rw [hsum _ fun a ha => by rw [hWhigh a ha, mul_zero], hWi, mul_one]
    rw [sum_congr rfl fun a ha => by rw [hsym i a hi (by have := mem_range.1 ha; omega), hrow a (mem_range.1 ha) i le_rfl, sum_mul], sum_comm,
      sum_congr rfl fun t ht => by
        rw [show ∑ a ∈ range i, L i t * L a t * W a = L i t * ∑ a ∈ range i, L a t * W a by
          rw [mul_sum]; exact sum_congr rfl fun a _ => by ring, hBw' t (mem_range.1 ht)]]
    rw [add_comm, sub_eq_add_neg, ← sum_neg_distrib]
    congr 1
    exact sum_congr rfl fun t _ => by ring
  have hquad : vec n W ⬝ᵥ mat n S *ᵥ vec n W = S i i - ∑ k ∈ range i, L i k * L i k := by
    rw [dotProduct]
    have : ∀ a : Fin n, vec n W a * (mat n S *ᵥ vec n W) a = W a * ∑ b ∈ range n, S a b * W b := by
      intro a
      rw [← Fin.sum_univ_eq_sum_range (fun b => S a b * W b) n]; rfl
    rw [sum_congr rfl fun a _ => this a, Fin.sum_univ_eq_sum_range (fun a => W a * ∑ b ∈ range n, S a b * W b) n,
      hsum _ fun a ha => by rw [hWhigh a ha, zero_mul], hWi, one_mul, hSi,
      sum_eq_zero fun a ha => by rw [hSW a (mem_range.1 ha), mul_zero], zero_add]
  rw [← hquad]; exact hq

theorem cholLoop_run {n : ℕ} {S : Arr2} (m i : ℕ) (hm : i + m = n) {L : Arr2} {d : ℝ} (h : Inv n S i L d) :
    (∀ L' d', cholLoop n S (List.range' i m) (L, d) = some (L', d') → Inv n S n L' d') ∧
    (PD (mat n S) → ∃ L' d', cholLoop n S (List.range' i m) (L, d) = some (L', d')) := by
  induction m generalizing i L d with
  | zero =>
    have : i = n := by omega
    subst this
    refine ⟨fun L' d' h' => ?_, fun _ => ⟨L, d, rfl⟩⟩
    simp only [List.range'_zero, cholLoop, Option.some.injEq, Prod.mk.injEq] at h'
    rw [← h'.1, ← h'.2]; exact h
  | succ m ih =>
    rw [List.range'_succ, cholLoop]
    simp only [down_eq]
    set x := S i i - ∑ k ∈ range i, L i k * L i k with hx
    by_cases hpos : 0 < x
    · rw [if_neg hpos.ne', if_neg (not_lt.2 hpos.le)]
      exact ih (i + 1) (by omega) (h.step (by omega) hx hpos)
    · refine ⟨fun L' d' h' => ?_, fun hpd => absurd (h.pivot (by omega) hpd) hpos⟩
      rcases lt_trichotomy x 0 with h1 | h1 | h1
      · rw [if_neg h1.ne, if_pos h1] at h'; cases h'
      · rw [if_pos h1] at h'; cases h'
      · exact absurd h1 hpos

/-- The decomposition succeeds exactly for positive definite matrices. -/
theorem chol_spec {n : ℕ} {S L0 : Arr2} (hsym : (mat n S)ᵀ = mat n S) :
    (∀ L d, cholLoop n S (List.range n) (L0, 1) = some (L, d) → Factor n (mat n S) (mat n L) ∧ d = (mat n S).det) ∧
    (PD (mat n S) ↔ ∃ L d, cholLoop n S (List.range n) (L0, 1) = some (L, d)) := by
  have h0 : Inv n S 0 L0 1 := ⟨by simp, by simp, by simp, by simp⟩
  obtain ⟨h1, h2⟩ := cholLoop_run n 0 (by omega) h0
  rw [List.range_eq_range']
  have h3 : ∀ L d, cholLoop n S (List.range' 0 n) (L0, 1) = some (L, d) → Factor n (mat n S) (mat n L) ∧ d = (mat n S).det :=
    fun L d h => (h1 L d h).factor hsym
  exact ⟨h3, h2, fun ⟨L, d, h⟩ => (h3 L d h).1.pd⟩

end Verif.Mvnt
