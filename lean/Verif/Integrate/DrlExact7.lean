import Verif.Integrate.DrlFit

/-!
# The basic rules of DCUHRE: moments of the rule of degree seven
-/

set_option linter.unusedSectionVars false

namespace Verif.Drl

open Finset

/-- The sums over orbits as functions of the dimension: one value. -/
noncomputable def F1 (m μ : ℝ) : List ℕ → ℝ
  | [] => 2 * m
  | [a] => 2 * μ ^ a
  | _ => 0

/-- Twice the same value. -/
noncomputable def F2 (m μ : ℝ) : List ℕ → ℝ
  | [] => 2 * m * (m - 1)
  | [a] => 4 * (m - 1) * μ ^ a
  | [a, b] => 4 * μ ^ (a + b)
  | _ => 0

/-- Three times the same value. -/
noncomputable def F3 (m μ : ℝ) : List ℕ → ℝ
  | [] => 4 * m * (m - 1) * (m - 2) / 3
  | [a] => 4 * (m - 1) * (m - 2) * μ ^ a
  | [a, b] => 8 * (m - 2) * μ ^ (a + b)
  | [a, b, c] => 8 * μ ^ (a + b + c)
  | _ => 0

/-- Two values. -/
noncomputable def F12 (m μ ν : ℝ) : List ℕ → ℝ
  | [] => 4 * m * (m - 1)
  | [a] => 4 * (m - 1) * (μ ^ a + ν ^ a)
  | [a, b] => 4 * (μ ^ a * ν ^ b + ν ^ a * μ ^ b)
  | _ => 0

theorem F1_eq {n : ℕ} (hn : 2 ≤ n) (μ : ℝ) (nz : List ℕ) : oneForm 1 μ n nz = F1 n μ nz := by
  unfold oneForm
  rcases nz with _ | ⟨a, _ | ⟨b, r⟩⟩
  · simp [F1]
  · simp [F1]
  · simp [F1]

theorem F2_eq {n : ℕ} (hn : 2 ≤ n) (μ : ℝ) (nz : List ℕ) : oneForm 2 μ n nz = F2 n μ nz := by
  unfold oneForm
  rcases nz with _ | ⟨a, _ | ⟨b, _ | ⟨c, r⟩⟩⟩
  · simp [F2, Nat.cast_choose_two]; ring
  · simp [F2]; rw [Nat.cast_sub (by omega)]; push_cast; ring
  · simp [F2]; norm_num
  · simp [F2]

theorem F3_eq {n : ℕ} (hn : 3 ≤ n) (μ : ℝ) (nz : List ℕ) : oneForm 3 μ n nz = F3 n μ nz := by
  unfold oneForm
  rcases nz with _ | ⟨a, _ | ⟨b, _ | ⟨c, _ | ⟨d, r⟩⟩⟩⟩
  · simp [F3, choose_three]; ring
  · simp [F3, Nat.cast_choose_two]; rw [Nat.cast_sub (by omega)]; push_cast; ring
  · simp [F3]; rw [Nat.cast_sub (by omega)]; push_cast; ring
  · simp [F3, add_assoc]; norm_num
  · simp [F3]

theorem F12_eq (n : ℕ) (μ ν : ℝ) (nz : List ℕ) : twoForm μ ν n nz = F12 n μ ν nz := by
  rcases nz with _ | ⟨a, _ | ⟨b, _ | ⟨c, r⟩⟩⟩ <;> simp [F12, twoForm]

theorem FA_eq {n : ℕ} (μ : ℝ) {nz : List ℕ} (h : nz.length ≤ n) : oneForm n μ n nz = 2 ^ n * μ ^ nz.sum := by
  unfold oneForm
  rw [if_pos h]; simp

/-- The mean of the monomial over the cube. -/
noncomputable def J (nz : List ℕ) : ℝ := (nz.map fun a : ℕ => 1 / (2 * (a : ℝ) + 1)).prod

/-- Positive numbers with a small sum. -/
theorem small_sums {l : List ℕ} (hp : ∀ a ∈ l, a ≠ 0) (hs : l.sum ≤ 4) :
    l = [] ∨ l = [1] ∨ l = [2] ∨ l = [1, 1] ∨ l = [3] ∨ l = [1, 2] ∨ l = [2, 1] ∨ l = [1, 1, 1] ∨ l = [4] ∨ l = [1, 3] ∨ l = [3, 1] ∨ l = [2, 2] ∨ l = [1, 1, 2] ∨ l = [1, 2, 1] ∨ l = [2, 1, 1] ∨ l = [1, 1, 1, 1] := by
  rcases l with _ | ⟨a, _ | ⟨b, _ | ⟨c, _ | ⟨d, _ | ⟨e, r⟩⟩⟩⟩⟩
  · simp
  · simp at hp hs ⊢; omega
  · simp at hp hs ⊢; omega
  · simp at hp hs ⊢; omega
  · simp at hp hs ⊢; omega
  · exfalso; simp at hp hs; omega

/-- The sums of the moments with the weights before the final values. -/
noncomputable def M7 (T m l0 : ℝ) (k : ℕ) (nz : List ℕ) : ℝ :=
  raw7 T m l0 k 2 * F1 m (lam2 l0) nz + raw7 T m l0 k 3 * F1 m (lam1 l0) nz + raw7 T m l0 k 4 * F1 m (5625 / 10000) nz + raw7 T m l0 k 5 * F2 m (lam1 l0) nz + raw7 T m l0 k 6 * (T * l0 ^ nz.sum)

theorem M7_one {T m l0 : ℝ} (hT : T ≠ 0) (hl : Lit l0) {nz : List ℕ} (h0 : nz ≠ []) (hp : ∀ a ∈ nz, a ≠ 0) (hs : nz.sum ≤ 3) : M7 T m l0 1 nz = J nz := by
  rcases small_sums hp (by omega) with rfl | rfl | rfl | rfl | rfl | rfl | rfl | rfl | rfl | rfl | rfl | rfl | rfl | rfl | rfl | rfl <;> first
    | (exfalso; simp at hs; done)
    | (exfalso; exact h0 rfl)
    | (simp only [M7, F1, F2, J, raw7]
       rcases hl with rfl | rfl
       · norm_num [lam0, lam1, lam2]
         field_simp
         try ring
       · norm_num [lam1, lam2]
         field_simp
         try ring)

theorem M7_two {T m l0 : ℝ} (hT : T ≠ 0) (hl : Lit l0) {nz : List ℕ} (h0 : nz ≠ []) (hp : ∀ a ∈ nz, a ≠ 0) (hs : nz.sum ≤ 2) : M7 T m l0 2 nz = J nz := by
  rcases small_sums hp (by omega) with rfl | rfl | rfl | rfl | rfl | rfl | rfl | rfl | rfl | rfl | rfl | rfl | rfl | rfl | rfl | rfl <;> first
    | (exfalso; simp at hs; done)
    | (exfalso; exact h0 rfl)
    | (simp only [M7, F1, F2, J, raw7]
       rcases hl with rfl | rfl
       · norm_num [lam0, lam1, lam2]
         try field_simp
         try ring
       · norm_num [lam1, lam2]
         try field_simp
         try ring)

theorem M7_three {T m l0 : ℝ} (hT : T ≠ 0) (hl : Lit l0) {nz : List ℕ} (h0 : nz ≠ []) (hp : ∀ a ∈ nz, a ≠ 0) (hs : nz.sum ≤ 2) : M7 T m l0 3 nz = J nz := by
  rcases small_sums hp (by omega) with rfl | rfl | rfl | rfl | rfl | rfl | rfl | rfl | rfl | rfl | rfl | rfl | rfl | rfl | rfl | rfl <;> first
    | (exfalso; simp at hs; done)
    | (exfalso; exact h0 rfl)
    | (simp only [M7, F1, F2, J, raw7]
       rcases hl with rfl | rfl
       · norm_num [lam0, lam1, lam2]
         try field_simp
         try ring
       · norm_num [lam1, lam2]
         try field_simp
         try ring)

theorem M7_four {T m l0 : ℝ} (hT : T ≠ 0) (hl : Lit l0) {nz : List ℕ} (h0 : nz ≠ []) (hp : ∀ a ∈ nz, a ≠ 0) (hs : nz.sum ≤ 1) : M7 T m l0 4 nz = J nz := by
  rcases small_sums hp (by omega) with rfl | rfl | rfl | rfl | rfl | rfl | rfl | rfl | rfl | rfl | rfl | rfl | rfl | rfl | rfl | rfl <;> first
    | (exfalso; simp at hs; done)
    | (exfalso; exact h0 rfl)
    | (simp only [M7, F1, F2, J, raw7]
       rcases hl with rfl | rfl
       · norm_num [lam0, lam1, lam2]
         try field_simp
         try ring
       · norm_num [lam1, lam2]
         try field_simp
         try ring)

end Verif.Drl
