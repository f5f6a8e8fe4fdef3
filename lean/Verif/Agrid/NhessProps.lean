import Verif.Agrid.Nhess

/-!
# Property C202: the matrix of second derivatives from one-sided steps
-/

set_option linter.unusedSectionVars false

noncomputable section

namespace Verif.Nhess

open Real Finset

variable {n : ℕ}

theorem row_diag (dp : Fin n → ℝ) (x : Pair n → ℝ) (i : Fin n) : ∑ q, step2 dp ⟨(i, i), le_rfl⟩ q * x q = dp i ^ 2 / 2 * x ⟨(i, i), le_rfl⟩ := by
  rw [Finset.sum_eq_single (⟨(i, i), le_rfl⟩ : Pair n)]
  · simp only [step2, vert, or_self, if_true]; ring
  · rintro ⟨⟨a, b⟩, hab⟩ _ hne
    have : a ≠ i ∨ b ≠ i := by
      by_contra h
      push Not at h
      obtain ⟨rfl, rfl⟩ := h
      exact hne rfl
    simp only [step2, vert, or_self]
    rcases this with h | h
    · rw [if_neg h]; simp
    · rw [if_neg h]; simp
  · intro h; exact absurd (mem_univ _) h

theorem row_off (dp : Fin n → ℝ) (x : Pair n → ℝ) {i j : Fin n} (hij : i < j) : ∑ q, step2 dp ⟨(i, j), hij.le⟩ q * x q =
    dp i ^ 2 / 2 * x ⟨(i, i), le_rfl⟩ + dp j ^ 2 / 2 * x ⟨(j, j), le_rfl⟩ + dp i * dp j * x ⟨(i, j), hij.le⟩ := by
  have hs : ∑ q, step2 dp ⟨(i, j), hij.le⟩ q * x q = ∑ q ∈ ({⟨(i, i), le_rfl⟩, ⟨(j, j), le_rfl⟩, ⟨(i, j), hij.le⟩} : Finset (Pair n)), step2 dp ⟨(i, j), hij.le⟩ q * x q := by
    symm
    refine Finset.sum_subset (subset_univ _) ?_
    rintro ⟨⟨a, b⟩, hab⟩ _ hq
    simp only [mem_insert, mem_singleton, Subtype.mk.injEq, Prod.mk.injEq, not_or] at hq
    obtain ⟨h1, h2, h3⟩ := hq
    simp only at hab
    simp only [step2, vert]
    by_cases ha : a = i ∨ a = j
    · by_cases hb : b = i ∨ b = j
      · exfalso
        rcases ha with rfl | rfl <;> rcases hb with rfl | rfl
        · exact h1 ⟨rfl, rfl⟩
        · exact h3 ⟨rfl, rfl⟩
        · exact absurd hab (not_le.2 hij)
        · exact h2 ⟨rfl, rfl⟩
      · rw [if_neg hb]; simp
    · rw [if_neg ha]; simp
  have hne : i ≠ j := hij.ne
  rw [hs, Finset.sum_insert (by simp [hne]), Finset.sum_insert (by simp [hne.symm]), Finset.sum_singleton]
  simp [step2, vert, hne, hne.symm]
  ring

/-- Specification: second differences with one-sided steps. -/
def diff2 (f : (Fin n → ℝ) → ℝ) (mu dp : Fin n → ℝ) (i j : Fin n) : ℝ :=
  if i = j then 2 * (log (f fun k => mu k + if k = i then dp k else 0) - log (f mu)) / dp i ^ 2
  else (log (f fun k => mu k + if k = i ∨ k = j then dp k else 0) - log (f fun k => mu k + if k = i then dp k else 0) - log (f fun k => mu k + if k = j then dp k else 0) + log (f mu)) / (dp i * dp j)

theorem solves_iff {f : (Fin n → ℝ) → ℝ} {mu dp : Fin n → ℝ} (hd : ∀ i, dp i ≠ 0) (x : Pair n → ℝ) : Solves f mu dp x ↔ ∀ p : Pair n, x p = diff2 f mu dp p.1.1 p.1.2 := by
  have hb : ∀ i, rhs f mu dp ⟨(i, i), le_rfl⟩ = log (f fun k => mu k + if k = i then dp k else 0) - log (f mu) := fun i => by
    simp only [rhs, vert, or_self]
  have hdg : ∀ i, dp i ^ 2 / 2 * diff2 f mu dp i i = log (f fun k => mu k + if k = i then dp k else 0) - log (f mu) := fun i => by
    have := hd i
    rw [diff2, if_pos rfl]; field_simp
  have hof : ∀ i j, i ≠ j → dp i * dp j * diff2 f mu dp i j = log (f fun k => mu k + if k = i ∨ k = j then dp k else 0) - log (f fun k => mu k + if k = i then dp k else 0) - log (f fun k => mu k + if k = j then dp k else 0) + log (f mu) := fun i j hij => by
    have := hd i
    have := hd j
    rw [diff2, if_neg hij]; field_simp
  constructor
  · intro h
    have h1 : ∀ i, x ⟨(i, i), le_rfl⟩ = diff2 f mu dp i i := fun i => by
      have := h ⟨(i, i), le_rfl⟩
      rw [row_diag, hb, ← hdg] at this
      exact mul_left_cancel₀ (div_ne_zero (pow_ne_zero 2 (hd i)) two_ne_zero) this
    rintro ⟨⟨i, j⟩, hij⟩
    rcases eq_or_lt_of_le hij with e | e
    · simp only at e; subst e; exact h1 i
    · have := h ⟨(i, j), hij⟩
      rw [row_off dp x e, h1, h1, hdg, hdg] at this
      have h2 := hof i j e.ne
      refine mul_left_cancel₀ (mul_ne_zero (hd i) (hd j)) ?_
      simp only at h2 this ⊢
      rw [h2]
      simp only [rhs, vert] at this
      linarith
  · intro h
    rintro ⟨⟨i, j⟩, hij⟩
    rcases eq_or_lt_of_le hij with e | e
    · simp only at e; subst e
      rw [row_diag, h, hb, hdg]
    · rw [row_off dp x e, h, h, h, hdg, hdg, hof i j e.ne]
      simp only [rhs, vert]
      ring

/-- C202: whatever the function, with nonzero steps the equations have exactly one solution, and the matrix returned is that of the negative second differences, symmetric. -/
theorem C202_solution {f : (Fin n → ℝ) → ℝ} {mu dp : Fin n → ℝ} (hd : ∀ i, dp i ≠ 0) : (∃! x, Solves f mu dp x) ∧ ∀ x, Solves f mu dp x → ∀ i j, place x i j = -diff2 f mu dp i j ∧ place x j i = place x i j := by
  have sym : ∀ i j, diff2 f mu dp j i = diff2 f mu dp i j := fun i j => by
    by_cases h : i = j
    · rw [h]
    · rw [diff2, diff2, if_neg h, if_neg (Ne.symm h)]
      have : (fun k => mu k + if k = j ∨ k = i then dp k else 0) = fun k => mu k + if k = i ∨ k = j then dp k else 0 := by
        funext k
        simp only [or_comm]
      rw [this]
      ring
  refine ⟨⟨fun p => diff2 f mu dp p.1.1 p.1.2, (solves_iff hd _).2 fun p => rfl, fun y hy => funext fun p => (solves_iff hd y).1 hy p⟩, ?_⟩
  intro x hx
  have h := (solves_iff hd x).1 hx
  have key : ∀ i j, place x i j = -diff2 f mu dp i j := fun i j => by
    rw [place]
    split_ifs with hij
    · rw [h]
    · rw [h, sym]
  intro i j
  exact ⟨key i j, by rw [key, key, sym]⟩

/-- C202: at the mode of a function whose logarithm is quadratic, the matrix returned is exactly minus that of its second derivatives.

Missing: a point that is not exactly the mode (`C202_violated_offset`), and the inverse promised (`C202_violated_inverse`). -/
theorem C202_quadratic_partial {f : (Fin n → ℝ) → ℝ} {mu dp : Fin n → ℝ} (hd : ∀ i, dp i ≠ 0) {H : Fin n → Fin n → ℝ} (hsym : ∀ i j, H i j = H j i)
    (hf : ∀ v : Fin n → ℝ, log (f fun i => mu i + v i) = log (f mu) + 1 / 2 * ∑ i, ∑ j, H i j * v i * v j) {x : Pair n → ℝ} (hx : Solves f mu dp x) (i j : Fin n) : place x i j = -H i j := by
  rw [((C202_solution hd).2 x hx i j).1]
  have h1 : ∀ i, log (f fun k => mu k + if k = i then dp k else 0) = log (f mu) + 1 / 2 * (H i i * dp i ^ 2) := fun i => by
    rw [hf]
    simp only [mul_ite, mul_zero, Finset.sum_ite_eq', mem_univ, if_true, ite_mul, zero_mul]
    ring
  congr 1
  have hi := hd i
  have hj := hd j
  rw [diff2]
  split_ifs with h
  · subst h
    rw [h1]
    field_simp
    ring
  · have h2 : log (f fun k => mu k + if k = i ∨ k = j then dp k else 0) = log (f mu) + 1 / 2 * (H i i * dp i ^ 2 + 2 * (H i j * dp i * dp j) + H j j * dp j ^ 2) := by
      have e : ∀ k, (if k = i ∨ k = j then dp k else 0) = (if k = i then dp k else 0) + (if k = j then dp k else 0) := fun k => by
        by_cases h3 : k = i
        · subst h3; simp [h]
        · simp [h3]
      rw [hf]
      simp only [e, mul_add, add_mul, Finset.sum_add_distrib, mul_ite, mul_zero, Finset.sum_ite_eq', mem_univ, if_true, ite_mul, zero_mul]
      rw [hsym j i]
      ring
    rw [h1, h1, h2]
    field_simp
    ring

/-- C202 fails if the point is not exactly the mode: with one parameter and a slope g there, the result is in error by 2g/dp, however small the step. -/
theorem C202_violated_offset {g h d : ℝ} (hd : d ≠ 0) {x : Pair 1 → ℝ} (hx : Solves (fun v : Fin 1 → ℝ => exp (g * v 0 + h / 2 * v 0 ^ 2)) (fun _ => 0) (fun _ => d) x) : place x 0 0 = -h - 2 * g / d := by
  rw [((C202_solution fun _ => hd).2 x hx 0 0).1, diff2, if_pos rfl]
  simp only [Fin.isValue, log_exp, if_true]
  field_simp
  ring

/-- C202 fails for the inverse: the matrix returned is not the inverse of minus the matrix of second derivatives that the description promises. -/
theorem C202_violated_inverse {x : Pair 1 → ℝ} (hx : Solves (fun v : Fin 1 → ℝ => exp (0 * v 0 + -4 / 2 * v 0 ^ 2)) (fun _ => 0) (fun _ => 1) x) : place x 0 0 = 4 ∧ place x 0 0 ≠ 1 / 4 := by
  have := C202_violated_offset one_ne_zero hx
  constructor <;> rw [this] <;> norm_num

example : ∃ x : Pair 2 → ℝ, Solves (fun v : Fin 2 → ℝ => exp (-(v 0) ^ 2 - v 1 ^ 2)) (fun _ => 0) (fun _ => 1) x :=
  (C202_solution (fun _ => one_ne_zero)).1.exists

end Verif.Nhess
