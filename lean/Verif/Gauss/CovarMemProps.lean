import Verif.Gauss.CovarMem

/-!
# C220: `covar` stays inside its array for square arrays, and does not for others
-/

namespace Verif.Vba.Mem

theorem mem_loop {lo hi : ℕ} {body : ℕ → List ℕ} {x : ℕ} : x ∈ loop lo hi body ↔ ∃ i, lo ≤ i ∧ i < hi ∧ x ∈ body i := by
  simp only [loop, List.mem_flatMap, List.mem_range'_1]
  constructor
  · rintro ⟨i, h, hx⟩
    exact ⟨i, h.1, by omega, hx⟩
  · rintro ⟨i, h1, h2, hx⟩
    exact ⟨i, ⟨h1, by omega⟩, hx⟩

theorem cell_lt {n i j : ℕ} (hi : i < n) (hj : j < n) : i * n + j < n * n := by
  have : (i + 1) * n ≤ n * n := Nat.mul_le_mul_right n hi
  rw [Nat.add_mul, Nat.one_mul] at this
  omega

/-- Every offset is that of a row and a column below `nmod`. -/
theorem touched_cell {n x : ℕ} (h : x ∈ touched n) : ∃ i j, i < n ∧ j < n ∧ x = i * n + j := by
  simp only [touched, touched1, touched2, touched3, List.mem_append, mem_loop, List.mem_cons, List.not_mem_nil, or_false] at h
  rcases h with (⟨a, _, ha, h⟩ | ⟨a, _, ha, b, hab, hb, h⟩) | ⟨a, _, ha, b, hab, hb, h⟩
  · rcases h with h | ⟨b, hab, hb, ⟨m, h1, h2, h | h⟩ | h | h⟩
    · exact ⟨a, a, ha, ha, h⟩
    · exact ⟨b, m, hb, by omega, h⟩
    · exact ⟨m, a, by omega, ha, h⟩
    · exact ⟨b, b, hb, hb, h⟩
    · exact ⟨b, a, hb, ha, h⟩
  · rcases h with ⟨m, h1, h2, h | h⟩ | h
    · exact ⟨m, a, h2, ha, h⟩
    · exact ⟨m, b, h2, hb, h⟩
    · exact ⟨a, b, ha, hb, h⟩
  · rcases h with h | h
    · exact ⟨a, b, ha, hb, h⟩
    · exact ⟨b, a, hb, ha, h⟩

/-- Every cell of the square of `nmod` rows is touched. -/
theorem cell_touched {n i j : ℕ} (hi : i < n) (hj : j < n) : i * n + j ∈ touched n := by
  simp only [touched, touched1, touched2, touched3, List.mem_append, mem_loop, List.mem_cons, List.not_mem_nil, or_false]
  rcases Nat.lt_trichotomy i j with h | h | h
  · exact .inl (.inr ⟨i, by omega, hi, j, by omega, hj, .inr rfl⟩)
  · subst h
    exact .inl (.inl ⟨i, by omega, hi, .inl rfl⟩)
  · exact .inr ⟨j, by omega, hj, i, by omega, hi, .inr rfl⟩

/-- **C220.**  For an array with as many columns as rows or more, whatever its size, `covar` reads and writes only elements of its copy; if the array is square it touches every one of them.  Missing: arrays with fewer columns (`C220_violated_bounds`). -/
theorem C220_bounds_partial (nmod ncol : ℕ) (h : nmod ≤ ncol) :
    (∀ x ∈ touched nmod, x < size nmod ncol) ∧ (nmod = ncol → ∀ x, x < size nmod ncol → x ∈ touched nmod) := by
  constructor
  · intro x hx
    obtain ⟨i, j, hi, hj, rfl⟩ := touched_cell hx
    exact lt_of_lt_of_le (cell_lt hi hj) (Nat.mul_le_mul_left nmod h)
  · rintro rfl x hx
    have hn : 0 < nmod := by
      rcases Nat.eq_zero_or_pos nmod with h0 | h0
      · subst h0; simp [size] at hx
      · exact h0
    have e := Nat.div_add_mod' x nmod
    rw [← e]
    exact cell_touched (Nat.div_lt_of_lt_mul hx) (Nat.mod_lt _ hn)

/-- **C220, violated.**  For every array with fewer columns than rows `covar` reads and overwrites memory outside of its array: the offset of the last element of the square of the rows is touched. -/
theorem C220_violated_bounds (nmod ncol : ℕ) (h : ncol < nmod) : ∃ x ∈ touched nmod, size nmod ncol ≤ x := by
  refine ⟨(nmod - 1) * nmod + (nmod - 1), cell_touched (by omega) (by omega), ?_⟩
  have h1 : nmod * ncol ≤ nmod * (nmod - 1) := Nat.mul_le_mul_left _ (by omega)
  rw [Nat.mul_comm nmod (nmod - 1)] at h1
  simp only [size]; omega

/-- **C220, violated.**  For every array with more columns than rows, and at least two rows, no error is raised, the second row is taken to begin inside the first one, and the last element of the array, in its last row, is not used at all. -/
theorem C220_violated_rows (nmod ncol : ℕ) (h0 : 2 ≤ nmod) (h : nmod < ncol) :
    1 * nmod + 0 ∈ touched nmod ∧ 1 * nmod + 0 < ncol ∧ size nmod ncol - 1 ∉ touched nmod := by
  refine ⟨cell_touched (by omega) (by omega), by omega, fun hx => ?_⟩
  obtain ⟨i, j, hi, hj, e⟩ := touched_cell hx
  have h1 := cell_lt hi hj
  have h2 : nmod * (nmod + 1) ≤ nmod * ncol := Nat.mul_le_mul_left _ h
  rw [Nat.mul_add, Nat.mul_one] at h2
  simp only [size] at e
  omega

example : touched 2 = [0, 2, 0, 3, 2, 3, 0, 0, 2, 2, 0, 2, 3, 1, 3, 3, 3, 1, 2] ∧ size 2 1 = 2 := by decide

end Verif.Vba.Mem
