import Verif.Deriv.Ockham
import Mathlib.Analysis.SpecialFunctions.Gaussian.GaussianIntegral
import Mathlib.Tactic.Ring
import Mathlib.Tactic.Linarith
import Mathlib.Tactic.Positivity
import Mathlib.Tactic.NormNum

/-!
# C234: the Ockham factor is the volume under the Gaussian approximation
-/

namespace Verif.Deriv.Ockham

open Real

/-! ## Specification -/

/-- The integral of `exp (-xᵀ I x / 2)` over all parameters, along the axes of the information matrix `I` with these eigenvalues. -/
noncomputable def gaussVolume (evals : List ℝ) : ℝ := (evals.map fun e => ∫ x : ℝ, exp (-(e / 2) * x ^ 2)).prod

/-! ## Proofs -/

theorem gauss_one (e : ℝ) (he : 0 < e) : 0 < (∫ x : ℝ, exp (-(e / 2) * x ^ 2)) ∧
    log (∫ x : ℝ, exp (-(e / 2) * x ^ 2)) = 0.5 * log (2 * π) - 0.5 * log e := by
  have hp := pi_pos
  rw [integral_gaussian, show π / (e / 2) = 2 * π / e by field_simp]
  have h : 0 < 2 * π / e := by positivity
  refine ⟨sqrt_pos.mpr h, ?_⟩
  rw [log_sqrt h.le, log_div (by positivity) he.ne']
  ring

theorem gaussVolume_pos (l : List ℝ) (h : ∀ e ∈ l, 0 < e) : 0 < gaussVolume l ∧
    log (gaussVolume l) = 0.5 * l.length * log (2 * π) - 0.5 * (l.map log).sum := by
  induction l with
  | nil => simp [gaussVolume]
  | cons e l ih =>
    obtain ⟨a, b⟩ := gauss_one e (h e (by simp))
    obtain ⟨c, d⟩ := ih fun x hx => h x (by simp [hx])
    have hc : gaussVolume (e :: l) = (∫ x : ℝ, exp (-(e / 2) * x ^ 2)) * gaussVolume l := by
      simp [gaussVolume]
    rw [hc]
    refine ⟨mul_pos a c, ?_⟩
    rw [log_mul a.ne' c.ne', b, d]
    simp only [List.length_cons, List.map_cons, List.sum_cons]
    push_cast
    ring

theorem log_prod (l : List ℝ) (h : ∀ e ∈ l, 0 < e) : 0 < l.prod ∧ log l.prod = (l.map log).sum := by
  induction l with
  | nil => simp
  | cons e l ih =>
    obtain ⟨c, d⟩ := ih fun x hx => h x (by simp [hx])
    have he := h e (by simp)
    simp only [List.prod_cons, List.map_cons, List.sum_cons]
    exact ⟨mul_pos he c, by rw [log_mul he.ne' c.ne', d]⟩

theorem evLoop_eq (l : List ℝ) : ∀ d p, evLoop l d p =
    (d - ((l.filter fun e => decide (0 < e)).map log).sum, p && l.all fun e => decide (0 < e)) := by
  induction l with
  | nil => intro d p; simp [evLoop]
  | cons e l ih =>
    intro d p
    rw [evLoop]
    split_ifs with h
    · rw [ih]
      simp [not_lt.mpr h]
    · rw [ih]
      have h' : 0 < e := not_le.mp h
      simp [h']
      ring

/-- **C234** (partial): for every number of parameters and every set of positive eigenvalues, the logarithm returned is that of the volume under the Gaussian approximation, both when the Cholesky decomposition gave the log determinant and when it did not. Missing: eigenvalues that are not positive, see `C234_violated_dropped`. -/
theorem C234_volume_partial (ok posev : Bool) (ldet : ℝ) (evals : List ℝ) (hpos : ∀ e ∈ evals, 0 < e)
    (hdet : ok = true → ldet = log evals.prod) : (doinfo ok ldet posev evals).1 = log (gaussVolume evals) := by
  rw [(gaussVolume_pos evals hpos).2]
  cases ok with
  | true =>
    simp only [doinfo, ldetV, lockham, if_true, hdet rfl, (log_prod evals hpos).2]
    ring
  | false =>
    simp only [doinfo, ldetV, lockham, Bool.false_eq_true, if_false, evLoop_eq]
    rw [List.filter_eq_self.mpr (by simpa using hpos)]
    ring

/-- **C234** (partial): without a Cholesky decomposition the flag for positive eigenvalues tells whether all of them are, whatever was in it before. Missing: the flag after a decomposition, see `C234_violated_stale`. -/
theorem C234_flag_partial (ldet : ℝ) (posev : Bool) (evals : List ℝ) :
    (doinfo false ldet posev evals).2 = true ↔ ∀ e ∈ evals, 0 < e := by
  simp [doinfo, ldetV, evLoop_eq]

/-- **C234** (violated): an eigenvalue that is not positive, for which the volume is infinite, is left out, and the factor returned is finite: the volume for the others times `√(2π)`, as if the eigenvalue were 1. -/
theorem C234_violated_dropped (ldet : ℝ) (posev : Bool) (e : ℝ) (he : e ≤ 0) (evals : List ℝ) (hpos : ∀ x ∈ evals, 0 < x) :
    doinfo false ldet posev (e :: evals) = (log (gaussVolume (1 :: evals)), false) := by
  have h1 : ∀ x ∈ (1 : ℝ) :: evals, 0 < x := by
    intro x hx
    rcases List.mem_cons.mp hx with rfl | hx
    · norm_num
    · exact hpos x hx
  rw [(gaussVolume_pos _ h1).2]
  simp only [doinfo, ldetV, lockham, Bool.false_eq_true, if_false, evLoop_eq]
  rw [List.filter_cons_of_neg (by simpa using he), List.filter_eq_self.mpr (by simpa using hpos)]
  simp [not_lt.mpr he]
  ring

/-- **C234** (violated): after a successful decomposition the flag is what the caller had in it, so that it can be false although all eigenvalues are positive. -/
theorem C234_violated_stale (ldet : ℝ) (posev : Bool) (evals : List ℝ) : (doinfo true ldet posev evals).2 = posev := rfl

/-- **C234** (violated): the row of the report for the transformed mode holds the mode itself, so that it is wrong for every transformation that moves one of the parameters. -/
theorem C234_violated_tmode {α : Type*} (tran : α → α) (xval : List α) (x : α) (hx : x ∈ xval) (h : tran x ≠ x) :
    (modeRows tran xval).2 ≠ xval.map tran := by
  intro e
  simp only [modeRows] at e
  obtain ⟨n, hn, rfl⟩ := List.mem_iff_getElem.mp hx
  apply h
  have := congrArg (fun l => l[n]?) e
  simp only [List.getElem?_map, List.getElem?_eq_getElem hn, Option.map_some, Option.some.injEq] at this
  exact this.symm

/-- Two positive eigenvalues, with the log determinant of their matrix. -/
example : (∀ e ∈ [2, (3 : ℝ)], 0 < e) ∧ log 6 = log [2, (3 : ℝ)].prod := by
  norm_num

/-- A flag left false, with two positive eigenvalues. -/
example : (doinfo true (log 6) false [2, 3]).2 = false ∧ ∀ e ∈ [2, (3 : ℝ)], 0 < e := by
  refine ⟨rfl, ?_⟩
  norm_num

/-- A transformation that moves a parameter. -/
example : (2 : ℤ) ∈ [2, 5] ∧ (fun x : ℤ => x + 1) 2 ≠ 2 := by decide

end Verif.Deriv.Ockham
