import Mathlib.Data.Fintype.Prod
import Mathlib.Data.Fintype.BigOperators
import Mathlib.Algebra.BigOperators.Ring.Finset
import Mathlib.Analysis.SpecialFunctions.Log.Basic
import Mathlib.Tactic.Linarith
import Mathlib.Tactic.FieldSimp
import Mathlib.Tactic.Ring

/-!
# Model of `nhess` (expt/deriv/flotsam/derivs.f:96-203)

The linear equations are given; their solution by `ludcmp` and `lubksb` (Numerical Recipes, not in the repository) is taken to be any solution of them.
-/

set_option linter.unusedSectionVars false

noncomputable section

namespace Verif.Nhess

open Real

/-- The pairs `i ≤ j` (expt/deriv/flotsam/derivs.f:141-143, 175-177, 191-193). -/
abbrev Pair (n : ℕ) := {p : Fin n × Fin n // p.1 ≤ p.2}

/-- `vert` (expt/deriv/flotsam/derivs.f:139-155). -/
def vert {n : ℕ} (dp : Fin n → ℝ) (p : Pair n) (k : Fin n) : ℝ := if k = p.1.1 ∨ k = p.1.2 then dp k else 0

/-- The right hand side `b` (expt/deriv/flotsam/derivs.f:157-169). -/
def rhs {n : ℕ} (f : (Fin n → ℝ) → ℝ) (mu dp : Fin n → ℝ) (p : Pair n) : ℝ := log (f fun i => mu i + vert dp p i) - log (f mu)

/-- The matrix `step2` (expt/deriv/flotsam/derivs.f:171-182). -/
def step2 {n : ℕ} (dp : Fin n → ℝ) (p q : Pair n) : ℝ :=
  if q.1.2 = q.1.1 then vert dp p q.1.1 * vert dp p q.1.2 / 2 else vert dp p q.1.1 * vert dp p q.1.2

/-- The linear equations solved by `ludcmp` and `lubksb` (expt/deriv/flotsam/derivs.f:184-187). -/
def Solves {n : ℕ} (f : (Fin n → ℝ) → ℝ) (mu dp : Fin n → ℝ) (x : Pair n → ℝ) : Prop := ∀ p, ∑ q, step2 dp p q * x q = rhs f mu dp p

/-- The matrix returned (expt/deriv/flotsam/derivs.f:189-199). -/
def place {n : ℕ} (x : Pair n → ℝ) (i j : Fin n) : ℝ := if h : i ≤ j then -x ⟨(i, j), h⟩ else -x ⟨(j, i), (not_le.1 h).le⟩

end Verif.Nhess
