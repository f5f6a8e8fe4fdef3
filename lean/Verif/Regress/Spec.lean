import Mathlib.Analysis.SpecialFunctions.Trigonometric.Arctan
import Mathlib.Analysis.Calculus.Deriv.Basic
import Mathlib.Algebra.BigOperators.Fin

/-!
# What the regression lines and their standard errors are

Independent of the model: lines are defined by what they minimise or bisect, for data with weights; the standard errors by what a change of the weight of each datum does to the line.
-/

namespace Verif.Regress

open Real Topology Filter

/-- The weighted mean. -/
noncomputable def mean (n : ℕ) (w u : ℕ → ℝ) : ℝ := (∑ i ∈ Finset.range n, w i * u i) / ∑ i ∈ Finset.range n, w i

/-- The weighted sum of products of deviations. -/
noncomputable def cov (n : ℕ) (w u v : ℕ → ℝ) : ℝ :=
  ∑ i ∈ Finset.range n, w i * ((u i - mean n w u) * (v i - mean n w v))

/-- The weighted sum of squared deviations from the line `y = a + b*x`. -/
noncomputable def ss (n : ℕ) (w x y : ℕ → ℝ) (a b : ℝ) : ℝ := ∑ i ∈ Finset.range n, w i * (y i - a - b * x i) ^ 2

/-- The weighted centre is on the line. -/
def Centred (n : ℕ) (w x y : ℕ → ℝ) (a b : ℝ) : Prop := mean n w y = a + b * mean n w x

/-- `y = a + b*x` predicts `y` from `x` best. -/
def YonX (n : ℕ) (w x y : ℕ → ℝ) (a b : ℝ) : Prop := ∀ a' b', ss n w x y a b ≤ ss n w x y a' b'

/-- `y = a + b*x`, solved for `x`, predicts `x` from `y` best. -/
def XonY (n : ℕ) (w x y : ℕ → ℝ) (a b : ℝ) : Prop := b ≠ 0 ∧ ∀ c d, ss n w y x (-a / b) (1 / b) ≤ ss n w y x c d

/-- What it takes for `y = a + b*x` to be the line called `yonx`, `xony`, `bisect`, `orthog`, `rma`, `mols`. -/
def IsLine (n : ℕ) (w x y : ℕ → ℝ) (j : Fin 6) (a b : ℝ) : Prop :=
  match j with
  | 0 => YonX n w x y a b
  | 1 => XonY n w x y a b
  -- through the centre, half way in angle between the first two
  | 2 => (∃ a1 b1 a2 b2, YonX n w x y a1 b1 ∧ XonY n w x y a2 b2 ∧ arctan b = (arctan b1 + arctan b2) / 2) ∧ Centred n w x y a b
  -- least sum of squared distances of the points from a line, upright lines included
  | 3 => (∀ a' b', ss n w x y a b / (1 + b ^ 2) ≤ ss n w x y a' b' / (1 + b' ^ 2))
      ∧ ∀ c, ss n w x y a b / (1 + b ^ 2) ≤ ∑ i ∈ Finset.range n, w i * (x i - c) ^ 2
  -- least sum of the areas between the points and a line (vertical times horizontal distance)
  | 4 => b ≠ 0 ∧ ∀ a' b', b' ≠ 0 → ss n w x y a b / |b| ≤ ss n w x y a' b' / |b'|
  -- through the centre, with the mean of the first two slopes
  | 5 => (∃ a1 b1 a2 b2, YonX n w x y a1 b1 ∧ XonY n w x y a2 b2 ∧ b = (b1 + b2) / 2) ∧ Centred n w x y a b

/-- Weights one, but `1 + ε` for datum `i`. -/
def up (i : ℕ) (ε : ℝ) : ℕ → ℝ := fun k => 1 + if k = i then ε else 0

/-- The rates at which intercept and slope of line `j` change with the weight of datum `i`. -/
def Influence (n : ℕ) (x y : ℕ → ℝ) (j : Fin 6) (i : ℕ) (da db : ℝ) : Prop :=
  ∃ a b : ℝ → ℝ, (∀ᶠ ε in 𝓝 (0 : ℝ), IsLine n (up i ε) x y j (a ε) (b ε)) ∧ HasDerivAt a da 0 ∧ HasDerivAt b db 0

/-! ## Measurement errors -/

/-- The mean squared deviation from a line of slope `b` through the centre, given the variances and the covariance. -/
noncomputable def Q (vx vy c b : ℝ) : ℝ := vy - 2 * b * c + b ^ 2 * vx

/-- The same lines in terms of the variances and the covariance. -/
def IsSlope (vx vy c : ℝ) (j : Fin 6) (b : ℝ) : Prop :=
  match j with
  | 0 => ∀ b', Q vx vy c b ≤ Q vx vy c b'
  | 1 => b ≠ 0 ∧ ∀ d, Q vy vx c (1 / b) ≤ Q vy vx c d
  | 2 => ∃ b1 b2, (∀ b', Q vx vy c b1 ≤ Q vx vy c b') ∧ (b2 ≠ 0 ∧ ∀ d, Q vy vx c (1 / b2) ≤ Q vy vx c d)
      ∧ arctan b = (arctan b1 + arctan b2) / 2
  | 3 => (∀ b', Q vx vy c b / (1 + b ^ 2) ≤ Q vx vy c b' / (1 + b' ^ 2)) ∧ Q vx vy c b / (1 + b ^ 2) ≤ vx
  | 4 => b ≠ 0 ∧ ∀ b', b' ≠ 0 → Q vx vy c b / |b| ≤ Q vx vy c b' / |b'|
  | 5 => ∃ b1 b2, (∀ b', Q vx vy c b1 ≤ Q vx vy c b') ∧ (b2 ≠ 0 ∧ ∀ d, Q vy vx c (1 / b2) ≤ Q vy vx c d)
      ∧ b = (b1 + b2) / 2

/-- A variance of the data, less what the measurement errors contribute to it. -/
noncomputable def trueCov (n : ℕ) (w u v e : ℕ → ℝ) : ℝ := cov n w u v / (∑ i ∈ Finset.range n, w i) - mean n w e

/-- Line `j` for data with measurement errors of variances `vx`, `vy` and covariances `vxy`. -/
def IsLineE (n : ℕ) (w x y vx vy vxy : ℕ → ℝ) (j : Fin 6) (a b : ℝ) : Prop :=
  IsSlope (trueCov n w x x vx) (trueCov n w y y vy) (trueCov n w x y vxy) j b ∧ Centred n w x y a b

/-- The rates at which intercept and slope change with the weight of datum `i`, given measurement errors. -/
def InfluenceE (n : ℕ) (x y vx vy vxy : ℕ → ℝ) (j : Fin 6) (i : ℕ) (da db : ℝ) : Prop :=
  ∃ a b : ℝ → ℝ, (∀ᶠ ε in 𝓝 (0 : ℝ), IsLineE n (up i ε) x y vx vy vxy j (a ε) (b ε)) ∧ HasDerivAt a da 0 ∧ HasDerivAt b db 0

end Verif.Regress
