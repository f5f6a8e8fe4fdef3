import Mathlib.MeasureTheory.Integral.IntervalIntegral.Basic
import Mathlib.Analysis.SpecialFunctions.Trigonometric.Basic
import Mathlib.Analysis.SpecialFunctions.Log.Basic
import Mathlib.Algebra.BigOperators.Fin

/-!
# Directions, and averages over them

Independent of the model.
-/

namespace Verif.Drxn

open Real

/-- Vectors of three dimensions. -/
abbrev V3 := Fin 3 → ℝ

/-- The scalar product. -/
def dot3 (u v : V3) : ℝ := ∑ k, u k * v k

/-- The direction of longitude `φ` and latitude `θ`. -/
noncomputable def dirOf (φ θ : ℝ) : V3 := ![cos φ * cos θ, sin φ * cos θ, sin θ]

def IsUnit3 (u : V3) : Prop := dot3 u u = 1

/-- The average over all directions: area is `cos θ dθ dφ`. -/
noncomputable def sphAvg (f : V3 → ℝ) : ℝ :=
  (∫ φ in -π..π, ∫ θ in -(π / 2)..π / 2, f (dirOf φ θ) * cos θ) / (4 * π)

/-- The likelihood of direction `n`, up to a factor, given a measured direction `u` with concentration `κ` (Fisher distribution). -/
noncomputable def fisher (κ : ℝ) (u n : V3) : ℝ := exp (κ * dot3 u n)

/-- The Bayes factor favouring one common direction over a direction of its own for each measurement. -/
noncomputable def bayes (l : List (ℝ × V3)) : ℝ :=
  sphAvg (fun n => (l.map fun d => fisher d.1 d.2 n).prod) / (l.map fun d => sphAvg (fisher d.1 d.2)).prod

/-- The probability within the angle `σ` of the direction measured; `2*pi*sin t dt` is the area between `t` and `t + dt`. -/
noncomputable def capProb (κ σ : ℝ) : ℝ :=
  (∫ t in (0)..σ, exp (κ * cos t) * sin t) / ∫ t in (0)..π, exp (κ * cos t) * sin t

/-- How closely `log(sinh(x)/x)` is computed: three parts in 10^9 for a constant kept in single precision, and the terms of the series dropped. -/
noncomputable def lsErr (x : ℝ) : ℝ := 3 / 10 ^ 9 + if x < 20 then exp (-4 * x) else 2 * exp (-40)

/-- How much less likely (in the logarithm) the common direction `n` makes the measurements than a direction of its own for each. -/
noncomputable def lack (l : List (ℝ × V3)) (n : V3) : ℝ := (l.map fun d => log (fisher d.1 d.2 d.2 / fisher d.1 d.2 n)).sum

end Verif.Drxn
