import Mathlib.Algebra.Order.Field.Basic
import Mathlib.Algebra.BigOperators.Ring.Finset
import Mathlib.Data.Finset.Basic
import Mathlib.Algebra.BigOperators.Field

/-!
# Estimating a distribution from detections and limits

Independent of the model.  `d` are the detected values and `c` the limits, in any order.
-/

namespace Verif.Km

variable {K : Type*} [Field K] [LinearOrder K]

/-- The number of data not known to lie below `v`, when the limits are lower limits. -/
def atRisk (d c : List K) (v : K) : ℕ := d.countP (fun x => decide (v ≤ x)) + c.countP (fun x => decide (v ≤ x))

/-- The product-limit (Kaplan-Meier) estimate of the probability of values above `t`, with lower limits. -/
def prodLimit (d c : List K) (t : K) : K :=
  ∏ v ∈ d.toFinset.filter (fun v => v ≤ t), (1 - (d.count v : K) / (atRisk d c v : K))

/-- Its value just before `t`. -/
def prodLimitLeft (d c : List K) (t : K) : K :=
  ∏ v ∈ d.toFinset.filter (fun v => v < t), (1 - (d.count v : K) / (atRisk d c v : K))

/-- Greenwood's formula for its variance. -/
def greenwood (d c : List K) (t : K) : K :=
  prodLimit d c t ^ 2 *
    ∑ v ∈ d.toFinset.filter (fun v => v ≤ t), (d.count v : K) / ((atRisk d c v : K) * ((atRisk d c v : K) - (d.count v : K)))

/-- The number of data not known to lie above `v`, when the limits are upper limits. -/
def atRiskUp (d c : List K) (v : K) : ℕ := d.countP (fun x => decide (x ≤ v)) + c.countP (fun x => decide (x ≤ v))

/-- The product-limit estimate of the probability of values above `t`, with upper limits. -/
def prodLimitUp (d c : List K) (t : K) : K :=
  1 - ∏ v ∈ d.toFinset.filter (fun v => t < v), (1 - (d.count v : K) / (atRiskUp d c v : K))

/-- Its value just before `t`. -/
def prodLimitUpLeft (d c : List K) (t : K) : K :=
  1 - ∏ v ∈ d.toFinset.filter (fun v => t ≤ v), (1 - (d.count v : K) / (atRiskUp d c v : K))

/-- Greenwood's formula for its variance. -/
def greenwoodUp (d c : List K) (t : K) : K :=
  (1 - prodLimitUp d c t) ^ 2 *
    ∑ v ∈ d.toFinset.filter (fun v => t < v), (d.count v : K) / ((atRiskUp d c v : K) * ((atRiskUp d c v : K) - (d.count v : K)))

/-- A straight line through `(x0, y0)` and `(x1, y1)` has ordinate `y` at `x`. -/
def OnLine (x0 y0 x1 y1 x y : K) : Prop := (x - x0) * (y1 - y0) = (y - y0) * (x1 - x0)

/-- A point of the broken line from `(0, 1)` through the given points. -/
def OnCurve (pts : List (K × K)) (x y : K) : Prop :=
  ∃ a b : K × K, [a, b] <:+: (0, 1) :: pts ∧ b.2 ≤ y ∧ y ≤ a.2 ∧ OnLine a.1 a.2 b.1 b.2 x y

/-- The data whose indicator satisfies a condition. -/
def picked (ind : List ℤ) (x : List K) (p : ℤ → Bool) : List K := ((ind.zip x).filter fun q => p q.1).map Prod.snd

end Verif.Km
