import Mathlib.Analysis.SpecialFunctions.Trigonometric.DerivHyp
import Mathlib.Analysis.SpecialFunctions.Log.Basic

/-!
# Model of sandbox/integrate/burst_quad.f: quadratures over burst likelihoods

Arithmetic is exact real arithmetic; the rules of `gauher` and `gauleg`, the rate functions and the
rotation `sunrotate` are parameters, they are not in this file of the repository.
-/

set_option linter.unusedSectionVars false

noncomputable section

namespace Verif.Burst

/-- `lo`: exp(-2k), taken as zero from k = 250 on (sandbox/integrate/burst_quad.f:161-165; the same test for `ekk`, lines 144-148). -/
def loOf (k : ℝ) : ℝ := if k < 250 then Real.exp (-2 * k) else 0

/-- The `j`th polar abscissa from the Gauss-Legendre abscissa `t` (sandbox/integrate/burst_quad.f:166-169). -/
def node (k t : ℝ) : ℝ :=
  let fac := 0.5 * (1 - loOf k)
  let off := 0.5 * (1 + loOf k)
  Real.log (fac * t + off) / k + 1

/-- The constant `twopi` (sandbox/integrate/burst_quad.f:94), taken as exact. -/
def twopi : ℝ := 2 * Real.pi

/-- Abscissas and weights over [-1,1]: one node 0 of weight 1, or the rule of `gauleg` (sandbox/integrate/burst_quad.f:119-124). -/
def glRule (gauleg : ℕ → List (ℝ × ℝ)) (nmu : ℕ) : List (ℝ × ℝ) := if nmu = 1 then [(0, 1)] else gauleg nmu

/-- The polar rule of a burst (sandbox/integrate/burst_quad.f:168-171). -/
def muRule (rule : List (ℝ × ℝ)) (k : ℝ) : List (ℝ × ℝ) := rule.map fun q => (node k q.1, 0.5 * q.2 / twopi)

/-- The azimuthal rule: one node 0 of weight 2π, or the rule of `gauleg` over [0, 2π] (sandbox/integrate/burst_quad.f:45-50). -/
def phiRule (gauleg2pi : ℕ → List (ℝ × ℝ)) (na : ℕ) : List (ℝ × ℝ) := if na = 1 then [(0, twopi)] else gauleg2pi na

/-- `num/den`, the probability inside the reported angle (sandbox/integrate/burst_quad.f:142-151). -/
def coverage (sig k : ℝ) : ℝ := (1 - Real.exp (k * (Real.cos sig - 1))) / (1 - loOf k)

/-- The divisor in the iteration for kappa (sandbox/integrate/burst_quad.f:153). -/
def slope (sig k : ℝ) : ℝ :=
  let arg := Real.cos sig - 1
  let ekc := Real.exp (k * arg)
  let ekk := loOf k
  2 * (1 - ekc) * ekk / (1 - ekk) - arg * ekc

/-- One iteration for kappa (sandbox/integrate/burst_quad.f:142-153). -/
def kStep (sig k : ℝ) : ℝ := k - (coverage sig k - 0.683) * (1 - loOf k) / slope sig k

/-- The loop for kappa; `none` is the call of `quit` (sandbox/integrate/burst_quad.f:129-160). -/
def kLoop (sig : ℝ) : ℕ → ℝ → Option ℝ
  | 0, _ => none
  | n + 1, kold =>
      let k := kStep sig kold
      if |k - kold| / k > 1e-5 then kLoop sig n k else some k

/-- kappa for the reported uncertainty `sig` (sandbox/integrate/burst_quad.f:126-160). -/
def kappa (sig : ℝ) : Option ℝ := kLoop sig 25 (2.297707 / sig ^ 2)

/-- `d_quad(F, mu_b, l, k, absc, wts, dR)` (sandbox/integrate/burst_quad.f:237-295); `rate mu l` is `dR_dFdO(F, mu, l)`, `rot` is `sunrotate` with the unit vector along the burst fixed. -/
def dQuad (rate : ℝ → ℝ → ℝ) (rot : ℝ → ℝ → ℝ × ℝ) (nmu : ℕ) (phis mus : List (ℝ × ℝ)) (mub l : ℝ) : ℝ :=
  if nmu = 1 then rate mub l
  else
    mus.foldl (fun dR q =>
      dR + q.2 * phis.foldl (fun ddR p => ddR + p.2 * rate (rot q.1 p.1).1 (rot q.1 p.1).2) 0) 0

/-- The Gauss-Hermite sum over fluxes that omits fluxes that are not positive (sandbox/integrate/burst_quad.f:221-226, 335-341). -/
def fluxSum (F sig : ℝ) (rule : List (ℝ × ℝ)) (f : ℝ → ℝ) : ℝ :=
  rule.foldl (fun dR q =>
    let FF := sig * √2 * q.1 + F
    if FF ≤ 0 then dR else dR + q.2 * f FF) 0

/-- `F_quad(F, sig, dR)` (sandbox/integrate/burst_quad.f:178-234). -/
def fQuad (dRdF : ℝ → ℝ) (rule : List (ℝ × ℝ)) (F sig : ℝ) : ℝ :=
  if rule.length = 1 then dRdF F
  else fluxSum F sig rule dRdF / (√Real.pi * (4 * Real.pi))

/-- `Flb_quad(F, sig, l, b, k, absc, wts, dR)` (sandbox/integrate/burst_quad.f:298-345); `d FF` is the result of `d_quad` at flux `FF`, and `junk` is the value of the variable `FF` when nothing was stored in it. -/
def flbQuad (junk : ℝ) (d : ℝ → ℝ) (rule : List (ℝ × ℝ)) (F sig : ℝ) : ℝ :=
  if rule.length = 1 then d junk
  else fluxSum F sig rule d / √Real.pi

end Verif.Burst
