import Mathlib.Analysis.SpecialFunctions.Trigonometric.DerivHyp
import Mathlib.Analysis.SpecialFunctions.Pow.Real
import Mathlib.Analysis.SpecialFunctions.Log.Base

/-!
# Model of sandbox/integrate/tnolike.f: surveys of faint objects

Detection efficiencies, magnitude distributions, the expected number of detected objects, the joint
log likelihood of several surveys, and the Kolmogorov-Smirnov comparison with the data.

Arithmetic is exact real arithmetic.  `erfcc`, `qromb` and the on/off likelihood `sllike` are not in
this file of the repository; they are parameters here.
-/

set_option linter.unusedSectionVars false

noncomputable section

namespace Verif.Tno

/-- Detection efficiency of a survey, with the parameters in the order in which `read_survey` reads them (sandbox/integrate/tnolike.f:127-232); `perfect` is survey number 0, for which `eta` is one (lines 306-310). -/
inductive Eff where
  | perfect
  | pritchett (mc alpha : ℝ)
  | heaviside (A mcut : ℝ)
  | tanh (A mc dm : ℝ)
  | topc (A mc dm : ℝ)
  | linear (m1 m2 : ℝ)
  | tanhCut (A mc dm cut w : ℝ)
  | tanhp1 (A mc dm : ℝ)
  | dbltanh (A mc dm dm2 : ℝ)
  | erfc2 (A mc dm : ℝ)
  | erfcRt2 (A mc dm : ℝ)

/-- The limit checks of `read_survey` (sandbox/integrate/tnolike.f:127-232): true if none of the calls of `quit` is reached.  Only one magnitude (two for `linear`) is compared with the quadrature limits; amplitudes and widths are not checked. -/
def Eff.accepted (mlo mhi : ℝ) : Eff → Prop
  | .perfect => True
  | .pritchett mc _ => ¬ mc < mlo ∧ ¬ mhi < mc
  | .heaviside _ mcut => ¬ mcut < mlo ∧ ¬ mhi < mcut
  | .tanh _ mc _ => ¬ mc < mlo ∧ ¬ mhi < mc
  | .topc _ mc _ => ¬ mc < mlo ∧ ¬ mhi < mc
  | .linear m1 m2 => ¬ m1 < mlo ∧ ¬ mhi < m2
  | .tanhCut _ mc _ _ _ => ¬ mc < mlo ∧ ¬ mhi < mc
  | .tanhp1 _ mc _ => ¬ mc < mlo ∧ ¬ mhi < mc
  | .dbltanh _ mc _ _ => ¬ mc < mlo ∧ ¬ mhi < mc
  | .erfc2 _ mc _ => ¬ mc < mlo ∧ ¬ mhi < mc
  | .erfcRt2 _ mc _ => ¬ mc < mlo ∧ ¬ mhi < mc

/-- `arg = max(arg, -200.)` and `arg = min(arg, 200.)` (sandbox/integrate/tnolike.f:328-329 and the other branches). -/
def clip (x : ℝ) : ℝ := min (max x (-200)) 200

/-- The constant `rt2` of `eta` and `N_exp` (sandbox/integrate/tnolike.f:300, 546). -/
def rt2 : ℝ := 1.41421356237

/-- `eta(m)` (sandbox/integrate/tnolike.f:282-396); `erfcc` is the complementary error function of the library the program is linked with. -/
def eta (erfcc : ℝ → ℝ) : Eff → ℝ → ℝ
  | .perfect, _ => 1
  | .pritchett mc alpha, m =>
      let arg := alpha * (m - mc)
      0.5 * (1 - arg / √(1 + arg ^ 2))
  | .heaviside A mcut, m => if m > mcut then 0 else A
  | .tanh A mc dm, m => A * (1 - Real.tanh (clip ((m - mc) / dm)))
  | .topc A mc dm, m =>
      if m ≥ mc then 0
      else
        let arg := ((mc - m) / dm) ^ 2
        A * arg / (1 + arg)
  | .linear m1 m2, m =>
      if m > m2 then 0
      else if m > m1 then 1 - (m - m1) / (m2 - m1)
      else 1
  | .tanhCut A mc dm cut w, m =>
      A * (1 - Real.tanh (clip ((m - mc) / dm))) * 0.5 * erfcc (clip ((m - cut) / (rt2 * w)))
  | .tanhp1 A mc dm, m => A * (1 + Real.tanh (clip ((mc - m) / dm)))
  | .dbltanh A mc dm dm2, m =>
      0.25 * A * (1 - Real.tanh (clip ((m - mc) / dm))) * (1 - Real.tanh ((m - mc) / dm2))
  | .erfc2 A mc dm, m => 0.5 * A * erfcc (clip (0.5 * (m - mc) / dm))
  | .erfcRt2 A mc dm, m => 0.5 * A * erfcc (clip ((m - mc) / (rt2 * dm)))

/-- The model number `curmod`, the array `par` and `dpl_c` of the common block (sandbox/integrate/tnolike.f, tnolike.cb). -/
structure Par where
  cur : ℕ
  p1 : ℝ
  p2 : ℝ
  p3 : ℝ
  p4 : ℝ
  c : ℝ

/-- The constant `l10` (sandbox/integrate/tnolike.f:810), taken as the exact natural logarithm of ten. -/
def l10 : ℝ := Real.log 10

/-- `set_params(params, np)` for model number `cur` (sandbox/integrate/tnolike.f:796-848); `a b c d` are the parameters given by the user, `old` is the value of `dpl_c` before the call. -/
def setParams (cur : ℕ) (old a b c d : ℝ) : Par :=
  if cur = 1 then ⟨cur, a, l10 * b, c, d, old⟩
  else if cur = 3 then
    let e := Real.exp (-b * c)
    ⟨cur, (10 : ℝ) ^ a * b * e / (1 - e), b, c, d, old⟩
  else if cur = 4 then
    let e := Real.exp (-b * c)
    ⟨cur, a * b * e / (1 - e), b, c, d, old⟩
  else if cur = 5 then
    let dplc := (10 : ℝ) ^ ((d - c) * (b - 23))
    ⟨cur, (1 + dplc) * a, b, l10 * c, l10 * d, dplc⟩
  else if cur = 6 then ⟨cur, a, l10 * b, c, d, old⟩
  else if cur = 7 then ⟨cur, a, l10 * b, l10 * c, d, old⟩
  else ⟨cur, a, b, c, d, old⟩

/-- `sigma(m)` (sandbox/integrate/tnolike.f:851-901).  For a model number outside 1..7, which `set_model` refuses (line 786), the function value is not set; it is 0 here. -/
def sigma (P : Par) (m : ℝ) : ℝ :=
  if P.cur = 1 then P.p2 * Real.exp (P.p2 * (m - P.p1))
  else if P.cur = 2 then P.p1
  else if P.cur = 3 ∨ P.cur = 4 then P.p1 * Real.exp (P.p2 * m)
  else if P.cur = 5 then
    let dm := m - 23
    P.p1 / (Real.exp (-P.p3 * dm) + P.c * Real.exp (-P.p4 * dm))
  else if P.cur = 6 then P.p1 * Real.exp (P.p2 * (m - 23))
  else if P.cur = 7 then
    let dm := m - 23
    P.p1 * Real.exp (P.p2 * dm + P.p3 * dm ^ 2)
  else 0

/-- `sigma_d(m, s, ds, nds)` for model 1: the value and the two derivatives (sandbox/integrate/tnolike.f:904-924). -/
def sigmaD1 (P : Par) (m : ℝ) : ℝ × ℝ × ℝ :=
  let s := P.p2 * Real.exp (P.p2 * (m - P.p1))
  (s, - P.p2 * s, (m - P.p1 - 1 / P.p2) * s)

/-- `N_exp_rng(m1, m2)` (sandbox/integrate/tnolike.f:657-764) for the efficiency `et`, the density `sg`, the area and the quadrature `Q`.  `none` stands for the result that is not a number: at equal limits with a positive integrand the slope is 0/0, no comparison with it holds, and the transformed integral is taken between limits that are not numbers. -/
def nExpRng (Q : (ℝ → ℝ) → ℝ → ℝ → ℝ) (et sg : ℝ → ℝ) (area m1 m2 : ℝ) : Option ℝ :=
  let es1 := sg m1 * et m1
  let es2 := sg m2 * et m2
  if es1 = 0 ∧ es2 = 0 then some 0
  else if 0 < es1 ∧ 0 < es2 ∧ m1 = m2 then none
  else
    let beta := if es1 ≤ 0 ∨ es2 ≤ 0 then 0 else Real.log (es2 / es1) / (m2 - m1)
    if |beta| ≤ 0.1 ∨ |beta| ≥ 20 then
      some (area * Q (fun m => et m * sg m) m1 m2)
    else
      let y1 := Real.exp (beta * m1)
      let y2 := Real.exp (beta * m2)
      some (area * (Q (fun y => et (Real.log y / beta) * sg (Real.log y / beta) / y) y1 y2 / beta))

/-- Sum of numbers one of which may fail to be a number. -/
def plus (x y : Option ℝ) : Option ℝ :=
  match x, y with
  | some a, some b => some (a + b)
  | _, _ => none

/-- The break points between which `N_exp` integrates, from `m_lo` on (sandbox/integrate/tnolike.f:552-651). -/
def breaks (mlo mhi : ℝ) : Eff → List ℝ
  | .perfect => [mlo]
  | .pritchett mc _ => [mlo, mc, mhi]
  | .heaviside _ mcut => [mlo, mcut]
  | .tanh _ mc dm => [mlo, mc - 1.5 * dm, mc + 1.5 * dm, mhi]
  | .topc _ mc dm => [mlo, mc - 3 * dm, mc]
  | .linear m1 m2 => [mlo, m1, m2]
  | .tanhCut _ mc dm cut w =>
      let m1 := if cut < mc then cut - 1.5 * w else mc - 1.5 * dm
      let m2 := if cut < mc then cut + 1.5 * w else mc + 1.5 * dm
      let m3 := min (if cut < mc then max (mc + 1.5 * dm) m2 else max (cut + 1.5 * w) m2) mhi
      let m4 := min (max (cut + 6 * w) m3) mhi
      [mlo, m1, m2, m3, m4]
  | .tanhp1 _ mc dm => [mlo, mc - 1.5 * dm, mc + 1.5 * dm, mhi]
  | .dbltanh _ mc dm _ => [mlo, mc - 1.5 * dm, mc + 1.5 * dm, mhi]
  | .erfc2 _ mc dm => [mlo, mc - 1.5 * dm / rt2, mc + 1.5 * dm / rt2, min (mc + 6 * dm) mhi]
  | .erfcRt2 _ mc dm => [mlo, mc - 1.5 * dm, mc + 1.5 * dm, min (mc + 6 * dm) mhi]

/-- The sum of `N_exp_rng` over consecutive break points (sandbox/integrate/tnolike.f:552-651). -/
def pieces (R : ℝ → ℝ → Option ℝ) : List ℝ → Option ℝ
  | [] => some 0
  | [_] => some 0
  | [a, b] => R a b
  | a :: b :: l => plus (R a b) (pieces R (b :: l))

/-- `N_exp()` (sandbox/integrate/tnolike.f:529-654).  The `pause` for an efficiency without quadrature is not reached for the efficiencies that `read_survey` makes. -/
def nExp (Q : (ℝ → ℝ) → ℝ → ℝ → ℝ) (erfcc sg : ℝ → ℝ) (area mlo mhi : ℝ) (e : Eff) : Option ℝ :=
  pieces (nExpRng Q (eta erfcc e) sg area) (breaks mlo mhi e)

/-- Abscissas and weights of the quadrature over an uncertain magnitude, `set_quad` (sandbox/integrate/tnolike.f:40-71): one node 0 of weight 1, or the Gauss-Hermite rule, which is a parameter. -/
def magRule (gauher : ℕ → List (ℝ × ℝ)) (n : ℕ) : List (ℝ × ℝ) :=
  if n = 1 then [(0, 1)] else gauher n

/-- `olike(i)` for an object of magnitude `m` and uncertainty `s` (sandbox/integrate/tnolike.f:482-526); the constants rt2 and rtpi of the function are taken as exact roots. -/
def olike (sg : ℝ → ℝ) (rule : List (ℝ × ℝ)) (m s : ℝ) : ℝ :=
  if rule.length = 1 ∨ s ≤ 0 then sg m
  else (rule.map fun q => q.2 * sg (s * √2 * q.1 + m)).sum / √Real.pi

/-- Data of a survey: `list` of magnitudes and uncertainties, `number` of objects, or `onoff` bins (centre, counts in the bin and in the background) of a common width (sandbox/integrate/tnolike.f:117-125, 237-273). -/
inductive Data where
  | list (objs : List (ℝ × ℝ))
  | number (n : ℕ)
  | onoff (width : ℝ) (bins : List (ℝ × ℕ × ℕ))

/-- A survey: efficiency, area and data. -/
structure Survey where
  eff : Eff
  area : ℝ
  data : Data

/-- What the likelihood needs from outside this file: quadratures, the complementary error function and the on/off likelihood, which returns `none` when it reports no terms (`nt = 0`). -/
structure Lib where
  Q : (ℝ → ℝ) → ℝ → ℝ → ℝ
  erfcc : ℝ → ℝ
  rule : List (ℝ × ℝ)
  sllike : ℝ → ℕ → ℕ → Option ℝ
  mlo : ℝ
  mhi : ℝ

/-- What `ljlike` adds for one survey (sandbox/integrate/tnolike.f:445-474). -/
def surveyTerm (L : Lib) (sg : ℝ → ℝ) (s : Survey) : Option ℝ :=
  match s.data with
  | .list objs =>
      (nExp L.Q L.erfcc sg s.area L.mlo L.mhi s.eff).map fun N =>
        objs.foldl (fun acc o => acc + Real.log (olike sg L.rule o.1 o.2)) (-N)
  | .number n =>
      (nExp L.Q L.erfcc sg s.area L.mlo L.mhi s.eff).map fun N => (n : ℝ) * Real.log N - N
  | .onoff width bins =>
      bins.foldl (fun acc b =>
        plus acc ((nExpRng L.Q (eta L.erfcc s.eff) sg s.area (b.1 - 0.5 * width) (b.1 + 0.5 * width)).map fun N =>
          match L.sllike N b.2.1 b.2.2 with
          | none => -10000000000
          | some v => v)) (some 0)

/-- `ljlike()`: the sum over the surveys (sandbox/integrate/tnolike.f:415-479). -/
def ljlike (L : Lib) (sg : ℝ → ℝ) (ss : List Survey) : Option ℝ :=
  ss.foldl (fun acc s => plus acc (surveyTerm L sg s)) (some 0)

/-- One step of the loop of `wmodel` that accumulates the predicted distribution, from the point (m0, d0) to (m, d) (sandbox/integrate/tnolike.f:1023-1032); `none` is the result of a division by the slope zero. -/
def cumStep (cum : Option ℝ) (m0 d0 m d : ℝ) : Option ℝ :=
  if d * d0 ≤ 0 then cum
  else
    let ratio := d / d0
    let alpha := Real.log ratio / (m - m0)
    if ratio > 1e-8 then
      if alpha = 0 then none
      else cum.map fun c => c + d * (Real.exp (alpha * (m - m0)) - 1) / alpha
    else cum

/-- The cumulative of `wmodel` after the given points, the first of which contributes nothing (sandbox/integrate/tnolike.f:1009-1039). -/
def cumulative : List (ℝ × ℝ) → Option ℝ → Option ℝ
  | [], c => c
  | [_], c => c
  | p :: q :: l, c => cumulative (q :: l) (cumStep c p.1 p.2 q.1 q.2)

/-- The loop of `wmodel` for the Kolmogorov-Smirnov distance over the sorted data (sandbox/integrate/tnolike.f:1068-1077); `F` is the predicted cumulative fraction, the state is (i, dcump, d). -/
def ksLoop (F : ℝ → ℝ) (n : ℕ) : List ℝ → ℕ → ℝ → ℝ → ℝ
  | [], _, _, d => d
  | x :: xs, i, dcump, d =>
      let dcum := (i + 1 : ℝ) / n
      let cum := F x
      let dt := max |dcump - cum| |dcum - cum|
      ksLoop F n xs (i + 1) dcum (if dt > d then dt else d)

/-- The distance `d` of `wmodel` (sandbox/integrate/tnolike.f:1063-1077). -/
def ks (F : ℝ → ℝ) (xs : List ℝ) : ℝ := ksLoop F xs.length xs 0 0 0

/-- The loop of `probks`: `k` passes remain, `j` is the next term (sandbox/integrate/tnolike.f:1092-1102); `none` if the loop ends without returning. -/
def probksLoop (alam : ℝ) : ℕ → ℕ → ℝ → ℝ → ℝ → Option ℝ
  | 0, _, _, _, _ => none
  | k + 1, j, fac, sum, termbf =>
      let term := fac * Real.exp (-2 * alam ^ 2 * (j : ℝ) ^ 2)
      let sum' := sum + term
      if |term| ≤ 0.001 * termbf ∨ |term| ≤ 1e-8 * sum' then some sum'
      else probksLoop alam k (j + 1) (-fac) sum' |term|

/-- `probks(alam)` (sandbox/integrate/tnolike.f:1087-1105). -/
def probks (alam : ℝ) : ℝ :=
  match probksLoop alam 100 1 2 0 0 with
  | some s => s
  | none => 1

end Verif.Tno
