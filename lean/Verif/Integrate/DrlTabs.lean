import Verif.Integrate.Drlhre
import Mathlib.Analysis.SpecialFunctions.Sqrt

/-!
# The tables of the basic rules of DCUHRE

Model of the subroutines `D07HRE`, `D09HRE`, `D132RE` and `D113RE` (`package/inference/integrate/d07hre.f`, `d09hre.f`, `d132re.f`, `d113re.f`) and of the choice between them in `DINHRE` (`dinhre.f`).

The constant `0.4707` of `D07HRE` and `D09HRE` is a single precision literal; it is an argument `l0` here, and `lam0` is its value.  `D132RE` and `D113RE` have the decimals of the code.
-/

set_option linter.unusedSectionVars false

namespace Verif.Drl

open Verif.Adapt (put Box)
open Verif.Dcuhre (Out)

/-- Column of `G` with some values at first, and zeros after them. -/
def gen {K : Type*} [Zero K] (n : ℕ) (vs : List K) : List K := vs ++ List.replicate (n - vs.length) 0

section Formulas

variable {K : Type*} [Field K]

/-- integrate/d07hre.f:76, d09hre.f:76: `LAM1`. -/
def lam1 (l0 : K) : K := 4 / (15 - 5 / l0)

/-- integrate/d07hre.f:77-78, d09hre.f:77-78: `LAM2`. -/
def lam2 (l0 : K) : K :=
  let ratio := (1 - lam1 l0 / l0) / 27
  (5 - 7 * lam1 l0 - 35 * ratio) / (7 - 35 * lam1 l0 / 3 - 35 * ratio / l0)

/-- integrate/d09hre.f:77-81: `LAM3`. -/
def lam3 (l0 : K) : K :=
  let ratio := (1 - lam1 l0 / l0) / 27
  let ratio := ratio * (1 - lam2 l0 / l0) / 3
  (7 - 9 * (lam2 l0 + lam1 l0) + 63 * lam2 l0 * lam1 l0 / 5 - 63 * ratio) / (9 - 63 * (lam2 l0 + lam1 l0) / 5 + 21 * lam2 l0 * lam1 l0 - 63 * ratio / l0)

/-- integrate/d07hre.f:82-108: `W(K,I)` for `I` from two on, before the final values; `T` is `TWONDM` and `m` is `NDIM`. -/
def raw7 (T m l0 : K) (k i : ℕ) : K :=
  let l1 := lam1 l0
  let l2 := lam2 l0
  let lp := 5625 / 10000
  let w16 := 1 / (3 * l0) ^ 3 / T
  let w15 := (1 - 5 * l0 / 3) / (60 * (l1 - l0) * l1 ^ 2)
  let w13 := (1 - 5 * l2 / 3 - 5 * T * w16 * l0 * (l0 - l2)) / (10 * l1 * (l1 - l2)) - 2 * (m - 1) * w15
  let w12 := (1 - 5 * l1 / 3 - 5 * T * w16 * l0 * (l0 - l1)) / (10 * l2 * (l2 - l1))
  let w26 := 1 / (36 * l0 ^ 3) / T
  let w25 := (1 - 9 * T * w26 * l0 ^ 2) / (36 * l1 ^ 2)
  let w23 := (1 - 5 * l2 / 3 - 5 * T * w26 * l0 * (l0 - l2)) / (10 * l1 * (l1 - l2)) - 2 * (m - 1) * w25
  let w22 := (1 - 5 * l1 / 3 - 5 * T * w26 * l0 * (l0 - l1)) / (10 * l2 * (l2 - l1))
  let w36 := 5 / (108 * l0 ^ 3) / T
  let w35 := (1 - 9 * T * w36 * l0 ^ 2) / (36 * l1 ^ 2)
  let w33 := (1 - 5 * lp / 3 - 5 * T * w36 * l0 * (l0 - lp)) / (10 * l1 * (l1 - lp)) - 2 * (m - 1) * w35
  let w34 := (1 - 5 * l1 / 3 - 5 * T * w36 * l0 * (l0 - l1)) / (10 * lp * (lp - l1))
  let w46 := 1 / (54 * l0 ^ 3) / T
  let w45 := (1 - 18 * T * w46 * l0 ^ 2) / (72 * l1 ^ 2)
  let w43 := (1 - 10 * l2 / 3 - 10 * T * w46 * l0 * (l0 - l2)) / (20 * l1 * (l1 - l2)) - 2 * (m - 1) * w45
  let w42 := (1 - 10 * l1 / 3 - 10 * T * w46 * l0 * (l0 - l1)) / (20 * l2 * (l2 - l1))
  match k, i with
  | 1, 2 => w12 | 1, 3 => w13 | 1, 5 => w15 | 1, 6 => w16
  | 2, 2 => w22 | 2, 3 => w23 | 2, 5 => w25 | 2, 6 => w26
  | 3, 3 => w33 | 3, 4 => w34 | 3, 5 => w35 | 3, 6 => w36
  | 4, 2 => w42 | 4, 3 => w43 | 4, 5 => w45 | 4, 6 => w46
  | _, _ => 0

/-- integrate/d09hre.f:86-155: `W(K,I)` for `I` from two on, before the final values.  With `NDIM` two `WTLENG` is eight, so that `W(K,8)` is `W(K,WTLENG)`; `big` says that `NDIM` is more than two. -/
def raw9 (big : Bool) (T m l0 : K) (k i : ℕ) : K :=
  let l1 := lam1 l0
  let l2 := lam2 l0
  let l3 := lam3 l0
  let lp := 625 / 10000
  let w19 := 1 / (3 * l0) ^ 4 / T
  let w18 := if big then (1 - 1 / (3 * l0)) / (6 * l1) ^ 3 else w19
  let w17 := (1 - 7 * (l0 + l1) / 5 + 7 * l0 * l1 / 3) / (84 * l1 * l2 * (l2 - l0) * (l2 - l1))
  let w16 := (1 - 7 * (l0 + l2) / 5 + 7 * l0 * l2 / 3) / (84 * l1 * l1 * (l1 - l0) * (l1 - l2)) - w17 * l2 / l1 - 2 * (m - 2) * w18
  let w14 := (1 - 9 * ((l0 + l1 + l2) / 7 - (l0 * l1 + l0 * l2 + l1 * l2) / 5) - 3 * l0 * l1 * l2) / (18 * l3 * (l3 - l0) * (l3 - l1) * (l3 - l2))
  let w13 := (1 - 9 * ((l0 + l1 + l3) / 7 - (l0 * l1 + l0 * l3 + l1 * l3) / 5) - 3 * l0 * l1 * l3) / (18 * l2 * (l2 - l0) * (l2 - l1) * (l2 - l3)) - 2 * (m - 1) * w17
  let w12 := (1 - 9 * ((l0 + l2 + l3) / 7 - (l0 * l2 + l0 * l3 + l2 * l3) / 5) - 3 * l0 * l2 * l3) / (18 * l1 * (l1 - l0) * (l1 - l2) * (l1 - l3)) -
    2 * (m - 1) * (w17 + w16 + (m - 2) * w18)
  let w29 := 1 / (108 * l0 ^ 4) / T
  let w28 := if big then (1 - 27 * T * w29 * l0 ^ 3) / (6 * l1) ^ 3 else w29
  let w27 := (1 - 5 * l1 / 3 - 15 * T * w29 * l0 ^ 2 * (l0 - l1)) / (60 * l1 * l2 * (l2 - l1))
  let w26 := (1 - 9 * (8 * l1 * l2 * w27 + T * w29 * l0 ^ 2)) / (36 * l1 * l1) - 2 * w28 * (m - 2)
  let w24 := (1 - 7 * ((l1 + l2) / 5 - l1 * l2 / 3 + T * w29 * l0 * (l0 - l1) * (l0 - l2))) / (14 * l3 * (l3 - l1) * (l3 - l2))
  let w23 := (1 - 7 * ((l1 + l3) / 5 - l1 * l3 / 3 + T * w29 * l0 * (l0 - l1) * (l0 - l3))) / (14 * l2 * (l2 - l1) * (l2 - l3)) - 2 * (m - 1) * w27
  let w22 := (1 - 7 * ((l2 + l3) / 5 - l2 * l3 / 3 + T * w29 * l0 * (l0 - l2) * (l0 - l3))) / (14 * l1 * (l1 - l2) * (l1 - l3)) - 2 * (m - 1) * (w27 + w26 + (m - 2) * w28)
  let w39 := 5 / (324 * l0 ^ 4) / T
  let w38 := if big then (1 - 27 * T * w39 * l0 ^ 3) / (6 * l1) ^ 3 else w39
  let w37 := (1 - 5 * l1 / 3 - 15 * T * w39 * l0 ^ 2 * (l0 - l1)) / (60 * l1 * l2 * (l2 - l1))
  let w36 := (1 - 9 * (8 * l1 * l2 * w37 + T * w39 * l0 ^ 2)) / (36 * l1 * l1) - 2 * w38 * (m - 2)
  let w35 := (1 - 7 * ((l1 + l2) / 5 - l1 * l2 / 3 + T * w39 * l0 * (l0 - l1) * (l0 - l2))) / (14 * lp * (lp - l1) * (lp - l2))
  let w33 := (1 - 7 * ((l1 + lp) / 5 - l1 * lp / 3 + T * w39 * l0 * (l0 - l1) * (l0 - lp))) / (14 * l2 * (l2 - l1) * (l2 - lp)) - 2 * (m - 1) * w37
  let w32 := (1 - 7 * ((l2 + lp) / 5 - l2 * lp / 3 + T * w39 * l0 * (l0 - l2) * (l0 - lp))) / (14 * l1 * (l1 - l2) * (l1 - lp)) - 2 * (m - 1) * (w37 + w36 + (m - 2) * w38)
  let w49 := 2 / (81 * l0 ^ 4) / T
  let w48 := if big then (2 - 27 * T * w49 * l0 ^ 3) / (6 * l1) ^ 3 else w49
  let w47 := (2 - 15 * l1 / 9 - 15 * T * w49 * l0 * (l0 - l1)) / (60 * l1 * l2 * (l2 - l1))
  let w46 := (1 - 9 * (8 * l1 * l2 * w47 + T * w49 * l0 ^ 2)) / (36 * l1 * l1) - 2 * w48 * (m - 2)
  let w44 := (2 - 7 * ((l1 + l2) / 5 - l1 * l2 / 3 + T * w49 * l0 * (l0 - l1) * (l0 - l2))) / (14 * l3 * (l3 - l1) * (l3 - l2))
  let w43 := (2 - 7 * ((l1 + l3) / 5 - l1 * l3 / 3 + T * w49 * l0 * (l0 - l1) * (l0 - l3))) / (14 * l2 * (l2 - l1) * (l2 - l3)) - 2 * (m - 1) * w47
  let w42 := (2 - 7 * ((l2 + l3) / 5 - l2 * l3 / 3 + T * w49 * l0 * (l0 - l2) * (l0 - l3))) / (14 * l1 * (l1 - l2) * (l1 - l3)) - 2 * (m - 1) * (w47 + w46 + (m - 2) * w48)
  let w52 := 1 / (6 * l1)
  match k, i with
  | 1, 2 => w12 | 1, 3 => w13 | 1, 4 => w14 | 1, 6 => w16 | 1, 7 => w17 | 1, 8 => w18 | 1, 9 => w19
  | 2, 2 => w22 | 2, 3 => w23 | 2, 4 => w24 | 2, 6 => w26 | 2, 7 => w27 | 2, 8 => w28 | 2, 9 => w29
  | 3, 2 => w32 | 3, 3 => w33 | 3, 5 => w35 | 3, 6 => w36 | 3, 7 => w37 | 3, 8 => w38 | 3, 9 => w39
  | 4, 2 => w42 | 4, 3 => w43 | 4, 4 => w44 | 4, 6 => w46 | 4, 7 => w47 | 4, 8 => w48 | 4, 9 => w49
  | 5, 2 => w52
  | _, _ => 0

/-- integrate/d07hre.f:129-139, d09hre.f:185-195: the final `W(K,I)`; `raw` is what `W` holds before, for `I` from two on, and `rp` is `RULPTS`. -/
def final (T : K) (wtleng : ℕ) (rp : ℕ → K) (raw : ℕ → ℕ → K) (k i : ℕ) : K :=
  let w := fun k i => if k = 1 then T * raw 1 i else raw k i - raw 1 i
  if i = 1 then (List.range (wtleng - 1)).foldl (fun z j => z - rp (j + 2) * w k (j + 2)) (if k = 1 then T else 0) else w k i

/-- integrate/d07hre.f:66-70: `RULPTS`. -/
def pts7 (T m : K) (i : ℕ) : K := if i = 1 then 1 else if i = 5 then 2 * m * (m - 1) else if i = 6 then T else 2 * m

/-- integrate/d09hre.f:64-71: `RULPTS`. -/
def pts9 (big : Bool) (T m : K) (i : ℕ) : K :=
  if i = 1 then 1 else if i = 6 then 2 * m * (m - 1) else if i = 7 then 4 * m * (m - 1) else if i = 8 then (if big then 4 * m * (m - 1) * (m - 2) / 3 else T) else if i = 9 then T else 2 * m

/-- integrate/d07hre.f:143-148, d09hre.f:199-204: `ERRCOF`. -/
def coef (i : ℕ) : K := if i = 1 then 5 else if i = 2 then 5 else if i = 3 then 1 else if i = 4 then 5 else if i = 5 then 1 / 2 else 1 / 4

end Formulas

/-- integrate/d07hre.f:74, d09hre.f:75: the value of the single precision literal `0.4707`. -/
noncomputable def lam0 : ℝ := 15794071 / 33554432

/-- integrate/d07hre.f:53-150, `D07HRE`. -/
noncomputable def d07 (n : ℕ) (l0 : ℝ) : Tab ℝ where
  wtleng := 6
  w := final (2 ^ n) 6 (pts7 (2 ^ n) n) (raw7 (2 ^ n) n l0)
  g := fun i => gen n (match i with
    | 2 => [√(lam2 l0)]
    | 3 => [√(lam1 l0)]
    | 4 => [√(5625 / 10000)]
    | 5 => [√(lam1 l0), √(lam1 l0)]
    | 6 => List.replicate n √l0
    | _ => [])
  rulpts := pts7 (2 ^ n) n
  errcof := coef

/-- integrate/d09hre.f:52-206, `D09HRE`.  `RULPTS(8)` is the integer quotient `(4*NDIM*(NDIM-1)*(NDIM-2))/3`, which has no remainder. -/
noncomputable def d09 (n : ℕ) (l0 : ℝ) : Tab ℝ where
  wtleng := if n = 2 then 8 else 9
  w := final (2 ^ n) (if n = 2 then 8 else 9) (pts9 (2 < n) (2 ^ n) n) (raw9 (2 < n) (2 ^ n) n l0)
  g := fun i => gen n (match i with
    | 2 => [√(lam1 l0)]
    | 3 => [√(lam2 l0)]
    | 4 => [√(lam3 l0)]
    | 5 => [√(625 / 10000)]
    | 6 => [√(lam1 l0), √(lam1 l0)]
    | 7 => [√(lam1 l0), √(lam2 l0)]
    | 8 => if 2 < n then [√(lam1 l0), √(lam1 l0), √(lam1 l0)] else List.replicate n √l0
    | 9 => List.replicate n √l0
    | _ => [])
  rulpts := pts9 (2 < n) (2 ^ n) n
  errcof := coef

/-! ## The tables -/

/-- integrate/d132re.f:57-64: `DIM2G`, as integers and powers of ten to divide by. -/
def dim2g : List (ℤ × ℕ) :=
  [(2517129343453109, 16), (7013933644534266, 16), (9590960631619962, 16), (9956010478552127, 16), (5000000000000000, 16), (1594544658297559, 16), (3808991135940188, 16), (6582769255267192, 16), (8761473165029315, 16), (9982431840531980, 16), (9790222658168462, 16), (6492284325645389, 16), (8727421201131239, 16), (3582614645881228, 16), (5666666666666666, 16), (2077777777777778, 16)]

/-- integrate/d132re.f:67-73: `DIM2W(.,1)`. -/
def dim2w1 : List (ℤ × ℕ) :=
  [(3379692360134460, 17), (9508589607597761, 17), (1176006468056962, 16), (2657774586326950, 17), (1701441770200640, 17), (0, 16), (1626593098637410, 17), (1344892658526199, 16), (1328032165460149, 16), (5637474769991870, 17), (3908279081310500, 18), (3012798777432150, 17), (1030873234689166, 16), (6250000000000000, 17)]

/-- integrate/d132re.f:76-82: `DIM2W(.,2)`. -/
def dim2w2 : List (ℤ × ℕ) :=
  [(3213775489050763, 16), (-1767341636743844, 16), (7347600537466072, 17), (-3638022004364754, 17), (2125297922098712, 17), (1460984204026913, 16), (1747613286152099, 17), (1444954045641582, 16), (1307687976001325, 19), (5380992313941161, 19), (1042259576889814, 19), (-1401152865045733, 18), (8041788181514763, 18), (-1420416552759383, 16)]

/-- integrate/d132re.f:85-91: `DIM2W(.,3)`. -/
def dim2w3 : List (ℤ × ℕ) :=
  [(3372900883288987, 16), (-1644903060344491, 16), (7707849911634622, 17), (-3804478358506310, 17), (2223559940380806, 17), (1480693879765931, 16), (4467143702185814, 21), (1508944767074130, 16), (3647200107516215, 20), (5777198999013880, 19), (1041757313688177, 19), (-1452822267047819, 18), (8338339968783705, 18), (-1472796329231960, 16)]

/-- integrate/d132re.f:94-100: `DIM2W(.,4)`. -/
def dim2w4 : List (ℤ × ℕ) :=
  [(-8264123822525677, 16), (3065838614094360, 16), (2389292538329435, 18), (-1343024157997222, 16), (8833366840533900, 17), (0, 16), (9786283074168292, 19), (-1319227889147519, 16), (7990012200150630, 18), (3391747079760626, 18), (2294915718283264, 18), (-1358584986119197, 17), (4025866859057809, 17), (3760268580063992, 18)]

/-- integrate/d132re.f:103-109: `DIM2W(.,5)`. -/
def dim2w5 : List (ℤ × ℕ) :=
  [(6539094339575232, 16), (-2041614154424632, 16), (-1746981515794990, 16), (3937939671417803, 17), (6974520545933992, 18), (0, 16), (6667702171778258, 18), (5512960621544304, 17), (5443846381278607, 17), (2310903863953934, 17), (1506937747477189, 17), (-6057021648901890, 17), (4225737654686337, 17), (2561989142123099, 17)]

/-- integrate/d113re.f:62-68: `DIM3G`. -/
def dim3g : List (ℤ × ℕ) :=
  [(1900000000000000, 16), (5000000000000000, 16), (7500000000000000, 16), (8000000000000000, 16), (9949999999999999, 16), (9987344998351400, 16), (7793703685672423, 16), (9999698993088767, 16), (7902637224771788, 16), (4403396687650737, 16), (4378478459006862, 16), (9549373822794593, 16), (9661093133630748, 16), (4577105877763134, 16)]

/-- integrate/d113re.f:71-77: `DIM3W(.,1)`. -/
def dim3w1 : List (ℤ × ℕ) :=
  [(7923078151105734, 18), (6797177392788080, 17), (1086986538805825, 18), (1838633662212829, 16), (3362119777829031, 17), (1013751123334062, 17), (1687648683985235, 18), (1346468564512807, 16), (1750145884600386, 18), (7752336383837454, 17), (2461864902770251, 16), (6797944868483039, 17), (1419962823300713, 17)]

/-- integrate/d113re.f:79-85: `DIM3W(.,2)`. -/
def dim3w2 : List (ℤ × ℕ) :=
  [(1715006248224684, 15), (-3755893815889209, 16), (1488632145140549, 16), (-2497046640620823, 16), (1792501419135204, 16), (3446126758973890, 18), (-5140483185555825, 18), (6536017839876425, 18), (-6513454939229700, 19), (-6304672433547204, 18), (1266959399788263, 17), (-5454241018647931, 18), (4826995274768427, 18)]

/-- integrate/d113re.f:87-93: `DIM3W(.,3)`. -/
def dim3w3 : List (ℤ × ℕ) :=
  [(1936014978949526, 15), (-3673449403754268, 16), (2929778657898176, 17), (-1151883520260315, 16), (5086658220872218, 17), (4453911087786469, 17), (-2287828257125900, 17), (2908926216345833, 17), (-2898884350669207, 18), (-2805963413307495, 17), (5638741361145884, 17), (-2427469611942451, 17), (2148307034182882, 17)]

/-- integrate/d113re.f:95-101: `DIM3W(.,4)`. -/
def dim3w4 : List (ℤ × ℕ) :=
  [(5170828195605760, 16), (1445269144914044, 17), (-3601489663995932, 16), (3628307003418485, 16), (7148802650872729, 18), (-9222852896022966, 17), (1719339732471725, 17), (-1021416537460350, 16), (-7504397861080493, 18), (1648362537726711, 17), (5234610158469334, 17), (1445432331613066, 17), (3019236275367777, 18)]

/-- integrate/d113re.f:103-109: `DIM3W(.,5)`. -/
def dim3w5 : List (ℤ × ℕ) :=
  [(2054404503818520, 15), (1377759988490120, 17), (-5768062917904410, 16), (3726835047700328, 17), (6814878939777219, 18), (5723169733851849, 17), (-4493018743811285, 17), (2729236573866348, 17), (3547473950556990, 19), (1571366799739551, 17), (4990099219278567, 17), (1377915552666770, 17), (2878206423099872, 18)]

section Tables

variable {K : Type*} [Field K]

/-- A decimal. -/
def dec (p : ℤ × ℕ) : K := p.1 / 10 ^ p.2

/-- An entry of a table, from one. -/
def entry (l : List (ℤ × ℕ)) (i : ℕ) : K := dec (l.getD (i - 1) (0, 0))

/-- integrate/d132re.f:111-170, `D132RE`. -/
def d132 : Tab K where
  wtleng := 14
  w := fun k i => entry (match k with
    | 1 => dim2w1
    | 2 => dim2w2
    | 3 => dim2w3
    | 4 => dim2w4
    | 5 => dim2w5
    | _ => []) i
  g := fun i => gen 2 (match i with
    | 2 => [entry dim2g 1]
    | 3 => [entry dim2g 2]
    | 4 => [entry dim2g 3]
    | 5 => [entry dim2g 4]
    | 6 => [entry dim2g 5]
    | 7 => [entry dim2g 6, entry dim2g 6]
    | 8 => [entry dim2g 7, entry dim2g 7]
    | 9 => [entry dim2g 8, entry dim2g 8]
    | 10 => [entry dim2g 9, entry dim2g 9]
    | 11 => [entry dim2g 10, entry dim2g 10]
    | 12 => [entry dim2g 11, entry dim2g 12]
    | 13 => [entry dim2g 13, entry dim2g 14]
    | 14 => [entry dim2g 15, entry dim2g 16]
    | _ => [])
  rulpts := fun i => if i = 1 then 1 else if i ≤ 11 then 4 else 8
  errcof := fun i => if i = 1 then 10 else if i = 2 then 10 else if i = 3 then 1 else if i = 4 then 5 else if i = 5 then 1 / 2 else 1 / 4

/-- integrate/d113re.f:110-178, `D113RE`. -/
def d113 : Tab K where
  wtleng := 13
  w := fun k i => entry (match k with
    | 1 => dim3w1
    | 2 => dim3w2
    | 3 => dim3w3
    | 4 => dim3w4
    | 5 => dim3w5
    | _ => []) i
  g := fun i => gen 3 (match i with
    | 2 => [entry dim3g 1]
    | 3 => [entry dim3g 2]
    | 4 => [entry dim3g 3]
    | 5 => [entry dim3g 4]
    | 6 => [entry dim3g 5]
    | 7 => [entry dim3g 6, entry dim3g 6]
    | 8 => [entry dim3g 7, entry dim3g 7]
    | 9 => [entry dim3g 8, entry dim3g 8, entry dim3g 8]
    | 10 => [entry dim3g 9, entry dim3g 9, entry dim3g 9]
    | 11 => [entry dim3g 10, entry dim3g 10, entry dim3g 10]
    | 12 => [entry dim3g 12, entry dim3g 11, entry dim3g 11]
    | 13 => [entry dim3g 13, entry dim3g 13, entry dim3g 14]
    | _ => [])
  rulpts := fun i => if i = 1 then 1 else if i ≤ 6 then 6 else if i ≤ 8 then 12 else if i ≤ 11 then 8 else 24
  errcof := fun i => if i = 1 then 4 else if i = 2 then 4 else if i = 3 then 1 / 2 else if i = 4 then 3 else if i = 5 then 1 / 2 else 1 / 4

end Tables

/-- integrate/dinhre.f:78-86: the tables for `KEY`. -/
noncomputable def tab (key : ℤ) (n : ℕ) (l0 : ℝ) : Tab ℝ := if key = 1 then d132 else if key = 2 then d113 else if key = 3 then d09 n l0 else d07 n l0

end Verif.Drl
