import Verif.Integrate.Cub2DAuto
import Verif.Common
import Mathlib.Analysis.SpecialFunctions.Trigonometric.Basic
import Mathlib.Analysis.SpecialFunctions.Pow.NNReal

/-!
# Model of `inference.integrate.cub2d`

Floating point numbers are real numbers, and functions to be integrated are total functions of two real numbers.
-/

namespace Verif.Cub

/-- integrate/cub2d.py:92: `gen_3d4pt`, without its second entry, zero, which is not used. -/
noncomputable def gen3 : ℝ := 816496580927726032732428024901963 / 10 ^ 33

/-- integrate/cub2d.py:95-98: an entry of `gen_7d12pt`: the first coordinate of the generator (the only one used) and the weight. -/
structure Gen where
  g : ℝ
  w : ℝ

/-- integrate/cub2d.py:95-98, `gen_7d12pt[0]`. -/
noncomputable def gen70 : Gen := ⟨925820099772551461566566776583999 / 10 ^ 33, 241975308641975308641975308641975 / 10 ^ 33⟩
/-- integrate/cub2d.py:95-98, `gen_7d12pt[1]`. -/
noncomputable def gen71 : Gen := ⟨380554433208315656379106359086394 / 10 ^ 33, 520592916667394457139919432046731 / 10 ^ 33⟩
/-- integrate/cub2d.py:95-98, `gen_7d12pt[2]`. -/
noncomputable def gen72 : Gen := ⟨805979782918598743707856181350744 / 10 ^ 33, 237431774690630234218105259311293 / 10 ^ 33⟩

/-- integrate/cub2d.py:131-145, `rect3d4pt`, for a generator `gen` in place of the module's constant. -/
noncomputable def rect3 (gen : ℝ) (f : ℝ → ℝ → ℝ) (xl xu yl yu : ℝ) : ℝ :=
  let xm := 1 / 2 * (xu + xl)
  let hx := 1 / 2 * (xu - xl)
  let ym := 1 / 2 * (yu + yl)
  let hy := 1 / 2 * (yu - yl)
  let px := gen * hx
  let py := gen * hy
  let cub := f (px + xm) ym + f (-px + xm) ym + f xm (py + ym) + f xm (-py + ym)
  cub * hx * hy

/-- integrate/cub2d.py:131-145, `rect3d4pt`. -/
noncomputable def rect3d4pt := rect3 gen3

/-- integrate/cub2d.py:148-171, `rect7d12pt`, for generators in place of the module's constants. -/
noncomputable def rect7 (g0 g1 g2 : Gen) (f : ℝ → ℝ → ℝ) (xl xu yl yu : ℝ) : ℝ :=
  let xm := 1 / 2 * (xu + xl)
  let hx := 1 / 2 * (xu - xl)
  let ym := 1 / 2 * (yu + yl)
  let hy := 1 / 2 * (yu - yl)
  let px := g0.g * hx
  let py := g0.g * hy
  let cub := g0.w * (f (px + xm) ym + f (-px + xm) ym + f xm (py + ym) + f xm (-py + ym))
  let px := g1.g * hx
  let py := g1.g * hy
  let cub := cub + g1.w * (f (px + xm) (py + ym) + f (px + xm) (-py + ym) + f (-px + xm) (py + ym) + f (-px + xm) (-py + ym))
  let px := g2.g * hx
  let py := g2.g * hy
  let cub := cub + g2.w * (f (px + xm) (py + ym) + f (px + xm) (-py + ym) + f (-px + xm) (py + ym) + f (-px + xm) (-py + ym))
  cub * hx * hy

/-- integrate/cub2d.py:148-171, `rect7d12pt`. -/
noncomputable def rect7d12pt := rect7 gen70 gen71 gen72

/-- integrate/cub2d.py:178-199, `square1d4pt`. -/
def square1d4pt (f : ℝ → ℝ → ℝ) : ℝ := f 1 1 + f 1 (-1) + f (-1) 1 + f (-1) (-1)

/-- integrate/cub2d.py:202-222, `square3d4pt`, for a generator in place of the module's constant. -/
def square3 (gen : ℝ) (f : ℝ → ℝ → ℝ) : ℝ := f gen 0 + f (-gen) 0 + f 0 gen + f 0 (-gen)

/-- integrate/cub2d.py:202-222, `square3d4pt`. -/
noncomputable def square3d4pt := square3 gen3

/-- integrate/cub2d.py:225-269, `square7d12pt`, for generators in place of the module's constants. -/
def square7 (g0 g1 g2 : Gen) (f : ℝ → ℝ → ℝ) : ℝ :=
  let p := g0.g
  let cub := g0.w * (f p 0 + f (-p) 0 + f 0 p + f 0 (-p))
  let p := g1.g
  let cub := cub + g1.w * (f p p + f p (-p) + f (-p) p + f (-p) (-p))
  let p := g2.g
  cub + g2.w * (f p p + f p (-p) + f (-p) p + f (-p) (-p))

/-- integrate/cub2d.py:225-269, `square7d12pt`. -/
noncomputable def square7d12pt := square7 gen70 gen71 gen72

/-- integrate/cub2d.py:105-122: a `NormWtCub2D` object. -/
structure NormWt where
  absc : List (ℝ × ℝ)
  wts : List ℝ

/-- integrate/cub2d.py:114-122, `NormWtCub2D.__init__`.  Only the errors of the dictionary and of the lengths are modelled; `locn` and `scale` are sequences of numbers.  The arrays of the rule
are copied, so the object shares nothing.  `numpy.pi` is modelled as the real number. -/
noncomputable def NormWt.new (locn scale : List ℝ) (rule : String) : Except Err NormWt :=
  match ruleDict.lookup rule with
  | none => .error .key
  | some (absc, wts) =>
    if locn.length ≠ 2 ∨ scale.length ≠ 2 then .error .value
    else .ok ⟨absc.map fun n : Int × Int => (locn.getD 0 0 + √2 * scale.getD 0 0 * ((n.1 : ℝ) / 10 ^ 34), locn.getD 1 0 + √2 * scale.getD 1 0 * ((n.2 : ℝ) / 10 ^ 34)),
      wts.map fun w : Int => (w : ℝ) / 10 ^ 34 / Real.pi⟩

/-- integrate/cub2d.py:124-128, `NormWtCub2D.__call__`. -/
def NormWt.call (o : NormWt) (f : ℝ → ℝ → ℝ) : ℝ := (o.absc.zip o.wts).foldl (fun cub n => cub + n.2 * f n.1.1 n.1.2) 0

end Verif.Cub
