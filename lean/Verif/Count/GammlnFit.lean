import Verif.Count.GammlnLemmas
import Mathlib.Analysis.Real.Pi.Bounds

/-!
# Accuracy of the log gamma function: the error between its limit and any argument
-/

set_option linter.unusedSectionVars false

namespace Verif.OnOff.Lz

open Filter Topology

/-- The function can be differentiated twice from zero on, and the second derivative is the sum of the fractions. -/
def Tw (f : ℝ → ℝ) (fs : List (List ℚ × List ℚ)) : Prop :=
  ∃ f' : ℝ → ℝ, ∀ z, 0 ≤ z → HasDerivAt f (f' z) z ∧ HasDerivAt f' (fs.map fun q => pev q.1 z / pev q.2 z).sum z

theorem Tw.const (c : ℝ) : Tw (fun _ => c) [] := ⟨fun _ => 0, fun z _ => ⟨hasDerivAt_const z c, by simpa using hasDerivAt_const z (0 : ℝ)⟩⟩

theorem Tw.add {f g : ℝ → ℝ} {fs gs : List (List ℚ × List ℚ)} (hf : Tw f fs) (hg : Tw g gs) : Tw (fun z => f z + g z) (fs ++ gs) := by
  obtain ⟨f', hf⟩ := hf
  obtain ⟨g', hg⟩ := hg
  refine ⟨fun z => f' z + g' z, fun z hz => ⟨(hf z hz).1.add (hg z hz).1, ?_⟩⟩
  rw [List.map_append, List.sum_append]
  exact (hf z hz).2.add (hg z hz).2

theorem Tw.scale {f : ℝ → ℝ} {fs : List (List ℚ × List ℚ)} (c : ℚ) (hf : Tw f fs) : Tw (fun z => c * f z) (fs.map fun q => (psc c q.1, q.2)) := by
  obtain ⟨f', hf⟩ := hf
  refine ⟨fun z => c * f' z, fun z hz => ⟨(hf z hz).1.const_mul _, ((hf z hz).2.const_mul (c : ℝ)).congr_deriv ?_⟩⟩
  rw [← List.sum_map_mul_left, List.map_map]
  refine congrArg List.sum (List.map_congr_left fun q _ => ?_)
  simp only [Function.comp, pev_sc]; ring

/-- `z + a` -/
def lin (a : ℚ) : List ℚ := [a, 1]

theorem pev_lin (a : ℚ) (z : ℝ) : pev (lin a) z = z + a := by simp [lin, pev]; ring

theorem Tw.inv {a : ℚ} (ha : 0 < a) : Tw (fun z => 1 / (z + a)) [([2], pmul (lin a) (pmul (lin a) (lin a)))] := by
  have ha' : (0 : ℝ) < a := by exact_mod_cast ha
  refine ⟨fun z => -1 / (z + a) ^ 2, fun z hz => ?_⟩
  have hp : 0 < z + a := by positivity
  have h0 : HasDerivAt (fun z : ℝ => z + a) 1 z := (hasDerivAt_id z).add_const _
  constructor
  · have := (hasDerivAt_const z (1 : ℝ)).div h0 hp.ne'
    exact this.congr_deriv (by ring)
  · have h2 : HasDerivAt (fun z : ℝ => (z + a) ^ 2) (2 * (z + a)) z := (h0.pow 2).congr_deriv (by norm_num)
    have := (hasDerivAt_const z (-1 : ℝ)).div h2 (pow_pos hp 2).ne'
    refine this.congr_deriv ?_
    simp only [List.map_cons, List.map_nil, List.sum_cons, List.sum_nil, pev_mul, pev_lin, pev]
    push_cast
    field_simp
    ring

theorem Tw.logP {p : List ℚ} (hp : posList p = true) : Tw (fun z => Real.log (pev p z)) [(padd (pmul (pder (pder p)) p) (psc (-1) (pmul (pder p) (pder p))), pmul p p)] := by
  refine ⟨fun z => pev (pder p) z / pev p z, fun z hz => ?_⟩
  have h := posList_pos hp hz
  refine ⟨(pev_der p z).log h.ne', ((pev_der (pder p) z).div (pev_der p z) h.ne').congr_deriv ?_⟩
  simp only [List.map_cons, List.map_nil, List.sum_cons, List.sum_nil, pev_mul, pev_add, pev_sc]
  push_cast
  rw [sq]; ring

theorem Tw.mulLog {a : ℚ} (ha : 0 < a) (b : ℚ) : Tw (fun z => (z + b) * Real.log (z + a)) [([1], lin a), ([a - b], pmul (lin a) (lin a))] := by
  have ha' : (0 : ℝ) < a := by exact_mod_cast ha
  refine ⟨fun z => Real.log (z + a) + (z + b) / (z + a), fun z hz => ?_⟩
  have hp : 0 < z + a := by positivity
  have h0 : HasDerivAt (fun z : ℝ => z + a) 1 z := (hasDerivAt_id z).add_const _
  have h1 : HasDerivAt (fun z : ℝ => z + b) 1 z := (hasDerivAt_id z).add_const _
  constructor
  · refine (h1.mul (h0.log hp.ne')).congr_deriv ?_
    ring
  · refine ((h0.log hp.ne').add (h1.div h0 hp.ne')).congr_deriv ?_
    simp only [List.map_cons, List.map_nil, List.sum_cons, List.sum_nil, pev_mul, pev_lin, pev]
    push_cast
    field_simp
    ring

/-! ## The series as a fraction -/

/-- The numerator of the series. -/
def num : List ℚ := [93654983058081 / 3125000000, 100878325162897 / 3125000000, 144849140616463 / 10000000000, 69314188970523 / 20000000000, 23316710067059 / 50000000000, 3345833332021 / 100000000000, 1]

theorem num_pos : posList num = true := by decide +kernel

theorem num1_pos : posList (pshift num) = true := by decide +kernel

theorem ser_eq {x : ℝ} (hx : 0 ≤ x) : serLoop cof x 1 = pev num x / ((x + 1) * (x + 2) * (x + 3) * (x + 4) * (x + 5) * (x + 6)) := by
  have h1 : x + 1 ≠ 0 := by positivity
  have h2 : x + 2 ≠ 0 := by positivity
  have h3 : x + 3 ≠ 0 := by positivity
  have h4 : x + 4 ≠ 0 := by positivity
  have h5 : x + 5 ≠ 0 := by positivity
  have h6 : x + 6 ≠ 0 := by positivity
  simp only [cof, serLoop, num, pev]
  rw [show x + 1 + 1 = x + 2 by ring, show x + 2 + 1 = x + 3 by ring, show x + 3 + 1 = x + 4 by ring, show x + 4 + 1 = x + 5 by ring, show x + 5 + 1 = x + 6 by ring]
  push_cast
  field_simp
  ring

theorem ser_pos {x : ℝ} (hx : 0 ≤ x) : 0 < serLoop cof x 1 := by
  rw [ser_eq hx]
  have := posList_pos num_pos hx
  positivity

theorem stp_pos : (0 : ℝ) < stp := by exact_mod_cast (by decide +kernel : (0 : ℚ) < stp)

theorem gammln_eq {x : ℝ} (hx : 0 ≤ x) : gammln (x + 1) = (x + 1 / 2) * Real.log (x + 11 / 2) - (x + 11 / 2) + Real.log stp + Real.log (serLoop cof x 1) := by
  unfold gammln
  simp only [add_sub_cancel_right]
  rw [Real.log_mul stp_pos.ne' (ser_pos hx).ne', show (5.5 : ℝ) = 11 / 2 by norm_num, show (0.5 : ℝ) = 1 / 2 by norm_num]
  ring

/-- The excess of the increase of `gammln` over that of the log gamma function, from `z + 1` to `z + 2`. -/
noncomputable def incr (z : ℝ) : ℝ :=
  (z + 3 / 2) * Real.log (z + 13 / 2) - (z + 1 / 2) * Real.log (z + 11 / 2) - 1 + Real.log (pev (pshift num) z) - Real.log (pev num z) - Real.log (z + 7)

theorem gammln_incr {z : ℝ} (hz : 0 ≤ z) : gammln (z + 1 + 1) - gammln (z + 1) - Real.log (z + 1) = incr z := by
  have p0 := posList_pos num_pos hz
  have p1 := posList_pos num1_pos hz
  have q : (z + 1 + 1) * (z + 1 + 2) * (z + 1 + 3) * (z + 1 + 4) * (z + 1 + 5) * (z + 1 + 6) = (z + 2) * (z + 3) * (z + 4) * (z + 5) * (z + 6) * (z + 7) := by ring
  have h1 : Real.log (serLoop cof (z + 1) 1) = Real.log (pev (pshift num) z) - (Real.log ((z + 2) * (z + 3) * (z + 4) * (z + 5) * (z + 6)) + Real.log (z + 7)) := by
    rw [ser_eq (by positivity), ← pev_shift, q, Real.log_div p1.ne' (by positivity), Real.log_mul (by positivity) (by positivity)]
  have h0 : Real.log (serLoop cof z 1) = Real.log (pev num z) - (Real.log (z + 1) + Real.log ((z + 2) * (z + 3) * (z + 4) * (z + 5) * (z + 6))) := by
    rw [ser_eq hz, show (z + 1) * (z + 2) * (z + 3) * (z + 4) * (z + 5) * (z + 6) = (z + 1) * ((z + 2) * (z + 3) * (z + 4) * (z + 5) * (z + 6)) by ring,
      Real.log_div p0.ne' (by positivity), Real.log_mul (by positivity) (by positivity)]
  rw [gammln_eq (show (0 : ℝ) ≤ z + 1 by positivity), gammln_eq hz, h1, h0, incr, show z + 1 + 1 / 2 = z + 3 / 2 by ring, show z + 1 + 11 / 2 = z + 13 / 2 by ring]
  ring

theorem Tw.congr {f g : ℝ → ℝ} {fs : List (List ℚ × List ℚ)} (h : Tw f fs) (e : ∀ z, f z = g z) : Tw g fs := by rwa [funext e] at h

/-- The fractions of a multiple. -/
def fscale (c : ℚ) (fs : List (List ℚ × List ℚ)) : List (List ℚ × List ℚ) := fs.map fun q => (psc c q.1, q.2)

/-- The fractions of the second derivative of the logarithm of a polynomial. -/
def flogP (p : List ℚ) : List (List ℚ × List ℚ) := [(padd (pmul (pder (pder p)) p) (psc (-1) (pmul (pder p) (pder p))), pmul p p)]

/-- Those of `(z + b) log (z + a)`. -/
def fmulLog (a b : ℚ) : List (List ℚ × List ℚ) := [([1], lin a), ([a - b], pmul (lin a) (lin a))]

/-- The fractions of the second derivative of `incr`. -/
def fincr : List (List ℚ × List ℚ) :=
  fmulLog (13 / 2) (3 / 2) ++ fscale (-1) (fmulLog (11 / 2) (1 / 2)) ++ [] ++ flogP (pshift num) ++ fscale (-1) (flogP num) ++ fscale (-1) (flogP (lin 7))

theorem Tw.incr : Tw incr fincr := by
  refine (((((Tw.mulLog (a := 13 / 2) (by norm_num) (3 / 2)).add ((Tw.mulLog (a := 11 / 2) (by norm_num) (1 / 2)).scale (-1))).add (Tw.const (-1))).add (Tw.logP num1_pos)).add
    ((Tw.logP num_pos).scale (-1))).add ((Tw.logP (p := lin 7) (by decide +kernel)).scale (-1)) |>.congr fun z => ?_
  simp only [Lz.incr, pev_lin]
  push_cast
  ring

/-- `∑ c / (z + a)` over the pairs `(c, a)`. -/
noncomputable def pole : List (ℚ × ℚ) → ℝ → ℝ
  | [], _ => 0
  | (c, a) :: l, z => c * (1 / (z + a)) + pole l z

/-- The fractions of the second derivative of `pole l z - pole l (z + 1)`. -/
def fpole : List (ℚ × ℚ) → List (List ℚ × List ℚ)
  | [] => []
  | (c, a) :: l => fscale c [([2], pmul (lin a) (pmul (lin a) (lin a)))] ++ fscale (-c) [([2], pmul (lin (a + 1)) (pmul (lin (a + 1)) (lin (a + 1))))] ++ fpole l

theorem Tw.pole : ∀ (l : List (ℚ × ℚ)), (∀ q ∈ l, 0 < q.2) → Tw (fun z => pole l z - pole l (z + 1)) (fpole l)
  | [], _ => (Tw.const 0).congr fun z => by simp [Lz.pole]
  | (c, a) :: l, h => by
    have ha : 0 < a := h (c, a) (by simp)
    refine ((((Tw.inv ha).scale c).add ((Tw.inv (a := a + 1) (by linarith)).scale (-c))).add (Tw.pole l fun q hq => h q (by simp [hq]))).congr fun z => ?_
    simp only [Lz.pole]
    push_cast
    rw [show z + 1 + (a : ℝ) = z + (a + 1) by ring]
    ring

/-- The poles that are above the error, and those that are below it. -/
def upper : List (ℚ × ℚ) := [(30 / 10 ^ 12, 1), (90 / 10 ^ 12, 2), (-1622 / 10 ^ 12, 5), (-3380 / 10 ^ 12, 12), (20200 / 10 ^ 12, 30)]
def lower : List (ℚ × ℚ) := [(-30 / 10 ^ 12, 1), (90 / 10 ^ 12, 2), (-1772 / 10 ^ 12, 5), (-3380 / 10 ^ 12, 12), (12700 / 10 ^ 12, 30)]

theorem upper_nn : nnFracs (fpole upper ++ fscale (-1) fincr) = true := by decide +kernel

theorem lower_nn : nnFracs (fscale (-1) (fpole lower) ++ fincr) = true := by decide +kernel

end Verif.OnOff.Lz
