import Verif.Spatial.RangeProps
import Mathlib.Analysis.SpecialFunctions.Integrals.Basic
import Mathlib.Analysis.SpecialFunctions.Pow.Deriv
import Mathlib.Analysis.SpecialFunctions.Pow.Continuity
import Mathlib.MeasureTheory.Integral.IntervalIntegral.FundThmCalculus
import Mathlib.MeasureTheory.Integral.IntervalIntegral.IntegrationByParts

/-!
# Properties C183-C185: energies of bursts and rates per flux and solid angle
-/

set_option linter.unusedSectionVars false

noncomputable section

namespace Verif.Spatial

open Real intervalIntegral Set

/-! ## C183: the energy distribution -/

theorem eDist_in {p el eu e : ℝ} (h0 : 0 < el) (h1 : el ≤ e) (h2 : e ≤ eu) : eDist p el eu e = ampl p el eu / e ^ p := by
  have hdel : (1 : ℝ) ≤ del := by rw [del]; norm_num
  rw [eDist, if_pos ⟨(div_le_self h0.le hdel).trans h1, h2.trans (le_mul_of_one_le_right (by linarith) hdel)⟩]

theorem eDist_integral {p el eu : ℝ} (h0 : 0 < el) (h : el < eu) : ∫ e in el..eu, eDist p el eu e = if p = 1 then 1 else eu := by
  have hu : 0 < eu := h0.trans h
  have e1 : ∫ e in el..eu, eDist p el eu e = ∫ e in el..eu, ampl p el eu * e ^ (-p) := by
    refine integral_congr fun e he => ?_
    rw [uIcc_of_le h.le] at he
    rw [eDist_in h0 he.1 he.2, rpow_neg (h0.le.trans he.1), div_eq_mul_inv]
  rw [e1, integral_const_mul]
  have h0' : (0 : ℝ) ∉ uIcc el eu := by
    rw [uIcc_of_le h.le]; exact fun hh => absurd hh.1 (not_le.2 h0)
  split_ifs with hp
  · subst hp
    simp only [rpow_neg_one]
    rw [integral_inv h0', ampl, if_pos rfl]
    have : log (eu / el) ≠ 0 := (log_pos ((one_lt_div h0).2 h)).ne'
    field_simp
  · rw [integral_rpow (Or.inr ⟨fun hh => hp (by linarith), h0'⟩), ampl, if_neg hp]
    have e2 : el ^ (-p + 1) = eu ^ (-p + 1) * (eu / el) ^ (p - 1) := by
      rw [div_rpow hu.le h0.le, show -p + 1 = -(p - 1) by ring, rpow_neg hu.le, rpow_neg h0.le]
      have := (rpow_pos_of_pos hu (p - 1)).ne'
      field_simp
    have hne : (eu / el) ^ (p - 1) - 1 ≠ 0 := by
      have h1 : 1 < eu / el := (one_lt_div h0).2 h
      rcases lt_or_gt_of_ne hp with hp' | hp'
      · exact (sub_neg.2 (rpow_lt_one_of_one_lt_of_neg h1 (by linarith))).ne
      · exact (sub_pos.2 (one_lt_rpow h1 (by linarith))).ne'
    have hp1 : p - 1 ≠ 0 := sub_ne_zero.2 hp
    have hp2 : -p + 1 ≠ 0 := fun hh => hp (by linarith)
    have e3 : eu ^ p * eu ^ (-p + 1) = eu := by rw [← rpow_add hu]; simp
    rw [e2]
    have : (p - 1) / ((eu / el) ^ (p - 1) - 1) * eu ^ p * ((eu ^ (-p + 1) - eu ^ (-p + 1) * (eu / el) ^ (p - 1)) / (-p + 1)) = eu ^ p * eu ^ (-p + 1) := by
      have e4 : -p + 1 = -(p - 1) := by ring
      rw [e4, div_neg, show eu ^ (-(p - 1)) - eu ^ (-(p - 1)) * (eu / el) ^ (p - 1) = -(eu ^ (-(p - 1)) * ((eu / el) ^ (p - 1) - 1)) by ring, neg_div, neg_neg]
      field_simp
    rw [this, e3]

/-- C183: `E_dist` is a probability density for slope 1, and for other slopes if the largest energy is 1.

Missing: other slopes with other units of energy (`C183_violated_norm`). -/
theorem C183_norm_partial {p el eu : ℝ} (h0 : 0 < el) (h : el < eu) (hp : p = 1 ∨ eu = 1) : ∫ e in el..eu, eDist p el eu e = 1 := by
  rw [eDist_integral h0 h]
  rcases hp with hp | hp
  · rw [if_pos hp]
  · split_ifs
    · rfl
    · exact hp

/-- C183 fails for slopes other than 1: the integral of the "probability density" is the largest energy, so all rates are wrong by that factor. -/
theorem C183_violated_norm {p el eu : ℝ} (h0 : 0 < el) (h : el < eu) (hp : p ≠ 1) : ∫ e in el..eu, eDist p el eu e = eu := by
  rw [eDist_integral h0 h, if_neg hp]

/-- C183: it is a power law between the limits: densities at two energies are in the ratio given by the slope. -/
theorem C183_slope {p el eu e f : ℝ} (h0 : 0 < el) (h1 : el ≤ e) (h2 : e ≤ eu) (h3 : el ≤ f) (h4 : f ≤ eu) : eDist p el eu e * e ^ p = eDist p el eu f * f ^ p := by
  rw [eDist_in h0 h1 h2, eDist_in h0 h3 h4, div_mul_cancel₀ _ (rpow_pos_of_pos (h0.trans_le h1) _).ne', div_mul_cancel₀ _ (rpow_pos_of_pos (h0.trans_le h3) _).ne']

/-- C183: models 2 and 3 keep the limits for which the largest energy divided by the least is `r`, and the largest energy is that of a burst of flux `Sc` at the distance corresponding to the core, or of flux 1 at distance `r1`. -/
theorem C183_limits {pi4 r0 rc r sc r1 : ℝ} (hpi : 0 < pi4) (hr : 0 < r) (hs : 0 < sc) (hc : 0 < r0 ^ 2 + rc ^ 2) (hr1 : 0 < r1) :
    (limits2 pi4 r0 (rc ^ 2) r sc).2 / (pi4 * (r0 ^ 2 + rc ^ 2)) = sc ∧ (limits2 pi4 r0 (rc ^ 2) r sc).2 / (limits2 pi4 r0 (rc ^ 2) r sc).1 = r ∧
      (limits3 pi4 r r1).2 / (pi4 * r1 ^ 2) = 1 ∧ (limits3 pi4 r r1).2 / (limits3 pi4 r r1).1 = r := by
  simp only [limits2, limits3]
  refine ⟨by field_simp, by field_simp, by field_simp, by field_simp⟩

/-- C183: a spheroid that is accepted has an eccentricity below 1, a positive minor axis and no singularity inside. -/
theorem C183_accepted {c e rc rl ru c' q rc2 rl' ru' : ℝ} (h : setNPar2 c e rc rl ru = some (c', q, rc2, rl', ru')) :
    0 ≤ e ∧ e < 1 ∧ 0 < q ∧ q ≤ 1 ∧ q = 1 - e ^ 2 ∧ rc2 = rc ^ 2 ∧ (0 ≤ rl → ∀ r, rl ≤ r → 0 < rc2 + r ^ 2) := by
  simp only [setNPar2] at h
  split_ifs at h with h1 h2
  simp only [Option.some.injEq, Prod.mk.injEq] at h
  obtain ⟨_, rfl, rfl, _, _⟩ := h
  push Not at h2
  refine ⟨h2.2, h2.1, by nlinarith, by nlinarith, rfl, rfl, fun hl r hr => ?_⟩
  by_cases hrc : rc = 0
  · have : rl ≠ 0 := fun hh => h1 ⟨hh, hrc⟩
    have : 0 < rl := lt_of_le_of_ne hl this.symm
    nlinarith [sq_nonneg rc]
  · have := pow_pos (abs_pos.2 hrc) 2
    rw [sq_abs] at this
    nlinarith [sq_nonneg r]

/-- C183: an energy model is accepted exactly if it exists. -/
theorem C183_models (model : ℕ) : (setEMod model).isSome ↔ 1 ≤ model ∧ model ≤ 3 := by
  unfold setEMod
  split_ifs with h
  · simp; omega
  · rcases model with _ | m
    · simp
    · simp at h ⊢; omega

/-- C183 fails for the choice of a density model: after an unknown model number has got into the common block (here 3, set before) every later choice is refused, although it exists. -/
theorem C183_violated_stuck (model : ℕ) : setNMod 3 model = none ∧ setNMod 0 1 = some (1, 4) := by
  constructor
  · unfold setNMod
    rw [if_pos (by norm_num)]
  · rfl

/-! ## C184: the rate per flux and solid angle -/

/-- C184: no slope gives an exponent of zero for the change of variables. -/
theorem C184_exponent (p : ℝ) : alphaOf p ≠ 0 ∧ p1Of p ≠ 0 := by
  constructor
  · simp only [alphaOf]
    split_ifs with h1 h2 h2
    · norm_num
    · exact sub_ne_zero.2 (Ne.symm h2)
    · norm_num
    · exact sub_ne_zero.2 (Ne.symm h2)
  · rw [p1Of]
    split_ifs with h
    · norm_num
    · exact sub_ne_zero.2 (Ne.symm h)

theorem changed {a e1 e2 : ℝ} {f : ℝ → ℝ} (ha : a ≠ 0) (h0 : 0 < e1) (h : e1 ≤ e2) (hf : ContinuousOn f (Icc e1 e2)) :
    ∫ y in (e1 ^ a)..(e2 ^ a), (y ^ (1 / a)) ^ (1 - a) * f (y ^ (1 / a)) / a = ∫ e in e1..e2, f e := by
  have hpos : ∀ e ∈ uIcc e1 e2, 0 < e := fun e he => by rw [uIcc_of_le h] at he; exact h0.trans_le he.1
  have hinv : ∀ e : ℝ, 0 < e → (e ^ a) ^ (1 / a) = e := fun e he => by rw [← rpow_mul he.le, mul_one_div, div_self ha, rpow_one]
  have hg : ContinuousOn (fun y : ℝ => (y ^ (1 / a)) ^ (1 - a) * f (y ^ (1 / a)) / a) ((fun e : ℝ => e ^ a) '' uIcc e1 e2) := by
    have hypos : ∀ y ∈ (fun e : ℝ => e ^ a) '' uIcc e1 e2, 0 < y := by
      rintro y ⟨e, he, rfl⟩; exact rpow_pos_of_pos (hpos e he) _
    have c1 : ContinuousOn (fun y : ℝ => y ^ (1 / a)) ((fun e : ℝ => e ^ a) '' uIcc e1 e2) :=
      fun y hy => (continuousAt_rpow_const y _ (Or.inl (hypos y hy).ne')).continuousWithinAt
    have c2 : ContinuousOn (fun y : ℝ => (y ^ (1 / a)) ^ (1 - a)) ((fun e : ℝ => e ^ a) '' uIcc e1 e2) :=
      c1.rpow_const fun y hy => Or.inl (rpow_pos_of_pos (hypos y hy) _).ne'
    have c3 : ContinuousOn (fun y : ℝ => f (y ^ (1 / a))) ((fun e : ℝ => e ^ a) '' uIcc e1 e2) := by
      refine hf.comp c1 ?_
      rintro y ⟨e, he, rfl⟩
      simp only
      rw [hinv e (hpos e he), ← uIcc_of_le h]; exact he
    exact (c2.mul c3).div_const _
  have key := integral_comp_mul_deriv'' (f := fun e : ℝ => e ^ a) (f' := fun e => a * e ^ (a - 1)) (a := e1) (b := e2)
    (g := fun y : ℝ => (y ^ (1 / a)) ^ (1 - a) * f (y ^ (1 / a)) / a)
    (fun e he => (continuousAt_rpow_const e _ (Or.inl (hpos e he).ne')).continuousWithinAt)
    (fun e he => by
      have he' : 0 < e := hpos e (Ioo_subset_Icc_self he)
      exact (hasDerivAt_rpow_const (Or.inl he'.ne')).hasDerivWithinAt)
    (continuousOn_const.mul fun e he => (continuousAt_rpow_const e _ (Or.inl (hpos e he).ne')).continuousWithinAt) hg
  rw [← key]
  refine integral_congr fun e he => ?_
  simp only [Function.comp]
  have he' := hpos e he
  rw [hinv e he']
  have : e ^ (1 - a) * e ^ (a - 1) = 1 := by rw [← rpow_add he']; simp
  field_simp
  linear_combination f e * this

/-- The distance of a burst of energy `e` and flux `s`. -/
def rOf (pi4 s e : ℝ) : ℝ := √(e / (pi4 * s))

/-- C184: a part of the integral in the transformed variable is that over energy, whatever slope was found. -/
theorem C184_part {pi4 s el eu rl ru : ℝ} {dist dens : ℝ → ℝ} {slope : ℝ → ℝ → ℝ} (h0 : 0 < el)
    (hc : ContinuousOn (fun e => dist e * dens (rOf pi4 s e)) (Icc (max el (pi4 * s * rl * rl)) (min eu (pi4 * s * ru * ru)))) :
    part pi4 s el eu dist dens slope rl ru =
      if max el (pi4 * s * rl * rl) < min eu (pi4 * s * ru * ru) then ∫ e in (max el (pi4 * s * rl * rl))..(min eu (pi4 * s * ru * ru)), dist e * e ^ (3 / 2 : ℝ) * dens (rOf pi4 s e) else 0 := by
  simp only [part]
  set e1 := max el (pi4 * s * rl * rl) with he1
  set e2 := min eu (pi4 * s * ru * ru) with he2
  by_cases h : e1 < e2
  · rw [if_pos h, if_pos h]
    set a := alphaOf (slope e1 e2)
    have ha : a ≠ 0 := (C184_exponent _).1
    have hp : 0 < e1 := h0.trans_le (le_max_left _ _)
    have hf : ContinuousOn (fun e => dist e * e ^ (3 / 2 : ℝ) * dens (rOf pi4 s e)) (Icc e1 e2) := by
      have : ContinuousOn (fun e : ℝ => e ^ (3 / 2 : ℝ)) (Icc e1 e2) := continuousOn_id.rpow_const fun e _ => Or.inr (by norm_num)
      refine (hc.mul this).congr fun e _ => ?_
      simp only [Pi.mul_apply]
      ring
    rw [← changed ha hp h.le hf]
    refine integral_congr fun y hy => ?_
    have hy' : 0 < y := by
      have p1 := rpow_pos_of_pos hp a
      have p2 := rpow_pos_of_pos (hp.trans h) a
      exact lt_of_lt_of_le (lt_min p1 p2) hy.1
    have hE : 0 < y ^ (1 / a) := rpow_pos_of_pos hy' _
    simp only [integrand, rOf]
    have : (y ^ (1 / a)) ^ (5 / 2 - a) = (y ^ (1 / a)) ^ (1 - a) * (y ^ (1 / a)) ^ (3 / 2 : ℝ) := by
      rw [← rpow_add hE]; ring_nf
    rw [this]; ring
  · rw [if_neg h, if_neg h]

/-- C184: the factor in front turns the integrand into density times r² |dr/dS|. -/
theorem C184_jacobian {pi4 pi32 s e : ℝ} (hpi : 0 < pi4) (h32 : 16 * pi32 = 2 * pi4 ^ (3 / 2 : ℝ)) (hs : 0 < s) (he : 0 < e) :
    HasDerivAt (fun t => rOf pi4 t e) (-(rOf pi4 s e / (2 * s))) s ∧ e ^ (3 / 2 : ℝ) / (s ^ (5 / 2 : ℝ) * 16 * pi32) = rOf pi4 s e ^ 2 * |-(rOf pi4 s e / (2 * s))| := by
  have hq : 0 < e / (pi4 * s) := by positivity
  have hr : 0 < rOf pi4 s e := sqrt_pos.2 hq
  constructor
  · have h1 : HasDerivAt (fun t => e / (pi4 * t)) (-(e / (pi4 * s) / s)) s := by
      have := ((hasDerivAt_id s).const_mul pi4).inv (by simp only [id]; positivity)
      refine (this.const_mul e).congr_deriv ?_
      simp only [id]; field_simp
    refine (h1.sqrt hq.ne').congr_deriv ?_
    have hsq : √(e / (pi4 * s)) ^ 2 = e / (pi4 * s) := sq_sqrt hq.le
    have hne : √(e / (pi4 * s)) ≠ 0 := hr.ne'
    rw [rOf, div_eq_iff (by positivity)]
    linear_combination (1 / s) * hsq
  · rw [abs_neg, abs_of_pos (by positivity)]
    have h3 : rOf pi4 s e ^ 3 = (e / (pi4 * s)) ^ (3 / 2 : ℝ) := by
      rw [rOf, sqrt_eq_rpow, ← rpow_natCast, ← rpow_mul hq.le]; norm_num
    have h5 : (s : ℝ) ^ (5 / 2 : ℝ) = s ^ (3 / 2 : ℝ) * s := by
      rw [show (5 / 2 : ℝ) = 3 / 2 + 1 by norm_num, rpow_add hs, rpow_one]
    have : rOf pi4 s e ^ 2 * (rOf pi4 s e / (2 * s)) = rOf pi4 s e ^ 3 / (2 * s) := by ring
    rw [this, h3, div_rpow he.le (by positivity), mul_rpow hpi.le hs.le, h5, mul_assoc (s ^ (3 / 2 : ℝ) * s), h32]
    have := (rpow_pos_of_pos hs (3 / 2)).ne'
    have := (rpow_pos_of_pos hpi (3 / 2)).ne'
    field_simp

/-- C184: the limits on energy are those for which both the energy and the distance are in range. -/
theorem C184_limits {pi4 s el eu rl ru e : ℝ} (hpi : 0 < pi4) (hs : 0 < s) (hl : 0 ≤ rl) (hu : 0 ≤ ru) (he : 0 ≤ e) :
    (max el (pi4 * s * rl * rl) ≤ e ∧ e ≤ min eu (pi4 * s * ru * ru)) ↔ (el ≤ e ∧ e ≤ eu) ∧ (rl ≤ rOf pi4 s e ∧ rOf pi4 s e ≤ ru) := by
  have hp : 0 < pi4 * s := by positivity
  have a1 : rl ≤ rOf pi4 s e ↔ pi4 * s * rl * rl ≤ e := by
    rw [rOf, le_sqrt hl (by positivity), le_div_iff₀ hp]; ring_nf
  have a2 : rOf pi4 s e ≤ ru ↔ e ≤ pi4 * s * ru * ru := by
    rw [rOf, sqrt_le_left hu, div_le_iff₀ hp]; ring_nf
  rw [max_le_iff, le_min_iff, a1, a2]; tauto

theorem rOf_pos {pi4 s e : ℝ} (hpi : 0 < pi4) (hs : 0 < s) (he : 0 < e) : 0 < rOf pi4 s e := sqrt_pos.2 (by positivity)

/-- The rate from one range of distances: over all energies that put the burst in the range, the distribution times the density times r² |dr/dS|. -/
def rate (pi4 s el eu : ℝ) (dist dens : ℝ → ℝ) (rl ru : ℝ) : ℝ :=
  if max el (pi4 * s * rl * rl) < min eu (pi4 * s * ru * ru) then
    ∫ e in (max el (pi4 * s * rl * rl))..(min eu (pi4 * s * ru * ru)), dist e * (dens (rOf pi4 s e) * rOf pi4 s e ^ 2 * |deriv (fun t => rOf pi4 t e) s|)
  else 0

/-- C184: the burst rate per flux and solid angle is the sum over the ranges of distance of the rates from them, with an exact quadrature.

Missing: ranges of which the first is empty but not the second (see `C181_violated_away`). -/
theorem C184_rate_partial {pi4 pi32 s el eu : ℝ} {dist dens : ℝ → ℝ} {slope : ℝ → ℝ → ℝ} {range1 range2 : ℝ × ℝ} (hpi : 0 < pi4) (h32 : 16 * pi32 = 2 * pi4 ^ (3 / 2 : ℝ))
    (hs : 0 < s) (h0 : 0 < el) (h1 : range1.1 < range1.2)
    (hc1 : ContinuousOn (fun e => dist e * dens (rOf pi4 s e)) (Icc (max el (pi4 * s * range1.1 * range1.1)) (min eu (pi4 * s * range1.2 * range1.2))))
    (hc2 : ContinuousOn (fun e => dist e * dens (rOf pi4 s e)) (Icc (max el (pi4 * s * range2.1 * range2.1)) (min eu (pi4 * s * range2.2 * range2.2)))) :
    dnDSdO pi4 pi32 s el eu dist dens slope range1 range2 =
      rate pi4 s el eu dist dens range1.1 range1.2 + if range2.1 < range2.2 then rate pi4 s el eu dist dens range2.1 range2.2 else 0 := by
  have key : ∀ rl ru : ℝ, ContinuousOn (fun e => dist e * dens (rOf pi4 s e)) (Icc (max el (pi4 * s * rl * rl)) (min eu (pi4 * s * ru * ru))) →
      part pi4 s el eu dist dens slope rl ru / (s ^ (5 / 2 : ℝ) * 16 * pi32) = rate pi4 s el eu dist dens rl ru := by
    intro rl ru hc
    rw [C184_part h0 hc, rate]
    split_ifs with h
    · rw [← integral_div]
      refine integral_congr fun e he => ?_
      rw [uIcc_of_le h.le] at he
      have hp : 0 < e := h0.trans_le ((le_max_left _ _).trans he.1)
      obtain ⟨j1, j2⟩ := C184_jacobian hpi h32 hs hp
      rw [j1.deriv]
      have : dist e * e ^ (3 / 2 : ℝ) * dens (rOf pi4 s e) / (s ^ (5 / 2 : ℝ) * 16 * pi32) = dist e * dens (rOf pi4 s e) * (e ^ (3 / 2 : ℝ) / (s ^ (5 / 2 : ℝ) * 16 * pi32)) := by ring
      rw [this, j2]; ring
    · rw [zero_div]
  simp only [dnDSdO]
  rw [if_pos h1, add_div, key _ _ hc1]
  congr 1
  split_ifs
  · exact key _ _ hc2
  · rw [zero_div]

/-- C184: the law of Euclidean space: around an observer in a homogeneous distribution that extends beyond the distance of the brightest bursts the rate falls with the power 5/2 of flux. -/
theorem C184_euclidean {pi4 pi32 s s' el eu ru n : ℝ} {dist : ℝ → ℝ} {slope slope' : ℝ → ℝ → ℝ} (hs : 0 < s) (hs' : 0 < s') (h0 : 0 < el) (hru : 0 < ru)
    (hd : ContinuousOn dist (Icc el eu)) (h : eu ≤ pi4 * s * ru * ru) (h' : eu ≤ pi4 * s' * ru * ru) :
    dnDSdO pi4 pi32 s el eu dist (fun _ => n) slope (0, ru) (0, 0) * s ^ (5 / 2 : ℝ) = dnDSdO pi4 pi32 s' el eu dist (fun _ => n) slope' (0, ru) (0, 0) * s' ^ (5 / 2 : ℝ) := by
  have key : ∀ (t : ℝ) (sl : ℝ → ℝ → ℝ), 0 < t → eu ≤ pi4 * t * ru * ru →
      dnDSdO pi4 pi32 t el eu dist (fun _ => n) sl (0, ru) (0, 0) * t ^ (5 / 2 : ℝ) = (if el < eu then ∫ e in el..eu, dist e * e ^ (3 / 2 : ℝ) * n else 0) / (16 * pi32) := by
    intro t sl ht hb
    have e1 : max el (pi4 * t * 0 * 0) = el := by rw [mul_zero, max_eq_left h0.le]
    have e2 : min eu (pi4 * t * ru * ru) = eu := min_eq_left hb
    have := C184_part (pi4 := pi4) (s := t) (el := el) (eu := eu) (rl := 0) (ru := ru) (dist := dist) (dens := fun _ => n) (slope := sl) h0 (by
      rw [e1, e2]; exact hd.mul continuousOn_const)
    rw [e1, e2] at this
    simp only [dnDSdO]
    rw [if_pos hru, if_neg (lt_irrefl _), add_zero, this]
    have hp := (rpow_pos_of_pos ht (5 / 2)).ne'
    rw [mul_assoc (t ^ (5 / 2 : ℝ)), div_mul_eq_mul_div, mul_comm _ (t ^ (5 / 2 : ℝ)), mul_div_mul_left _ _ hp]
  rw [key s slope hs h, key s' slope' hs' h']

/-! ## C185: the rate per solid angle -/

/-- The column of bursts of energy `e` brighter than `sl` in a range of distances. -/
def column (pi4 sl : ℝ) (dens : ℝ → ℝ) (rl ru e : ℝ) : ℝ := ∫ r in rl..(max rl (min ru (rOf pi4 sl e))), r ^ 2 * dens r

theorem innerInt_eq {pi4 sl el rl ru e : ℝ} {dist dens : ℝ → ℝ} (hpi : 0 < pi4) (hs : 0 < sl) (h0 : 0 < el) (he : el ≤ e) (hru : 0 < ru) :
    innerInt pi4 dist dens rl ru (max sl (el / (pi4 * ru * ru))) e = dist e * column pi4 sl dens rl ru e := by
  have hmin : min ru √(e / (pi4 * max sl (el / (pi4 * ru * ru)))) = min ru (rOf pi4 sl e) := by
    rcases le_or_gt (el / (pi4 * ru * ru)) sl with h | h
    · rw [max_eq_left h]; rfl
    · rw [max_eq_right h.le]
      have hp : 0 < el / (pi4 * ru * ru) := by positivity
      have l1 : ru ≤ √(e / (pi4 * (el / (pi4 * ru * ru)))) := by
        refine le_sqrt_of_sq_le ?_
        have : e / (pi4 * (el / (pi4 * ru * ru))) = ru ^ 2 * (e / el) := by field_simp
        rw [this]
        exact le_mul_of_one_le_right (by positivity) ((one_le_div h0).2 he)
      have l2 : √(e / (pi4 * (el / (pi4 * ru * ru)))) ≤ rOf pi4 sl e := by
        refine sqrt_le_sqrt (div_le_div_of_nonneg_left (by linarith) (by positivity) ?_)
        exact mul_le_mul_of_nonneg_left h.le hpi.le
      rw [min_eq_left l1, min_eq_left (l1.trans l2)]
  simp only [innerInt, column, hmin]
  congr 1
  split_ifs with h
  · rw [max_eq_right h.le]
  · rw [max_eq_left (not_lt.1 h), integral_same]

theorem column_cont {pi4 sl rl ru : ℝ} {dens : ℝ → ℝ} (h : rl ≤ ru) (hd : ContinuousOn dens (Icc rl ru)) : Continuous (column pi4 sl dens rl ru) := by
  have hi : MeasureTheory.IntegrableOn (fun r => r ^ 2 * dens r) (uIcc rl ru) := by
    rw [uIcc_of_le h]
    exact ((continuous_pow 2).continuousOn.mul hd).integrableOn_Icc
  have hp := continuousOn_primitive_interval hi
  have hc : Continuous fun e => max rl (min ru (rOf pi4 sl e)) := by
    have : Continuous fun e => rOf pi4 sl e := (continuous_id.div_const _).sqrt
    exact continuous_const.max (continuous_const.min this)
  rw [← continuousOn_univ]
  refine hp.comp hc.continuousOn fun e _ => ?_
  rw [uIcc_of_le h]
  exact ⟨le_max_left _ _, max_le h (min_le_left _ _)⟩

theorem column_zero {pi4 sl rl ru e : ℝ} {dens : ℝ → ℝ} (h : rOf pi4 sl e ≤ rl) : column pi4 sl dens rl ru e = 0 := by
  rw [column, max_eq_left ((min_le_right _ _).trans h), integral_same]

theorem rOf_le {pi4 sl e rl : ℝ} (hpi : 0 < pi4) (hs : 0 < sl) (hl : 0 ≤ rl) (h : e ≤ pi4 * sl * rl ^ 2) : rOf pi4 sl e ≤ rl := by
  rw [rOf, sqrt_le_left hl, div_le_iff₀ (by positivity)]; linarith

/-- The integral over the energies of one range. -/
theorem range_eq {pi4 sl el eu rl ru p1 : ℝ} {dist dens : ℝ → ℝ} (hpi : 0 < pi4) (hs : 0 < sl) (h0 : 0 < el) (hl : 0 ≤ rl) (h : rl < ru) (hlu : el ≤ eu) (hp : p1 ≠ 0)
    (hd : ContinuousOn dens (Icc rl ru)) (hdist : ContinuousOn dist (Icc el eu)) :
    let s1 := max sl (el / (pi4 * ru * ru))
    let e1 := max el (pi4 * s1 * rl ^ 2)
    (if e1 ≥ eu then 0 else oromb p1 e1 eu (innerInt pi4 dist dens rl ru s1)) = ∫ e in el..eu, dist e * column pi4 sl dens rl ru e := by
  intro s1 e1
  have hru : 0 < ru := lt_of_le_of_lt hl h
  have hcc : ContinuousOn (fun e => dist e * column pi4 sl dens rl ru e) (Icc el eu) := hdist.mul (column_cont h.le hd).continuousOn
  have hel : el ≤ e1 := le_max_left _ _
  have hz : ∀ e, el ≤ e → e ≤ e1 → e1 ≠ el → dist e * column pi4 sl dens rl ru e = 0 := by
    intro e he he1 hne
    have hgt : el < pi4 * s1 * rl ^ 2 := by
      by_contra hh
      exact hne (max_eq_left (not_lt.1 hh))
    have he1' : e1 = pi4 * s1 * rl ^ 2 := max_eq_right hgt.le
    rcases le_or_gt (el / (pi4 * ru * ru)) sl with hh | hh
    · have : s1 = sl := max_eq_left hh
      rw [column_zero (rOf_le hpi hs hl (by rw [← this, ← he1']; exact he1)), mul_zero]
    · exfalso
      have : s1 = el / (pi4 * ru * ru) := max_eq_right hh.le
      rw [this] at hgt
      have e2 : pi4 * (el / (pi4 * ru * ru)) * rl ^ 2 = el * (rl ^ 2 / ru ^ 2) := by field_simp
      rw [e2] at hgt
      have : rl ^ 2 / ru ^ 2 ≤ 1 := (div_le_one (by positivity)).2 (pow_le_pow_left₀ hl h.le 2)
      nlinarith
  by_cases hge : e1 ≥ eu
  · rw [if_pos hge]
    rcases hlu.eq_or_lt with he | he
    · rw [he, integral_same]
    · symm
      rw [← integral_zero (a := el) (b := eu) (E := ℝ) (μ := MeasureTheory.volume)]
      refine integral_congr fun e hee => ?_
      rw [uIcc_of_le hlu] at hee
      exact hz e hee.1 (hee.2.trans hge) (by intro hh; rw [hh] at hge; exact absurd he (not_lt.2 hge))
  · rw [if_neg hge]
    push Not at hge
    have ho : oromb p1 e1 eu (innerInt pi4 dist dens rl ru s1) = ∫ e in e1..eu, dist e * column pi4 sl dens rl ru e := by
      rw [← changed hp (h0.trans_le hel) hge.le (hcc.mono (Icc_subset_Icc_left hel)), oromb]
      refine integral_congr fun y hy => ?_
      have hy2 : y ^ (1 / p1) ∈ Icc e1 eu := by
        have q1 := rpow_pos_of_pos (h0.trans_le hel) p1
        have q2 := rpow_pos_of_pos (h0.trans_le hlu) p1
        have hinv : ∀ e : ℝ, 0 < e → (e ^ p1) ^ (1 / p1) = e := fun e he => by rw [← rpow_mul he.le, mul_one_div, div_self hp, rpow_one]
        have hy' : 0 < y := lt_of_lt_of_le (lt_min q1 q2) hy.1
        rcases lt_or_gt_of_ne hp with hneg | hpos
        · have ho : eu ^ p1 ≤ e1 ^ p1 := rpow_le_rpow_of_nonpos (h0.trans_le hel) hge.le hneg.le
          rw [uIcc_of_ge ho] at hy
          have i : 1 / p1 ≤ 0 := (one_div_neg.2 hneg).le
          constructor
          · have := rpow_le_rpow_of_nonpos hy' hy.2 i
            rwa [hinv e1 (h0.trans_le hel)] at this
          · have := rpow_le_rpow_of_nonpos q2 hy.1 i
            rwa [hinv eu (h0.trans_le hlu)] at this
        · have ho : e1 ^ p1 ≤ eu ^ p1 := rpow_le_rpow (h0.le.trans hel) hge.le hpos.le
          rw [uIcc_of_le ho] at hy
          have i : 0 ≤ 1 / p1 := (one_div_pos.2 hpos).le
          constructor
          · have := rpow_le_rpow q1.le hy.1 i
            rwa [hinv e1 (h0.trans_le hel)] at this
          · have := rpow_le_rpow hy'.le hy.2 i
            rwa [hinv eu (h0.trans_le hlu)] at this
      rw [innerInt_eq hpi hs h0 (hel.trans hy2.1) hru]
    rw [ho]
    have i1 : IntervalIntegrable (fun e => dist e * column pi4 sl dens rl ru e) MeasureTheory.volume el e1 :=
      (hcc.mono (by rw [uIcc_of_le hel]; exact Icc_subset_Icc_right hge.le)).intervalIntegrable
    have i2 : IntervalIntegrable (fun e => dist e * column pi4 sl dens rl ru e) MeasureTheory.volume e1 eu :=
      (hcc.mono (by rw [uIcc_of_le hge.le]; exact Icc_subset_Icc_left hel)).intervalIntegrable
    rw [← integral_add_adjacent_intervals i1 i2]
    have : ∫ e in el..e1, dist e * column pi4 sl dens rl ru e = 0 := by
      by_cases hee : e1 = el
      · rw [hee, integral_same]
      · rw [← integral_zero (a := el) (b := e1) (E := ℝ) (μ := MeasureTheory.volume)]
        refine integral_congr fun e he => ?_
        rw [uIcc_of_le hel] at he
        exact hz e he.1 he.2 hee
    rw [this, zero_add]

/-- C185: the burst rate per solid angle is the integral over the energies and the ranges of distance of the number of bursts brighter than the limit.

Missing: a line of sight that does not meet the distribution (`C185_violated_miss`). -/
theorem C185_rate_partial {pi4 sl el eu slope1 slope2 : ℝ} {dist dens : ℝ → ℝ} {range1 range2 : ℝ × ℝ} (hpi : 0 < pi4) (hs : 0 < sl) (h0 : 0 < el) (hlu : el ≤ eu)
    (hl : 0 ≤ range1.1) (h1 : range1.1 < range1.2) (h2 : range2.1 < range2.2 → range1.2 ≤ range2.1)
    (hd1 : ContinuousOn dens (Icc range1.1 range1.2)) (hd2 : ContinuousOn dens (Icc range2.1 range2.2)) (hdist : ContinuousOn dist (Icc el eu)) :
    dnDO pi4 sl el eu dist dens slope1 slope2 range1 range2 =
      some ((∫ e in el..eu, dist e * column pi4 sl dens range1.1 range1.2 e) + if range2.1 < range2.2 then ∫ e in el..eu, dist e * column pi4 sl dens range2.1 range2.2 e else 0) := by
  obtain ⟨rl, ru⟩ := range1
  obtain ⟨rl', ru'⟩ := range2
  simp only at *
  have hru : 0 < ru := lt_of_le_of_lt hl h1
  have key := range_eq (p1 := p1Of slope1) hpi hs h0 hl h1 hlu (C184_exponent _).2 hd1 hdist
  simp only at key
  have zero : ∀ a b : ℝ, rl ≤ a → eu ≤ pi4 * sl * rl ^ 2 → ∫ e in el..eu, dist e * column pi4 sl dens a b e = 0 := by
    intro a b hab hb
    rw [← integral_zero (a := el) (b := eu) (E := ℝ) (μ := MeasureTheory.volume)]
    refine integral_congr fun e he => ?_
    rw [uIcc_of_le hlu] at he
    rw [column_zero ((rOf_le hpi hs hl (he.2.trans hb)).trans hab), mul_zero]
  simp only [dnDO]
  by_cases hbig : rl > 0 ∧ sl ≥ eu / (pi4 * rl * rl)
  · rw [if_pos hbig]
    have hb : eu ≤ pi4 * sl * rl ^ 2 := by
      have := (div_le_iff₀ (by have := hbig.1; positivity)).1 hbig.2
      linarith
    rw [zero rl ru le_rfl hb]
    split_ifs with hh
    · rw [zero rl' ru' (h1.le.trans (h2 hh)) hb, add_zero]
    · rw [add_zero]
  · rw [if_neg hbig]
    have hne : pi4 * ru * ru ≠ 0 := by positivity
    rw [lower, if_neg hne]
    simp only [Option.bind_eq_bind, Option.bind_some]
    set s1 := max sl (el / (pi4 * ru * ru)) with hs1
    by_cases hge : max el (pi4 * s1 * rl ^ 2) ≥ eu
    · rw [if_pos hge] at key ⊢
      rw [← key, zero_add]
      congr 1
      split_ifs with hh
      · have hl' : 0 < rl' := lt_of_lt_of_le hru (h2 hh)
        rcases max_choice el (pi4 * s1 * rl ^ 2) with hm | hm
        · rw [hm] at hge
          rw [le_antisymm hlu hge, integral_same]
        · rw [hm] at hge
          rcases max_choice sl (el / (pi4 * ru * ru)) with hm' | hm'
          · rw [hs1, hm'] at hge
            rw [zero rl' ru' (h1.le.trans (h2 hh)) hge]
          · rw [hs1, hm'] at hge
            have e2 : pi4 * (el / (pi4 * ru * ru)) * rl ^ 2 = el * (rl ^ 2 / ru ^ 2) := by field_simp
            rw [e2] at hge
            have : rl ^ 2 / ru ^ 2 ≤ 1 := (div_le_one (by positivity)).2 (pow_le_pow_left₀ hl h1.le 2)
            have : eu = el := le_antisymm (by nlinarith) hlu
            rw [this, integral_same]
      · rfl
    · rw [if_neg hge] at key ⊢
      by_cases hh : rl' < ru'
      · have hl' : 0 < rl' := lt_of_lt_of_le hru (h2 hh)
        have hru' : 0 < ru' := hl'.trans hh
        have key2 := range_eq (p1 := p1Of slope2) hpi hs h0 hl'.le hh hlu (C184_exponent _).2 hd2 hdist
        simp only at key2
        have hne' : pi4 * ru' * ru' ≠ 0 := by positivity
        rw [if_neg (not_le.2 hh), lower, if_neg hne', if_pos hh]
        simp only [Option.bind_some]
        by_cases hge' : max el (pi4 * max sl (el / (pi4 * ru' * ru')) * rl' ^ 2) ≥ eu
        · rw [if_pos hge'] at key2 ⊢
          rw [key, ← key2, add_zero]
        · rw [if_neg hge'] at key2 ⊢
          rw [key, key2]
      · rw [if_pos (not_lt.1 hh), if_neg hh, key, add_zero]

/-- C185 fails for a line of sight that does not meet the distribution: from outside a sphere, in a direction that passes it, the least flux is a number divided by zero. -/
theorem C185_violated_miss {pi4 sl el eu slope1 slope2 r0 inner outer mu : ℝ} {dist dens : ℝ → ℝ} (h0 : 0 < r0) (hi : inner < r0) (ho : outer ≤ r0) (hm : mu ≤ √(1 - (outer / r0) ^ 2)) :
    dnDO pi4 sl el eu dist dens slope1 slope2 (sphere1 r0 inner outer mu) (sphere2 r0 inner outer mu) = none := by
  have : sphere1 r0 inner outer mu = (0, 0) := by
    rw [sphere1, if_neg h0.ne', if_neg (not_le.2 hi), if_neg (fun hh => absurd hh.2 (not_lt.2 ho)), if_neg (not_lt.2 hm)]
  rw [dnDO, this]
  simp [lower]

/-- A homogeneous shell from 1 to 3 around an observer at 2, energies from 1 to 4 with slope 2: the hypotheses of the rates hold towards the centre. -/
example : ContinuousOn (eDist 2 1 4) (Icc 1 4) ∧ (0 : ℝ) ≤ (0, (1 : ℝ)).1 ∧ (0 : ℝ) < 1 ∧ (1 : ℝ) ≤ 3 := by
  refine ⟨?_, le_rfl, one_pos, by norm_num⟩
  have : ContinuousOn (fun e : ℝ => ampl 2 1 4 / e ^ (2 : ℝ)) (Icc 1 4) := by
    refine continuousOn_const.div (continuousOn_id.rpow_const fun e _ => Or.inr (by norm_num)) fun e he => ?_
    exact (rpow_pos_of_pos (lt_of_lt_of_le one_pos he.1) _).ne'
  exact this.congr fun e he => eDist_in one_pos he.1 he.2

end Verif.Spatial
