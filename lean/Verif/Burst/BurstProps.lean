import Verif.Burst.Burst
import Mathlib.MeasureTheory.Function.JacobianOneDim
import Mathlib.Analysis.SpecialFunctions.Integrals.Basic
import Mathlib.Analysis.Real.Pi.Bounds
import Mathlib.Algebra.BigOperators.Group.List.Lemmas

/-!
# Properties C168-C170: quadrature over the direction and the flux of a burst
-/

set_option linter.unusedSectionVars false

noncomputable section

namespace Verif.Burst

open Set MeasureTheory

/-- The Fisher density of the cosine `mu` of the angle to the reported direction. -/
def fisher (k mu : ℝ) : ℝ := k * Real.exp (k * mu) / (2 * Real.sinh k)

theorem lo_lt_one {k : ℝ} (hk : 0 < k) : loOf k < 1 := by
  rw [loOf]; split_ifs
  · rw [Real.exp_lt_one_iff]; linarith
  · norm_num

theorem lo_nonneg (k : ℝ) : 0 ≤ loOf k := by
  rw [loOf]; split_ifs
  · exact (Real.exp_pos _).le
  · exact le_rfl

theorem lo_eq {k : ℝ} (h : k < 250) : loOf k = Real.exp (-2 * k) := if_pos h

/-- The Gauss-Legendre variable as a function of the cosine. -/
def tOf (k mu : ℝ) : ℝ := (Real.exp (k * (mu - 1)) - 0.5 * (1 + loOf k)) / (0.5 * (1 - loOf k))

theorem node_tOf {k : ℝ} (hk : 0 < k) (mu : ℝ) : node k (tOf k mu) = mu := by
  have h1 : 0.5 * (1 - loOf k) ≠ 0 := by
    have := lo_lt_one hk
    norm_num; linarith
  simp only [node, tOf]
  rw [mul_div_cancel₀ _ h1, sub_add_cancel, Real.log_exp, mul_div_cancel_left₀ _ hk.ne']
  ring

theorem tOf_deriv (k mu : ℝ) : HasDerivAt (tOf k) (k * Real.exp (k * (mu - 1)) / (0.5 * (1 - loOf k))) mu := by
  have h1 : HasDerivAt (fun m : ℝ => k * (m - 1)) k mu := by
    simpa using ((hasDerivAt_id mu).sub_const 1).const_mul k
  exact ((h1.exp.sub_const (0.5 * (1 + loOf k))).div_const _).congr_deriv (by ring)

theorem tOf_strictMono {k : ℝ} (hk : 0 < k) : StrictMono (tOf k) := by
  intro a b h
  have h0 : 0 < 0.5 * (1 - loOf k) := mul_pos (by norm_num) (by linarith [lo_lt_one hk])
  have : Real.exp (k * (a - 1)) < Real.exp (k * (b - 1)) := Real.exp_lt_exp.2 (mul_lt_mul_of_pos_left (by linarith) hk)
  exact div_lt_div_of_pos_right (by linarith) h0

theorem tOf_one {k : ℝ} (hk : 0 < k) : tOf k 1 = 1 := by
  have h0 : 0.5 * (1 - loOf k) ≠ 0 := by
    have := lo_lt_one hk
    norm_num; linarith
  rw [tOf, div_eq_one_iff_eq h0]
  simp only [sub_self, mul_zero, Real.exp_zero]
  ring

theorem tOf_neg_one {k : ℝ} (hk : 0 < k) (hs : k < 250) : tOf k (-1) = -1 := by
  have h0 : 0.5 * (1 - loOf k) ≠ 0 := by
    have := lo_lt_one hk
    norm_num; linarith
  rw [tOf, div_eq_iff h0, show k * (-1 - 1) = -2 * k by ring, ← lo_eq hs]
  ring

theorem tOf_image {k : ℝ} (hk : 0 < k) (hs : k < 250) : tOf k '' Ioc (-1) 1 = Ioc (-1) 1 := by
  ext t
  constructor
  · rintro ⟨mu, hmu, rfl⟩
    have a := tOf_strictMono hk hmu.1
    have b := (tOf_strictMono hk).monotone hmu.2
    rw [tOf_neg_one hk hs] at a
    rw [tOf_one hk] at b
    exact ⟨a, b⟩
  · intro ht
    have hc : ContinuousOn (tOf k) (Icc (-1) 1) := fun x _ => (tOf_deriv k x).continuousAt.continuousWithinAt
    have := intermediate_value_Icc (by norm_num : (-1 : ℝ) ≤ 1) hc
    rw [tOf_neg_one hk hs, tOf_one hk] at this
    obtain ⟨mu, hmu, rfl⟩ := this ⟨ht.1.le, ht.2⟩
    refine ⟨mu, ⟨?_, hmu.2⟩, rfl⟩
    refine lt_of_le_of_ne hmu.1 fun h => ?_
    rw [← h, tOf_neg_one hk hs] at ht
    exact lt_irrefl _ ht.1

/-- C168: the transformation of the polar variable is exact: half the integral over the Gauss-Legendre interval at the transformed abscissas is the mean with respect to the Fisher density, for every function of the direction cosine.

Missing: concentrations of 250 and more, where exp(-2k) is taken as zero (`C168_violated_tail`). -/
theorem C168_fisher_partial {k : ℝ} (hk : 0 < k) (hs : k < 250) (g : ℝ → ℝ) :
    (1 / 2) * ∫ t in (-1 : ℝ)..1, g (node k t) = ∫ mu in (-1 : ℝ)..1, g mu * fisher k mu := by
  have h1 : (-1 : ℝ) ≤ 1 := by norm_num
  rw [intervalIntegral.integral_of_le h1, intervalIntegral.integral_of_le h1]
  have := integral_image_eq_integral_abs_deriv_smul (s := Ioc (-1 : ℝ) 1) measurableSet_Ioc (fun x _ => (tOf_deriv k x).hasDerivWithinAt)
    (tOf_strictMono hk).injective.injOn (fun t => g (node k t))
  rw [tOf_image hk hs] at this
  rw [this, ← integral_const_mul]
  refine setIntegral_congr_fun measurableSet_Ioc fun mu _ => ?_
  have hlo := lo_lt_one hk
  have h0 : 0 < 0.5 * (1 - loOf k) := mul_pos (by norm_num) (by linarith)
  have hpos : 0 < k * Real.exp (k * (mu - 1)) / (0.5 * (1 - loOf k)) := div_pos (mul_pos hk (Real.exp_pos _)) h0
  simp only [smul_eq_mul, node_tOf hk, abs_of_pos hpos, fisher]
  have e1 : Real.exp (k * (mu - 1)) = Real.exp (k * mu) * Real.exp (-k) := by rw [← Real.exp_add]; ring_nf
  have e2 : 2 * Real.sinh k * Real.exp (-k) = 1 - loOf k := by
    rw [Real.sinh_eq, lo_eq hs, mul_div_cancel₀ _ (two_ne_zero' ℝ), sub_mul, ← Real.exp_add, ← Real.exp_add]
    ring_nf
    simp
  have h3 : Real.sinh k ≠ 0 := (Real.sinh_pos_iff.2 hk).ne'
  have h4 := (Real.exp_pos (-k)).ne'
  rw [← e2, e1]
  norm_num
  field_simp

/-- C168: the transformed abscissas are direction cosines, in the order of the Gauss-Legendre abscissas.

Missing: concentrations of 250 and more (`C168_violated_tail`). -/
theorem C168_range_partial {k : ℝ} (hk : 0 < k) (hs : k < 250) {t t' : ℝ} (h1 : -1 ≤ t) (h2 : t < t') (h3 : t' ≤ 1) :
    -1 ≤ node k t ∧ node k t < node k t' ∧ node k t' ≤ 1 := by
  have hlo := lo_lt_one hk
  have hlp : 0 < loOf k := by rw [lo_eq hs]; exact Real.exp_pos _
  have a : loOf k ≤ 0.5 * (1 - loOf k) * t + 0.5 * (1 + loOf k) := by nlinarith
  have b : 0.5 * (1 - loOf k) * t + 0.5 * (1 + loOf k) < 0.5 * (1 - loOf k) * t' + 0.5 * (1 + loOf k) := by nlinarith
  have c : 0.5 * (1 - loOf k) * t' + 0.5 * (1 + loOf k) ≤ 1 := by nlinarith
  have l1 : -2 * k ≤ Real.log (0.5 * (1 - loOf k) * t + 0.5 * (1 + loOf k)) := by
    rw [Real.le_log_iff_exp_le (by linarith), ← lo_eq hs]; exact a
  have l2 := Real.log_lt_log (by linarith) b
  have l3 : Real.log (0.5 * (1 - loOf k) * t' + 0.5 * (1 + loOf k)) ≤ 0 := Real.log_nonpos (by linarith) c
  refine ⟨?_, ?_, ?_⟩
  · have : -2 ≤ Real.log (0.5 * (1 - loOf k) * t + 0.5 * (1 + loOf k)) / k := by
      rw [le_div_iff₀ hk]; linarith
    simp only [node]; linarith
  · have := div_lt_div_of_pos_right l2 hk
    simp only [node]; linarith
  · have := div_nonpos_of_nonpos_of_nonneg l3 hk.le
    simp only [node]; linarith

theorem foldl_sum {α : Type} (f : α → ℝ) (l : List α) (x : ℝ) : l.foldl (fun s q => s + f q) x = x + (l.map f).sum := by
  induction l generalizing x with
  | nil => simp
  | cons q l ih => rw [List.foldl_cons, ih, List.map_cons, List.sum_cons]; ring

theorem dQuad_eq (rate : ℝ → ℝ → ℝ) (rot : ℝ → ℝ → ℝ × ℝ) {nmu : ℕ} (h : nmu ≠ 1) (phis mus : List (ℝ × ℝ)) (mub l : ℝ) :
    dQuad rate rot nmu phis mus mub l = (mus.map fun q => q.2 * (phis.map fun p => p.2 * rate (rot q.1 p.1).1 (rot q.1 p.1).2).sum).sum := by
  rw [dQuad, if_neg h]
  simp only [foldl_sum, zero_add]

/-- C168: with rules whose weights add up to the lengths of their intervals, an isotropic rate is reproduced, whatever the number of points. -/
theorem C168_isotropic {rate : ℝ → ℝ → ℝ} {R : ℝ} (hR : ∀ m l, rate m l = R) (rot : ℝ → ℝ → ℝ × ℝ) (nmu : ℕ) (phis rule : List (ℝ × ℝ))
    (hp : (phis.map (·.2)).sum = 2 * Real.pi) (hr : (rule.map (·.2)).sum = 2) (k mub l : ℝ) :
    dQuad rate rot nmu phis (muRule rule k) mub l = R := by
  by_cases h : nmu = 1
  · rw [dQuad, if_pos h, hR]
  · rw [dQuad_eq rate rot h]
    simp only [hR, List.sum_map_mul_right, hp]
    rw [muRule, List.map_map]
    have : (rule.map ((fun q : ℝ × ℝ => q.2) ∘ fun q : ℝ × ℝ => (node k q.1, 0.5 * q.2 / twopi))).sum = (0.5 / twopi) * (rule.map (·.2)).sum := by
      rw [← List.sum_map_mul_left]
      congr 1
      refine List.map_congr_left fun q _ => ?_
      simp only [Function.comp]
      ring
    rw [this, hr, twopi]
    have := Real.pi_pos.ne'
    norm_num
    field_simp

/-- C168: where the Gauss-Legendre rule is exact for the rate summed over azimuths, the result is the Fisher mean of that sum divided by 2π. -/
theorem C168_mean {k : ℝ} (hk : 0 < k) (hs : k < 250) (rate : ℝ → ℝ → ℝ) (rot : ℝ → ℝ → ℝ × ℝ) {nmu : ℕ} (h : nmu ≠ 1) (phis rule : List (ℝ × ℝ)) (mub l : ℝ)
    (hex : (rule.map fun q => q.2 * (phis.map fun p => p.2 * rate (rot (node k q.1) p.1).1 (rot (node k q.1) p.1).2).sum).sum
      = ∫ t in (-1 : ℝ)..1, (phis.map fun p => p.2 * rate (rot (node k t) p.1).1 (rot (node k t) p.1).2).sum) :
    dQuad rate rot nmu phis (muRule rule k) mub l
      = (∫ mu in (-1 : ℝ)..1, (phis.map fun p => p.2 * rate (rot mu p.1).1 (rot mu p.1).2).sum * fisher k mu) / (2 * Real.pi) := by
  rw [dQuad_eq rate rot h, muRule, List.map_map, ← C168_fisher_partial hk hs, ← hex, mul_div_right_comm, ← List.sum_map_mul_left]
  congr 1
  refine List.map_congr_left fun q _ => ?_
  simp only [Function.comp, twopi]
  ring

/-- C168 fails for a concentration of 250 or more at abscissas very close to -1, where the abscissa is not a direction cosine and the root of 1 - mu² is not a number. -/
theorem C168_violated_tail {k t : ℝ} (hk : 250 ≤ k) (h1 : -1 < t) (h2 : t < 2 * Real.exp (-2 * k) - 1) : node k t < -1 := by
  have hlo : loOf k = 0 := if_neg (not_lt.2 hk)
  simp only [node, hlo]
  have hp : 0 < 0.5 * (1 - 0) * t + 0.5 * (1 + 0) := by linarith
  have : Real.log (0.5 * (1 - 0) * t + 0.5 * (1 + 0)) < -2 * k := by
    rw [Real.log_lt_iff_lt_exp hp]; linarith
  have h3 : Real.log (0.5 * (1 - 0) * t + 0.5 * (1 + 0)) / k < -2 := by
    rw [div_lt_iff₀ (by linarith)]; exact this
  linarith

/-! ## C169: the concentration parameter -/

/-- C169: the quantity compared with 0.683 is the Fisher probability of a direction within the reported angle. -/
theorem C169_coverage {sig k : ℝ} (hk : 0 < k) (hs : k < 250) : coverage sig k = ∫ mu in Real.cos sig..1, fisher k mu := by
  have hsh := (Real.sinh_pos_iff.2 hk).ne'
  have hd : ∀ x ∈ uIcc (Real.cos sig) 1, HasDerivAt (fun x => Real.exp (k * x) / (2 * Real.sinh k)) (fisher k x) x := by
    intro x _
    have h1 : HasDerivAt (fun x : ℝ => k * x) k x := by simpa using (hasDerivAt_id x).const_mul k
    exact (h1.exp.div_const _).congr_deriv (by rw [fisher]; ring)
  have hc : Continuous (fisher k) := by unfold fisher; fun_prop
  rw [intervalIntegral.integral_eq_sub_of_hasDerivAt hd (hc.intervalIntegrable _ _), coverage, lo_eq hs, ← sub_div, mul_one]
  have e2 : 1 - Real.exp (-2 * k) = 2 * Real.sinh k * Real.exp (-k) := by
    rw [Real.sinh_eq, mul_div_cancel₀ _ (two_ne_zero' ℝ), sub_mul, ← Real.exp_add, ← Real.exp_add]
    ring_nf
    simp
    ring
  have e3 : 1 - Real.exp (k * (Real.cos sig - 1)) = (Real.exp k - Real.exp (k * Real.cos sig)) * Real.exp (-k) := by
    rw [sub_mul, ← Real.exp_add, ← Real.exp_add]
    ring_nf
    simp
    ring
  rw [e2, e3, mul_div_mul_right _ _ (Real.exp_pos (-k)).ne']

theorem slope_pos {sig k : ℝ} (hk : 0 < k) (hc : Real.cos sig < 1) : 0 < slope sig k := by
  have h1 : Real.exp (k * (Real.cos sig - 1)) ≤ 1 := by rw [Real.exp_le_one_iff]; nlinarith
  have h2 := Real.exp_pos (k * (Real.cos sig - 1))
  have h3 := lo_lt_one hk
  have h4 : 0 ≤ 2 * (1 - Real.exp (k * (Real.cos sig - 1))) * loOf k / (1 - loOf k) :=
    div_nonneg (mul_nonneg (mul_nonneg two_pos.le (by linarith)) (lo_nonneg k)) (by linarith)
  simp only [slope]
  nlinarith

/-- C169: the iteration for kappa stands still exactly where the probability is 0.683. -/
theorem C169_fixed {sig k : ℝ} (hk : 0 < k) (hc : Real.cos sig < 1) : kStep sig k = k ↔ coverage sig k = 0.683 := by
  have h1 := (slope_pos hk hc).ne'
  have h2 : 1 - loOf k ≠ 0 := by linarith [lo_lt_one hk]
  rw [kStep, sub_eq_self, div_eq_zero_iff, or_iff_left h1, mul_eq_zero, or_iff_left h2, sub_eq_zero]

/-- C169: a positive kappa that is returned came from an iterate at which the probability misses 0.683 by no more than a hundred-thousandth of kappa times the divisor.

Missing: that the iteration returns, and its speed (`C169_violated`: it is not Newton's iteration). -/
theorem C169_returned_partial {sig k : ℝ} (h : kappa sig = some k) (hk : 0 < k) :
    ∃ kold, k = kStep sig kold ∧ (0 < kold → Real.cos sig < 1 → |coverage sig kold - 0.683| ≤ 1e-5 * k * slope sig kold / (1 - loOf kold)) := by
  have key : ∀ n k0, kLoop sig n k0 = some k → ∃ kold, k = kStep sig kold ∧ ¬ |k - kold| / k > 1e-5 := by
    intro n
    induction n with
    | zero => intro k0 h; simp [kLoop] at h
    | succ n ih =>
        intro k0 h
        simp only [kLoop] at h
        split_ifs at h with hc
        · exact ih _ h
        · have e := Option.some.inj h
          exact ⟨k0, e.symm, by rw [← e]; exact hc⟩
  obtain ⟨kold, he, hx⟩ := key 25 _ h
  refine ⟨kold, he, fun hp hc => ?_⟩
  have hs := slope_pos hp hc
  have hd : 0 < 1 - loOf kold := by linarith [lo_lt_one hp]
  rw [not_lt, div_le_iff₀ hk] at hx
  have e1 : k - kold = -((coverage sig kold - 0.683) * (1 - loOf kold) / slope sig kold) := by rw [he, kStep]; ring
  rw [e1, abs_neg, abs_div, abs_mul, abs_of_pos hd, abs_of_pos hs, div_le_iff₀ hs] at hx
  rw [le_div_iff₀ hd]
  exact hx

/-- C169 fails as a Newton iteration, which the source says it is: below 250 the divisor is not the derivative of the probability (times the denominator); one term has the wrong sign, for every angle and every kappa. -/
theorem C169_violated {sig k : ℝ} (hk : 0 < k) (hs : k < 250) (hc : Real.cos sig < 1) :
    HasDerivAt (coverage sig) ((slope sig k - 4 * (1 - Real.exp (k * (Real.cos sig - 1))) * loOf k / (1 - loOf k)) / (1 - loOf k)) k ∧
    ¬ HasDerivAt (coverage sig) (slope sig k / (1 - loOf k)) k := by
  have hlo := lo_lt_one hk
  have hd : 1 - loOf k ≠ 0 := by linarith
  have hnear : coverage sig =ᶠ[nhds k] fun k => (1 - Real.exp (k * (Real.cos sig - 1))) / (1 - Real.exp (-2 * k)) := by
    filter_upwards [gt_mem_nhds hs] with x hx
    rw [coverage, lo_eq hx]
  have h1 : HasDerivAt (fun k : ℝ => k * (Real.cos sig - 1)) (Real.cos sig - 1) k := by simpa using (hasDerivAt_id k).mul_const (Real.cos sig - 1)
  have h2 : HasDerivAt (fun k : ℝ => -2 * k) (-2) k := by simpa using (hasDerivAt_id k).const_mul (-2)
  have key : HasDerivAt (coverage sig) ((slope sig k - 4 * (1 - Real.exp (k * (Real.cos sig - 1))) * loOf k / (1 - loOf k)) / (1 - loOf k)) k := by
    refine HasDerivAt.congr_of_eventuallyEq ?_ hnear
    have hd' : 1 - Real.exp (-2 * k) ≠ 0 := by rw [← lo_eq hs]; exact hd
    refine ((h1.exp.const_sub 1).div (h2.exp.const_sub 1) hd').congr_deriv ?_
    simp only [slope]
    rw [lo_eq hs]
    generalize Real.exp (-2 * k) = E at hd'
    generalize Real.exp (k * (Real.cos sig - 1)) = A
    field_simp
    ring
  refine ⟨key, fun h => ?_⟩
  have := key.unique h
  rw [div_left_inj' hd, sub_eq_self, div_eq_zero_iff, or_iff_left hd] at this
  have hlp : 0 < loOf k := by rw [lo_eq hs]; exact Real.exp_pos _
  have h3 : Real.exp (k * (Real.cos sig - 1)) < 1 := by rw [Real.exp_lt_one_iff]; nlinarith
  have : 0 < 4 * (1 - Real.exp (k * (Real.cos sig - 1))) * loOf k := by
    have : 0 < 1 - Real.exp (k * (Real.cos sig - 1)) := by linarith
    positivity
  linarith

/-! ## C170: the flux quadratures -/

theorem fluxSum_const {F sig : ℝ} {rule : List (ℝ × ℝ)} {f : ℝ → ℝ} {R : ℝ} (hR : ∀ x, f x = R) (hpos : ∀ q ∈ rule, 0 < sig * √2 * q.1 + F) :
    fluxSum F sig rule f = R * (rule.map (·.2)).sum := by
  have key : ∀ (l : List (ℝ × ℝ)) (x : ℝ), (∀ q ∈ l, 0 < sig * √2 * q.1 + F) →
      l.foldl (fun dR q => if sig * √2 * q.1 + F ≤ 0 then dR else dR + q.2 * f (sig * √2 * q.1 + F)) x = x + R * (l.map (·.2)).sum := by
    intro l
    induction l with
    | nil => intro x _; simp
    | cons q l ih =>
        intro x h
        rw [List.foldl_cons, if_neg (not_le.2 (h q (by simp))), ih _ fun q hq => h q (by simp [hq]), hR, List.map_cons, List.sum_cons]
        ring
  simpa [fluxSum] using key rule 0 hpos

/-- C170: with more than one flux point and a rule whose weights add up to the root of π, a rate that does not depend on flux is spread over the sphere by `F_quad` and reproduced by `Flb_quad`, if all the fluxes used are positive.

Missing: one flux point (`C170_violated_single`, `C170_violated_flux`). -/
theorem C170_constant_partial {F sig R junk : ℝ} {rule : List (ℝ × ℝ)} (hn : rule.length ≠ 1) (hw : (rule.map (·.2)).sum = √Real.pi) {f : ℝ → ℝ} (hR : ∀ x, f x = R)
    (hpos : ∀ q ∈ rule, 0 < sig * √2 * q.1 + F) : fQuad f rule F sig = R / (4 * Real.pi) ∧ flbQuad junk f rule F sig = R := by
  have hpi : √Real.pi ≠ 0 := (Real.sqrt_pos.2 Real.pi_pos).ne'
  rw [fQuad, flbQuad, if_neg hn, if_neg hn, fluxSum_const hR hpos, hw]
  constructor
  · field_simp
  · field_simp

/-- C170 fails for one flux point: the rate is not divided by the solid angle, so the result is 4π times what two or more points give. -/
theorem C170_violated_single {q0 : ℝ × ℝ} {f : ℝ → ℝ} {R : ℝ} (hR : ∀ x, f x = R) (hR0 : 0 < R) (F sig : ℝ) : R / (4 * Real.pi) < fQuad f [q0] F sig := by
  rw [fQuad, if_pos (by simp), hR]
  rw [div_lt_iff₀ (by have := Real.pi_pos; positivity)]
  nlinarith [Real.pi_gt_three]

/-- C170 fails for one flux point: the result of `Flb_quad` does not depend on the flux of the burst but on what the variable happens to hold. -/
theorem C170_violated_flux (q0 : ℝ × ℝ) (d : ℝ → ℝ) (junk F F' sig sig' : ℝ) :
    flbQuad junk d [q0] F sig = flbQuad junk d [q0] F' sig' ∧ flbQuad junk d [q0] F sig = d junk := by
  simp [flbQuad]

/-- An uncertainty of half a radian, a two point rule in the azimuth and in flux, and the midpoint weights of `gauleg` meet the hypotheses. -/
example : Real.cos 0.5 < 1 ∧ ((([(-0.5, 1), (0.5, 1)] : List (ℝ × ℝ))).map (·.2)).sum = 2 ∧ ((phiRule (fun _ => []) 1).map (·.2)).sum = 2 * Real.pi
    ∧ (([(-0.7, √Real.pi / 2), (0.7, √Real.pi / 2)] : List (ℝ × ℝ)).map (·.2)).sum = √Real.pi := by
  refine ⟨?_, by norm_num, by simp [phiRule, twopi], by simp⟩
  rw [← Real.cos_zero]
  exact Real.cos_lt_cos_of_nonneg_of_le_pi le_rfl (by linarith [Real.pi_gt_three]) (by norm_num)

end Verif.Burst
