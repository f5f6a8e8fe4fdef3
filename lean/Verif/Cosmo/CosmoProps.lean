import Verif.Cosmo.Cosmo
import Mathlib.MeasureTheory.Integral.IntervalIntegral.IntegrationByParts
import Mathlib.Analysis.SpecialFunctions.Trigonometric.Deriv
import Mathlib.Analysis.SpecialFunctions.Trigonometric.DerivHyp
import Mathlib.Analysis.SpecialFunctions.Sqrt
import Mathlib.Analysis.SpecialFunctions.Integrals.Basic
import Mathlib.Analysis.SpecialFunctions.Log.Deriv
import Mathlib.Analysis.Complex.ExponentialBounds
import Mathlib.Tactic.LinearCombination
import Mathlib.Tactic.FieldSimp
import Mathlib.Tactic.Ring
import Mathlib.Tactic.Linarith
import Mathlib.Tactic.Positivity

/-!
# Properties C157, C158, C159: cosmological distances
-/

set_option linter.unusedSectionVars false

noncomputable section

namespace Verif.Cosmo

open MeasureTheory Set

/-! ## Specification -/

/-- The square of the dimensionless Hubble parameter of a Friedmann–Robertson–Walker universe. -/
def hubbleSq (o : Obj) (z : ℝ) : ℝ := o.OM * (1 + z) ^ 3 + (1 - o.OM - o.OL) * (1 + z) ^ 2 + o.OL

/-- The Hubble distance in Mpc. -/
def hubbleDist (o : Obj) : ℝ := 299792458 / 100000 / o.h

/-- The common blocks after calls. -/
def history (Q : Quad) (sgl : ℝ → ℝ) (fuel : ℕ) (w : World) (cs : List Call) : World := cs.foldl (fun w c => c.run Q sgl fuel w) w

/-! ## C157 -/

/-- C157, for every history of calls on any objects, and whatever quadrature: the methods of `Cosmology` give what they would have given at the start, in another program or after other calls; a vector of redshifts gives the vector of the values; and the distance modulus is that of the luminosity distance in units of 10 pc. -/
theorem C157_independent (Q : Quad) (sgl sgl' : ℝ → ℝ) (fuel fuel' : ℕ) (o : Obj) (z : ℝ) (zs : List ℝ) (w w' : World) (cs cs' : List Call) :
    (o.ldist Q z (history Q sgl fuel w cs)).2 = (o.ldist Q z (history Q sgl' fuel' w' cs')).2 ∧
    (o.mu Q z (history Q sgl fuel w cs)).2 = (o.mu Q z (history Q sgl' fuel' w' cs')).2 ∧
    (o.volElem Q z (history Q sgl fuel w cs)).2 = (o.volElem Q z (history Q sgl' fuel' w' cs')).2 ∧
    (o.dlbt Q z (history Q sgl fuel w cs)).2 = (o.dlbt Q z (history Q sgl' fuel' w' cs')).2 ∧
    (o.dage Q (history Q sgl fuel w cs)).2 = (o.dage Q (history Q sgl' fuel' w' cs')).2 ∧
    (o.ldistV Q zs (history Q sgl fuel w cs)).2 = zs.map (fun z => (o.ldist Q z w').2) ∧
    (o.muV Q zs (history Q sgl fuel w cs)).2 = zs.map (fun z => (o.mu Q z w').2) ∧
    (o.mu Q z w).2 = 5 * Real.logb 10 ((o.ldist Q z w).2 * 100000) := by
  refine ⟨rfl, rfl, rfl, rfl, rfl, ?_, ?_, ?_⟩
  · simp [Obj.ldistV, Obj.ldist, nldistF, ldistF, setFrw]
  · simp [Obj.muV, Obj.mu, nldistF, muF, setFrw]
  · simp only [Obj.mu, Obj.ldist, muF, ldistF]
    congr 2; ring

/-! ## C158 -/

/-- The dimensionless transverse comoving distance, as given by `ldist`. -/
def transverse (Q : Quad) (o : Obj) (w : World) (z : ℝ) : ℝ := (o.ldist Q z w).2 / hubbleDist o / (1 + z)

theorem ig_eq (o : Obj) (w : World) (z : ℝ) : (o.OM * (1 + z) + (setFrw o.h o.OM o.OL w).frw.Ok) * (1 + z) ^ 2 + o.OL = hubbleSq o z := by
  simp only [setFrw, hubbleSq]; ring

/-- The integral of the inverse Hubble parameter. -/
def comoving (o : Obj) (z : ℝ) : ℝ := ∫ t in (0 : ℝ)..z, 1 / √(hubbleSq o t)

theorem ddIg_eq (o : Obj) (w : World) : ddIg (setFrw o.h o.OM o.OL w).frw = fun t => 1 / √(hubbleSq o t) := by
  funext t; rw [ddIg, ← ig_eq o w t]; rfl

/-- The curvature function. -/
def bend (k d : ℝ) : ℝ := if k < 0 then |Real.sin (√|k| * d)| / √|k| else if 0 < k then Real.sinh (√|k| * d) / √|k| else d

theorem curve_eq (g : Frw) (hg : g.rtOk = √|g.Ok|) (z d : ℝ) : curve g z d = (1 + z) * bend g.Ok d := by
  unfold curve bend
  rw [hg]
  by_cases h1 : g.Ok < 0
  · rw [if_pos h1, if_pos h1]; ring
  · rw [if_neg h1, if_neg h1]
    by_cases h2 : 0 < g.Ok
    · rw [if_pos h2, if_pos h2]; ring
    · rw [if_neg h2, if_neg h2]

theorem transverse_eq {Q : Quad} (hQ : ∀ f a b, Q f a b = ∫ x in a..b, f x) {o : Obj} (hh : 0 < o.h) (w : World) {z : ℝ} (hz : 1 + z ≠ 0) :
    transverse Q o w z = bend (1 - o.OM - o.OL) (comoving o z) := by
  have h1 : (o.ldist Q z w).2 = 299792458 / o.h * ((1 + z) * bend (1 - o.OM - o.OL) (comoving o z)) / 100000 := by
    simp only [Obj.ldist, ldistF]
    rw [hQ, ddIg_eq]
    have hc : curve (setFrw o.h o.OM o.OL w).frw z (∫ x in (0 : ℝ)..z, 1 / √(hubbleSq o x)) = (1 + z) * bend (1 - o.OM - o.OL) (comoving o z) := by
      exact curve_eq _ rfl z _
    rw [hc]; rfl
  rw [transverse, h1, hubbleDist]
  have := hh.ne'
  field_simp

theorem measurable_ig (o : Obj) : Measurable fun t => 1 / √(hubbleSq o t) := by
  unfold hubbleSq
  exact measurable_const.div (by fun_prop : Measurable fun t => √(o.OM * (1 + t) ^ 3 + (1 - o.OM - o.OL) * (1 + t) ^ 2 + o.OL))

theorem continuous_hubbleSq (o : Obj) : Continuous (hubbleSq o) := by unfold hubbleSq; fun_prop

theorem continuousAt_ig {o : Obj} {t : ℝ} (h : 0 < hubbleSq o t) : ContinuousAt (fun t => 1 / √(hubbleSq o t)) t :=
  continuousAt_const.div ((continuous_hubbleSq o).sqrt.continuousAt) (Real.sqrt_pos.2 h).ne'

theorem integrable_ig {o : Obj} {z : ℝ} (hz : 0 ≤ z) (h : ∀ t ∈ Icc 0 z, 0 < hubbleSq o t) : IntervalIntegrable (fun t => 1 / √(hubbleSq o t)) volume 0 z :=
  ContinuousOn.intervalIntegrable fun t ht => (continuousAt_ig (h t (by rwa [uIcc_of_le hz] at ht))).continuousWithinAt

theorem comoving_deriv {o : Obj} {z : ℝ} (hz : 0 ≤ z) (h : ∀ t ∈ Icc 0 z, 0 < hubbleSq o t) : HasDerivAt (comoving o) (1 / √(hubbleSq o z)) z :=
  intervalIntegral.integral_hasDerivAt_right (integrable_ig hz h) ((measurable_ig o).stronglyMeasurable.stronglyMeasurableAtFilter) (continuousAt_ig (h z ⟨hz, le_rfl⟩))

theorem comoving_pos {o : Obj} {z : ℝ} (hz : 0 < z) (h : ∀ t ∈ Icc 0 z, 0 < hubbleSq o t) : 0 < comoving o z :=
  intervalIntegral.intervalIntegral_pos_of_pos_on (integrable_ig hz.le h) (fun t ht => by
    have := h t ⟨ht.1.le, ht.2.le⟩; positivity) hz

theorem cancel_sq (c : ℝ) {r e q : ℝ} (hr : r ≠ 0) (he : e ≠ 0) (h : e ^ 2 = q) : (c * (r * (1 / e)) / r) ^ 2 * q = c ^ 2 := by
  subst h; field_simp

/-- C158, distances: with exact quadrature, for every universe that expands from redshift z to now, curved or not, the transverse distance M(z) = ldist(z)/((c/H0)(1+z)) satisfies M(0) = 0 and the equation of light rays in a curved space, M'(z)^2 E(z)^2 = 1 + Omega_k M(z)^2, up to the antipode of a closed universe. -/
theorem C158_distance (Q : Quad) (hQ : ∀ f a b, Q f a b = ∫ x in a..b, f x) (o : Obj) (hh : 0 < o.h) (w : World) (z : ℝ) (hz : 0 < z) (h : ∀ t ∈ Icc 0 z, 0 < hubbleSq o t)
    (hcl : 1 < o.OM + o.OL → √(o.OM + o.OL - 1) * comoving o z < Real.pi) :
    transverse Q o w 0 = 0 ∧ 0 < transverse Q o w z ∧ ∃ M', HasDerivAt (transverse Q o w) M' z ∧
      M' ^ 2 * hubbleSq o z = 1 + (1 - o.OM - o.OL) * transverse Q o w z ^ 2 ∧ (o.OM + o.OL ≤ 1 → 0 < M') := by
  have hq := h z ⟨hz.le, le_rfl⟩
  have hD := comoving_deriv hz.le h
  have hpos := comoving_pos hz h
  have hE : 0 < √(hubbleSq o z) := Real.sqrt_pos.2 hq
  have hE2 : √(hubbleSq o z) ^ 2 = hubbleSq o z := Real.sq_sqrt hq.le
  have heq : transverse Q o w =ᶠ[nhds z] fun t => bend (1 - o.OM - o.OL) (comoving o t) := by
    filter_upwards [lt_mem_nhds (show (-1 : ℝ) < z by linarith)] with t ht
    exact transverse_eq hQ hh w (by linarith)
  rw [transverse_eq hQ hh w (by norm_num : (1 : ℝ) + 0 ≠ 0), transverse_eq hQ hh w (by linarith : (1 : ℝ) + z ≠ 0)]
  set k := 1 - o.OM - o.OL with hk
  have h0 : comoving o 0 = 0 := by simp [comoving]
  refine ⟨by rw [h0]; simp [bend], ?_⟩
  rcases lt_trichotomy k 0 with hneg | hzero | hpos'
  · have hr : 0 < √|k| := Real.sqrt_pos.2 (abs_pos.2 hneg.ne)
    have hr2 : √|k| ^ 2 = -k := by rw [Real.sq_sqrt (abs_nonneg k), abs_of_neg hneg]
    have hlt : √|k| * comoving o z < Real.pi := by
      have := hcl (by linarith)
      rwa [abs_of_neg hneg, show -k = o.OM + o.OL - 1 by rw [hk]; ring]
    have hs : 0 < Real.sin (√|k| * comoving o z) := Real.sin_pos_of_pos_of_lt_pi (by positivity) hlt
    have hev : (fun t => bend k (comoving o t)) =ᶠ[nhds z] fun t => Real.sin (√|k| * comoving o t) / √|k| := by
      have hc : ContinuousAt (fun t => Real.sin (√|k| * comoving o t)) z := Real.continuous_sin.continuousAt.comp (continuousAt_const.mul hD.continuousAt)
      filter_upwards [hc.eventually (lt_mem_nhds hs)] with t ht
      simp only [bend, if_pos hneg]; rw [abs_of_pos ht]
    have hd : HasDerivAt (fun t => Real.sin (√|k| * comoving o t) / √|k|) (Real.cos (√|k| * comoving o z) * (√|k| * (1 / √(hubbleSq o z))) / √|k|) z :=
      ((hD.const_mul _).sin).div_const _
    refine ⟨by rw [hev.eq_of_nhds]; positivity, _, hd.congr_of_eventuallyEq (heq.trans hev), ?_, fun hle => by linarith⟩
    have e : bend k (comoving o z) = Real.sin (√|k| * comoving o z) / √|k| := hev.eq_of_nhds
    rw [e, div_pow (Real.sin _), hr2]
    have hsc := Real.sin_sq_add_cos_sq (√|k| * comoving o z)
    have e1 : (Real.cos (√|k| * comoving o z) * (√|k| * (1 / √(hubbleSq o z))) / √|k|) ^ 2 * hubbleSq o z = Real.cos (√|k| * comoving o z) ^ 2 := cancel_sq _ hr.ne' hE.ne' hE2
    rw [e1]
    have hk0 : k ≠ 0 := hneg.ne
    have e2 : k * (Real.sin (√|k| * comoving o z) ^ 2 / -k) = -Real.sin (√|k| * comoving o z) ^ 2 := by field_simp
    rw [e2]; linarith
  · have hev : (fun t => bend k (comoving o t)) = comoving o := by funext t; simp [bend, hzero]
    rw [hev] at heq
    have e : bend k (comoving o z) = comoving o z := congrFun hev z
    refine ⟨by rw [e]; exact hpos, _, hD.congr_of_eventuallyEq heq, ?_, fun _ => by positivity⟩
    rw [hzero]; field_simp; rw [hE2]; simp
  · have hr : 0 < √|k| := Real.sqrt_pos.2 (abs_pos.2 hpos'.ne')
    have hr2 : √|k| ^ 2 = k := by rw [Real.sq_sqrt (abs_nonneg k), abs_of_pos hpos']
    have hev : (fun t => bend k (comoving o t)) = fun t => Real.sinh (√|k| * comoving o t) / √|k| := by
      funext t; simp [bend, hpos', not_lt.2 hpos'.le]
    have e : bend k (comoving o z) = Real.sinh (√|k| * comoving o z) / √|k| := congrFun hev z
    rw [hev] at heq
    have hd : HasDerivAt (fun t => Real.sinh (√|k| * comoving o t) / √|k|) (Real.cosh (√|k| * comoving o z) * (√|k| * (1 / √(hubbleSq o z))) / √|k|) z :=
      ((hD.const_mul _).sinh).div_const _
    have hsh : 0 < Real.sinh (√|k| * comoving o z) := Real.sinh_pos_iff.2 (by positivity)
    refine ⟨by rw [e]; positivity, _, hd.congr_of_eventuallyEq heq, ?_, fun _ => by have := Real.cosh_pos (√|k| * comoving o z); positivity⟩
    rw [e, div_pow (Real.sinh _), hr2]
    have hsc := Real.cosh_sq (√|k| * comoving o z)
    have e1 : (Real.cosh (√|k| * comoving o z) * (√|k| * (1 / √(hubbleSq o z))) / √|k|) ^ 2 * hubbleSq o z = Real.cosh (√|k| * comoving o z) ^ 2 := cancel_sq _ hr.ne' hE.ne' hE2
    rw [e1, hsc]
    field_simp
    ring

/-- The hypotheses are met: a closed universe without cosmological constant, at redshift 1. -/
example : ∀ t ∈ Icc (0 : ℝ) 1, 0 < hubbleSq ⟨1, 2, 0⟩ t := by
  intro t ht
  have e : hubbleSq ⟨1, 2, 0⟩ t = (1 + t) ^ 2 * (1 + 2 * t) := by simp only [hubbleSq]; ring
  rw [e]; have := ht.1; positivity

/-- The inverse of a'(t)/H0 in terms of the scale factor a: the textbook integrand of the age. -/
def ageSpec (o : Obj) (a : ℝ) : ℝ := 1 / √(o.OM / a + (1 - o.OM - o.OL) + o.OL * a ^ 2)

/-- The denominator of the age integrand. -/
def aden (o : Obj) (a : ℝ) : ℝ := o.OM + a * ((1 - o.OM - o.OL) + a ^ 2 * o.OL)

theorem aden_eq (o : Obj) {a : ℝ} (ha : a ≠ 0) : aden o a = a ^ 3 * hubbleSq o (1 / a - 1) := by
  simp only [aden, hubbleSq]; field_simp; ring

theorem ageSpec_eq (o : Obj) {a : ℝ} (ha : 0 < a) : ageSpec o a = √(a / aden o a) := by
  have e : a / aden o a = (o.OM / a + (1 - o.OM - o.OL) + o.OL * a ^ 2)⁻¹ := by
    have : o.OM / a + (1 - o.OM - o.OL) + o.OL * a ^ 2 = aden o a / a := by
      simp only [aden]; field_simp; ring
    rw [this, inv_div]
  rw [ageSpec, e, Real.sqrt_inv, one_div]

theorem aden_pos {o : Obj} {z a : ℝ} (h : ∀ t ∈ Icc 0 z, 0 < hubbleSq o t) (ha : 0 < a) (ha1 : a ≤ 1) (hz : 1 / (1 + z) ≤ a) (hz0 : 0 ≤ z) : 0 < aden o a := by
  rw [aden_eq o ha.ne']
  refine mul_pos (by positivity) (h _ ⟨by rw [sub_nonneg, le_div_iff₀ ha]; linarith, ?_⟩)
  rw [sub_le_iff_le_add, div_le_iff₀ ha]
  rw [div_le_iff₀ (by linarith)] at hz
  linarith

theorem lbt_age {o : Obj} {z : ℝ} (hz : 0 ≤ z) (h : ∀ t ∈ Icc 0 z, 0 < hubbleSq o t) :
    ∫ t in (0 : ℝ)..z, 1 / ((1 + t) * √(hubbleSq o t)) = ∫ a in (1 / (1 + z))..1, √(a / aden o a) := by
  have key := intervalIntegral.integral_comp_mul_deriv'' (a := 0) (b := z) (f := fun t : ℝ => 1 / (1 + t)) (f' := fun t => -1 / (1 + t) ^ 2) (g := fun a => √(a / aden o a))
    (by
      intro t ht
      rw [uIcc_of_le hz] at ht
      exact (ContinuousAt.div continuousAt_const (by fun_prop) (by linarith [ht.1])).continuousWithinAt)
    (by
      intro t ht
      rw [min_eq_left hz] at ht
      have h1 : (1 : ℝ) + t ≠ 0 := by linarith [ht.1]
      have := ((hasDerivAt_id t).const_add 1).inv h1
      simp only [id] at this
      exact (this.congr_of_eventuallyEq (Filter.Eventually.of_forall fun x => by simp)).hasDerivWithinAt)
    (by
      intro t ht
      rw [uIcc_of_le hz] at ht
      have h1 : (1 : ℝ) + t ≠ 0 := by linarith [ht.1]
      exact (ContinuousAt.div continuousAt_const (by fun_prop) (by positivity)).continuousWithinAt)
    (by
      rintro a ⟨t, ht, rfl⟩
      rw [uIcc_of_le hz] at ht
      have h1 : (0 : ℝ) < 1 + t := by linarith [ht.1]
      have hp : 0 < aden o (1 / (1 + t)) := aden_pos h (by positivity) (by rw [div_le_one h1]; linarith [ht.1])
        (one_div_le_one_div_of_le h1 (by linarith [ht.2])) hz
      have hc : Continuous (aden o) := by unfold aden; fun_prop
      exact ((continuousAt_id.div hc.continuousAt hp.ne').sqrt).continuousWithinAt)
  simp only [add_zero, div_one] at key
  rw [intervalIntegral.integral_symm (1 : ℝ) (1 / (1 + z)), ← key, ← intervalIntegral.integral_neg]
  refine intervalIntegral.integral_congr fun t ht => ?_
  rw [uIcc_of_le hz] at ht
  have h1 : (0 : ℝ) < 1 + t := by linarith [ht.1]
  have hq := h t ht
  have e : 1 / (1 + t) / aden o (1 / (1 + t)) = (1 + t) ^ 2 / hubbleSq o t := by
    rw [aden_eq o (by positivity), show 1 / (1 / (1 + t)) - 1 = t by field_simp; ring]
    field_simp
  simp only [Function.comp]
  rw [e, Real.sqrt_div (by positivity), Real.sqrt_sq h1.le]
  have := (Real.sqrt_pos.2 hq).ne'
  field_simp

/-- C158, times: with exact quadrature, the lookback time (in Hubble times) is the time the scale factor took from 1/(1+z) to 1; and with some matter and an expansion since the big bang, the age is the lookback time to any redshift and the age then. -/
theorem C158_times (Q : Quad) (hQ : ∀ f a b, Q f a b = ∫ x in a..b, f x) (o : Obj) (w : World) (z : ℝ) (hz : 0 ≤ z) :
    ((∀ t ∈ Icc 0 z, 0 < hubbleSq o t) → (o.dlbt Q z w).2 = ∫ a in (1 / (1 + z))..1, ageSpec o a) ∧
    (0 < o.OM → (∀ t, 0 ≤ t → 0 < hubbleSq o t) → (o.dage Q w).2 = some ((o.dlbt Q z w).2 + ∫ a in (0 : ℝ)..(1 / (1 + z)), ageSpec o a)) := by
  have hb : (0 : ℝ) < 1 / (1 + z) := by positivity
  have hb1 : 1 / (1 + z) ≤ (1 : ℝ) := by rw [div_le_one (by linarith)]; linarith
  have hl : (o.dlbt Q z w).2 = ∫ t in (0 : ℝ)..z, 1 / ((1 + t) * √(hubbleSq o t)) := by
    simp only [Obj.dlbt, dlbtF]
    rw [hQ]
    congr 1; funext t
    rw [lbtIg, ← ig_eq o w t]
    congr 3
    simp only [setFrw]; ring
  constructor
  · intro h
    rw [hl, lbt_age hz h]
    refine intervalIntegral.integral_congr fun a ha => ?_
    rw [uIcc_of_le hb1] at ha
    exact (ageSpec_eq o (hb.trans_le ha.1)).symm
  · intro hM h
    have hp : ∀ a, 0 ≤ a → a ≤ 1 → 0 < aden o a := by
      intro a ha ha1
      rcases ha.eq_or_lt with rfl | ha
      · simpa [aden] using hM
      · have hle : (1 : ℝ) ≤ 1 / a := by rw [le_div_iff₀ ha]; linarith
        exact aden_pos (z := 1 / a - 1) (fun t ht => h t ht.1) ha ha1 (by simp) (by linarith)
    have hden : ∀ a, (setFrw o.h o.OM o.OL w).frw.OM + a * ((setFrw o.h o.OM o.OL w).frw.Ok + a ^ 2 * (setFrw o.h o.OM o.OL w).frw.OL) = aden o a := fun a => rfl
    have hig : ∀ a, 0 ≤ a → a ≤ 1 → ageIg (setFrw o.h o.OM o.OL w).frw a = some √(a / aden o a) := by
      intro a ha ha1
      simp only [ageIg, hden]
      rw [if_neg (hp a ha ha1).ne']
    have hda : (o.dage Q w).2 = some (∫ a in (0 : ℝ)..1, √(a / aden o a)) := by
      simp only [Obj.dage, dageF]
      rw [hig 0 le_rfl zero_le_one, hig 1 zero_le_one le_rfl]
      simp only []
      rw [hQ]
      congr 1
      refine intervalIntegral.integral_congr fun a ha => ?_
      rw [uIcc_of_le zero_le_one] at ha
      simp only [hig a ha.1 ha.2, Option.getD_some]
    have hc : Continuous (aden o) := by unfold aden; fun_prop
    have hint : ∀ x y, 0 ≤ x → x ≤ y → y ≤ 1 → IntervalIntegrable (fun a => √(a / aden o a)) volume x y := by
      intro x y hx hxy hy
      refine ContinuousOn.intervalIntegrable fun a ha => ?_
      rw [uIcc_of_le hxy] at ha
      exact ((continuousAt_id.div hc.continuousAt (hp a (hx.trans ha.1) (ha.2.trans hy)).ne').sqrt).continuousWithinAt
    rw [hda, hl, lbt_age hz (fun t ht => h t ht.1), ← intervalIntegral.integral_add_adjacent_intervals (hint 0 (1 / (1 + z)) le_rfl hb.le hb1) (hint _ 1 hb.le hb1 le_rfl), add_comm]
    congr 2
    rw [intervalIntegral.integral_of_le hb.le, intervalIntegral.integral_of_le hb.le]
    exact setIntegral_congr_fun measurableSet_Ioc fun a ha => (ageSpec_eq o ha.1).symm

/-- The hypotheses are met: the flat universe with 30% matter. -/
example : (0 : ℝ) < (⟨1, 3 / 10, 7 / 10⟩ : Obj).OM ∧ ∀ t, 0 ≤ t → 0 < hubbleSq ⟨1, 3 / 10, 7 / 10⟩ t := by
  refine ⟨by norm_num, fun t ht => ?_⟩
  simp only [hubbleSq]
  have : (0 : ℝ) < (1 + t) ^ 3 := by positivity
  have : (0 : ℝ) ≤ (1 + t) ^ 2 := by positivity
  linarith

/-- C158 fails: without matter the age is never a number, whatever the quadrature: the integrand is 0/0 at the start.  For the empty universe the age is exactly one Hubble time. -/
theorem C158_violated_age (Q : Quad) (h OL : ℝ) (w : World) : (Obj.dage Q ⟨h, 0, OL⟩ w).2 = none ∧ ∫ a in (0 : ℝ)..1, ageSpec ⟨h, 0, 0⟩ a = 1 := by
  constructor
  · simp [Obj.dage, dageF, ageIg, setFrw]
  · simp [ageSpec]

/-- The comoving volume per steradian and unit redshift, in cubic Mpc. -/
def comovingVol (Q : Quad) (o : Obj) (w : World) (z : ℝ) : ℝ := hubbleDist o ^ 3 * transverse Q o w z ^ 2 / √(hubbleSq o z)

/-- C158, volumes (partial: the factor is wrong): with exact quadrature `vol_elem` is (c/H0)^3 M(z)^2/E(z), the comoving volume per steradian and unit redshift, up to a factor that depends on h only.
Missing: the factor itself (`C158_violated_volume`). -/
theorem C158_volume_partial (Q : Quad) (hQ : ∀ f a b, Q f a b = ∫ x in a..b, f x) (o : Obj) (hh : 0 < o.h) (w : World) (z : ℝ) (hz : 0 ≤ z) :
    (o.volElem Q z w).2 = 100000 / hubbleDist o ^ 2 * comovingVol Q o w z := by
  have e : (o.volElem Q z w).2 = 299792458 / o.h * bend (1 - o.OM - o.OL) (comoving o z) ^ 2 / √(hubbleSq o z) := by
    simp only [Obj.volElem, volF]
    rw [hQ, ddIg_eq]
    rw [show ((setFrw o.h o.OM o.OL w).frw.OM * (1 + z) + (setFrw o.h o.OM o.OL w).frw.Ok) * (1 + z) ^ 2 + (setFrw o.h o.OM o.OL w).frw.OL = hubbleSq o z from ig_eq o w z]
    rfl
  rw [e, comovingVol, transverse_eq hQ hh w (by linarith), hubbleDist]
  have := hh.ne'
  field_simp

theorem deSitter_sq (h t : ℝ) : hubbleSq ⟨h, 0, 1⟩ t = 1 := by simp [hubbleSq]

theorem deSitter_comoving (h z : ℝ) : comoving ⟨h, 0, 1⟩ z = z := by simp [comoving, deSitter_sq]

/-- C158 fails: the volume is inversely proportional to h, not to its cube: for h = 1/2 it is a quarter of what it should be relative to h = 1, whatever the rest. -/
theorem C158_violated_volume (Q : Quad) (hQ : ∀ f a b, Q f a b = ∫ x in a..b, f x) (w : World) :
    (∀ h OM OL z, (Obj.volElem Q ⟨h / 2, OM, OL⟩ z w).2 = 2 * (Obj.volElem Q ⟨h, OM, OL⟩ z w).2) ∧
    (∀ h OM OL z, 0 < h → 0 ≤ z → comovingVol Q ⟨h / 2, OM, OL⟩ w z = 8 * comovingVol Q ⟨h, OM, OL⟩ w z) ∧
    0 < (Obj.volElem Q ⟨1, 0, 1⟩ 1 w).2 := by
  refine ⟨fun h OM OL z => ?_, fun h OM OL z hh hz => ?_, ?_⟩
  · have e : ddIg (setFrw (h / 2) OM OL w).frw = ddIg (setFrw h OM OL w).frw := rfl
    simp only [Obj.volElem, volF, e]
    have e3 : (setFrw (h / 2) OM OL w).frw.ch = 2 * (setFrw h OM OL w).frw.ch := by simp only [setFrw]; ring
    have e4 : (setFrw (h / 2) OM OL w).frw.Ok = (setFrw h OM OL w).frw.Ok := rfl
    have e5 : (setFrw (h / 2) OM OL w).frw.rtOk = (setFrw h OM OL w).frw.rtOk := rfl
    have e6 : (setFrw (h / 2) OM OL w).frw.OM = (setFrw h OM OL w).frw.OM := rfl
    have e7 : (setFrw (h / 2) OM OL w).frw.OL = (setFrw h OM OL w).frw.OL := rfl
    rw [e3, e4, e5, e6, e7]
    rw [mul_assoc, mul_div_assoc]
  · have e : comoving ⟨h / 2, OM, OL⟩ z = comoving ⟨h, OM, OL⟩ z := rfl
    have e2 : hubbleSq ⟨h / 2, OM, OL⟩ z = hubbleSq ⟨h, OM, OL⟩ z := rfl
    rw [comovingVol, comovingVol, transverse_eq hQ (o := ⟨h / 2, OM, OL⟩) (half_pos hh) w (by linarith), transverse_eq hQ (o := ⟨h, OM, OL⟩) hh w (by linarith), e, e2]
    simp only [hubbleDist]
    field_simp
    norm_num [mul_comm]
  · rw [C158_volume_partial Q hQ _ (by norm_num) w 1 zero_le_one, comovingVol, transverse_eq hQ (by norm_num) w (by norm_num), deSitter_sq, deSitter_comoving]
    norm_num [bend, hubbleDist]

/-! ## C159 -/

/-- The object whose cosmology a call sets, if any. -/
def Call.cosmos : Call → Option Obj
  | .ldist o _ | .ldistV o _ | .mu o _ | .muV o _ | .volElem o _ | .dlbt o _ | .dage o => some o
  | .std .. | .setLum .. | .flux2z .. => none

theorem run_frw_some {Q : Quad} {sgl : ℝ → ℝ} {fuel : ℕ} {w : World} {c : Call} {o : Obj} (h : c.cosmos = some o) : (c.run Q sgl fuel w).frw = (setFrw o.h o.OM o.OL w).frw := by
  cases c <;> simp only [Call.cosmos, Option.some.injEq, reduceCtorEq] at h <;> subst h <;> rfl

theorem run_frw_none {Q : Quad} {sgl : ℝ → ℝ} {fuel : ℕ} {w : World} {c : Call} (h : c.cosmos = none) : (c.run Q sgl fuel w).frw = w.frw := by
  cases c <;> simp only [Call.cosmos, reduceCtorEq] at h
  · rfl
  · rfl
  · rename_i s F
    simp only [Call.run, Std.flux2z]
    cases s.lum with
    | none => rfl
    | some l =>
      simp only []
      split <;> rfl

theorem history_frw {Q : Quad} {sgl : ℝ → ℝ} {fuel : ℕ} {rest : List Call} (h : ∀ d ∈ rest, d.cosmos = none) : ∀ w, (history Q sgl fuel w rest).frw = w.frw := by
  induction rest with
  | nil => intro w; rfl
  | cons d rest ih =>
    intro w
    show (history Q sgl fuel (d.run Q sgl fuel w) rest).frw = _
    rw [ih (fun e he => h e (List.mem_cons_of_mem _ he)), run_frw_none (h d List.mem_cons_self)]

theorem last_frw {Q : Quad} {sgl : ℝ → ℝ} {fuel : ℕ} (w : World) (cs rest : List Call) {c : Call} {o : Obj} (hc : c.cosmos = some o) (h : ∀ d ∈ rest, d.cosmos = none) :
    (history Q sgl fuel w (cs ++ c :: rest)).frw = (setFrw o.h o.OM o.OL w).frw := by
  have e : history Q sgl fuel w (cs ++ c :: rest) = history Q sgl fuel (c.run Q sgl fuel (history Q sgl fuel w cs)) rest := by
    simp [history]
  rw [e, history_frw h, run_frw_some hc]
  rfl

theorem newton_spec {I E sgl : ℝ → ℝ} {x : ℝ} : ∀ {fuel : ℕ} {z r : ℝ}, 0 ≤ z → newton I E sgl x fuel z = some r → 0 ≤ r ∧ |x - (1 + r) * I r| ≤ tolF * x := by
  intro fuel
  induction fuel with
  | zero => intro z r _ h; simp [newton] at h
  | succ n ih =>
    intro z r hz h
    simp only [newton] at h
    by_cases hc : tolF * x < |x - (1 + z) * I z|
    · rw [if_pos hc] at h
      refine ih ?_ h
      split_ifs with h0
      · linarith
      · exact not_lt.1 h0
    · rw [if_neg hc, Option.some.injEq] at h
      subst h
      exact ⟨hz, not_lt.1 hc⟩

theorem start_nonneg {x : ℝ} (hx : 0 ≤ x) : 0 ≤ -1 / 2 + 1 / 2 * √(1 + 4 * x) := by
  have : 1 ≤ √(1 + 4 * x) := Real.one_le_sqrt.2 (by linarith)
  linarith

/-- What a value returned means, whatever was called before. -/
theorem flux2z_value {Q : Quad} {sgl : ℝ → ℝ} {fuel : ℕ} {s : Std} {F l z : ℝ} {w : World} (hl : s.lum = some l) (h : (s.flux2z Q sgl fuel F w).2 = .value z) :
    0 ≤ z ∧ |√(l * s.ffid / F) - (1 + z) * Q (ddIg w.frw) 0 z| ≤ tolF * √(l * s.ffid / F) := by
  simp only [Std.flux2z, hl] at h
  split at h
  · rename_i z' hz'
    simp only [FluxOut.value.injEq] at h
    subst h
    exact newton_spec (start_nonneg (Real.sqrt_nonneg _)) hz'
  · simp at h

theorem tolF_le : tolF ≤ 10001 / 100000000 := by norm_num [tolF]

/-- C159 (partial: for flat universes only, and if the last call that used a cosmology used the same one): whatever was called before, a value returned by `flux2z` is a redshift at which `ldist`, in Hubble distances, is the square root of luminosity times fiducial flux over flux, to one part in ten thousand; and without a luminosity an exception is raised.
Missing: curved universes and other cosmologies used last (`C159_violated_curved`,
`C159_violated_stale`). -/
theorem C159_flux2z_partial (Q : Quad) (sgl : ℝ → ℝ) (fuel : ℕ) (s : Std) (F : ℝ) (w : World) (cs rest : List Call) (c : Call) (o : Obj) (hc : c.cosmos = some o) (hrest : ∀ d ∈ rest, d.cosmos = none)
    (hM : o.OM = s.cos.OM) (hL : o.OL = s.cos.OL) (hflat : s.cos.OM + s.cos.OL = 1) (hh : 0 < s.cos.h) :
    (s.lum = none → (s.flux2z Q sgl fuel F (history Q sgl fuel w (cs ++ c :: rest))).2 = .attribute) ∧
    ∀ l z, s.lum = some l → (s.flux2z Q sgl fuel F (history Q sgl fuel w (cs ++ c :: rest))).2 = .value z →
      0 ≤ z ∧ |(s.cos.ldist Q z w).2 / hubbleDist s.cos - √(l * s.ffid / F)| ≤ 10001 / 100000000 * √(l * s.ffid / F) := by
  constructor
  · intro hl; simp [Std.flux2z, hl]
  · intro l z hl h
    have h := flux2z_value hl h
    rw [last_frw w cs rest hc hrest] at h
    have hk : (setFrw s.cos.h s.cos.OM s.cos.OL w).frw.Ok = 0 := by simp only [setFrw]; linarith
    have e : (s.cos.ldist Q z w).2 / hubbleDist s.cos = (1 + z) * Q (ddIg (setFrw o.h o.OM o.OL w).frw) 0 z := by
      have e1 : ddIg (setFrw s.cos.h s.cos.OM s.cos.OL w).frw = ddIg (setFrw o.h o.OM o.OL w).frw := by
        rw [hM, hL]; rfl
      simp only [Obj.ldist, ldistF, curve, hk, lt_irrefl, if_false]
      rw [e1, hubbleDist]
      have := hh.ne'
      simp only [setFrw]
      field_simp
    rw [e, abs_sub_comm]
    exact ⟨h.1, h.2.trans (mul_le_mul_of_nonneg_right tolF_le (Real.sqrt_nonneg _))⟩

/-- A standard candle in the de Sitter universe. -/
def candle : Std := ⟨⟨1, 0, 1⟩, 1, some 1⟩

theorem candle_x : √(1 * candle.ffid / (1 / 4)) = 2 := by
  rw [show (1 * candle.ffid / (1 / 4) : ℝ) = 2 ^ 2 by norm_num [candle], Real.sqrt_sq (by norm_num)]

theorem candle_value (Q : Quad) (hQ : ∀ f a b, Q f a b = ∫ x in a..b, f x) (sgl : ℝ → ℝ) (n : ℕ) (w : World) (hw : w.frw = (setFrw 1 0 1 w).frw) :
    (candle.flux2z Q sgl (n + 1) (1 / 4) w).2 = .value 1 := by
  have e : flux2zF Q sgl (n + 1) ⟨w.frw, candle.ffid, 1⟩ (1 / 4) = some 1 := by
    simp only [flux2zF]
    rw [candle_x, show (1 : ℝ) + 4 * 2 = 3 ^ 2 by norm_num, Real.sqrt_sq (by norm_num), show (-1 / 2 + 1 / 2 * 3 : ℝ) = 1 by norm_num]
    have hI : coordInt Q w.frw 1 = 1 := by
      rw [coordInt, hw, hQ]
      have := deSitter_comoving 1 1
      rw [comoving] at this
      rw [show ddIg (setFrw 1 0 1 w).frw = fun t => 1 / √(hubbleSq ⟨1, 0, 1⟩ t) from ddIg_eq ⟨1, 0, 1⟩ w]
      exact this
    simp only [newton, hI]
    rw [if_neg]
    norm_num [tolF]
  have e' : flux2zF Q sgl (n + 1) { { w with ffid := candle.ffid } with lam := 1 } (1 / 4) = some 1 := e
  simp only [Std.flux2z, show candle.lum = some 1 from rfl, e']

/-- The hypotheses of C159 are met, with a value returned. -/
example (Q : Quad) (hQ : ∀ f a b, Q f a b = ∫ x in a..b, f x) (sgl : ℝ → ℝ) (n : ℕ) (w : World) :
    (candle.flux2z Q sgl (n + 1) (1 / 4) (history Q sgl (n + 1) w ([] ++ .dage ⟨1, 0, 1⟩ :: []))).2 = .value 1 :=
  candle_value Q hQ sgl n _ rfl

theorem milne_int (w : World) (h : ℝ) {z : ℝ} (hz : 0 ≤ z) : ∫ t in (0 : ℝ)..z, ddIg (setFrw h 0 0 w).frw t = Real.log (1 + z) := by
  have e : ∫ t in (0 : ℝ)..z, ddIg (setFrw h 0 0 w).frw t = ∫ t in (0 : ℝ)..z, (1 + t)⁻¹ := by
    refine intervalIntegral.integral_congr fun t ht => ?_
    rw [uIcc_of_le hz] at ht
    simp only [ddIg, setFrw]
    rw [show (0 * (1 + t) + (1 - 0 - 0)) * (1 + t) ^ 2 + 0 = (1 + t) ^ 2 by ring, Real.sqrt_sq (by linarith [ht.1]), one_div]
  rw [e, intervalIntegral.integral_comp_add_left (fun t => t⁻¹) 1, integral_inv_of_pos (by norm_num) (by linarith)]
  simp

theorem xlog_le {z b c : ℝ} (hz : 0 ≤ z) (hb : 1 + z ≤ 2 * b) (hc : b = 1 + c) : (1 + z) * Real.log (1 + z) ≤ 2 * b * (0.6931471808 + c) := by
  have h1 : Real.log (1 + z) ≤ Real.log 2 + Real.log b := by
    rw [← Real.log_mul (by norm_num) (by nlinarith)]
    exact Real.log_le_log (by linarith) hb
  have h2 : Real.log b ≤ c := by
    have := Real.log_le_sub_one_of_pos (show 0 < b by linarith)
    linarith
  have h3 := Real.log_two_lt_d9
  have h0 : 0 ≤ Real.log (1 + z) := Real.log_nonneg (by linarith)
  exact mul_le_mul hb (by linarith) h0 (by linarith)

/-- C159 fails: the cosmology used is that of the last call on any object.  With exact quadrature, a candle in the de Sitter universe of flux 1/4 is at redshift 1, and that is what `flux2z` returns after a call with this cosmology; but after a call with an object for the empty universe it returns no value below 1.2, however long it runs. -/
theorem C159_violated_stale (Q : Quad) (hQ : ∀ f a b, Q f a b = ∫ x in a..b, f x) (sgl : ℝ → ℝ) (n : ℕ) (w : World) :
    (candle.cos.ldist Q 1 w).2 / hubbleDist candle.cos = √(1 * candle.ffid / (1 / 4)) ∧
    (candle.flux2z Q sgl (n + 1) (1 / 4) (candle.cos.ldist Q 1 w).1).2 = .value 1 ∧
    ∀ r, (candle.flux2z Q sgl (n + 1) (1 / 4) (Obj.ldist Q ⟨1, 0, 0⟩ 1 (candle.cos.ldist Q 1 w).1).1).2 = .value r → 6 / 5 < r := by
  refine ⟨?_, candle_value Q hQ sgl n _ rfl, ?_⟩
  · have := transverse_eq hQ (o := candle.cos) (by norm_num [candle]) w (z := 1) (by norm_num)
    rw [transverse, show comoving candle.cos 1 = 1 from deSitter_comoving 1 1] at this
    rw [candle_x]
    have hb : bend (1 - candle.cos.OM - candle.cos.OL) 1 = 1 := by simp [bend, candle]
    rw [hb] at this
    linarith
  · intro r hr
    by_contra hlt
    obtain ⟨h0, h1⟩ := flux2z_value (show candle.lum = some 1 from rfl) hr
    rw [candle_x, hQ] at h1
    have e : ∫ t in (0 : ℝ)..r, ddIg (Obj.ldist Q ⟨1, 0, 0⟩ 1 (candle.cos.ldist Q 1 w).1).1.frw t = Real.log (1 + r) := milne_int _ 1 h0
    rw [e] at h1
    have := xlog_le h0 (b := 1.1) (c := 0.1) (by linarith) (by norm_num)
    have h2 := (abs_le.1 h1).2
    have h3 := tolF_le
    linarith

/-- C159 fails: curvature is ignored.  In the empty universe, which is open, a candle at redshift 1 is at 3/2 Hubble distances; asked for a flux with that distance, and the cosmology being the right one, `flux2z` returns no value below 1.05. -/
theorem C159_violated_curved (Q : Quad) (hQ : ∀ f a b, Q f a b = ∫ x in a..b, f x) (sgl : ℝ → ℝ) (fuel : ℕ) (w : World) (s : Std) (hs : s = ⟨⟨1, 0, 0⟩, 1, some 1⟩) :
    (s.cos.ldist Q 1 w).2 / hubbleDist s.cos = √(1 * s.ffid / (4 / 9)) ∧
    ∀ r, (s.flux2z Q sgl fuel (4 / 9) (s.cos.ldist Q 1 w).1).2 = .value r → 21 / 20 < r := by
  subst hs
  have hx : √(1 * (1 : ℝ) / (4 / 9)) = 3 / 2 := by
    rw [show (1 * 1 / (4 / 9) : ℝ) = (3 / 2) ^ 2 by norm_num, Real.sqrt_sq (by norm_num)]
  constructor
  · have := transverse_eq hQ (o := ⟨1, 0, 0⟩) (by norm_num) w (z := 1) (by norm_num)
    have hc : comoving ⟨1, 0, 0⟩ 1 = Real.log (1 + 1) := by
      rw [← milne_int w 1 zero_le_one]
      exact congrArg (fun f => ∫ t in (0 : ℝ)..1, f t) (ddIg_eq ⟨1, 0, 0⟩ w).symm
    rw [hc, transverse] at this
    have hb : bend (1 - (⟨1, 0, 0⟩ : Obj).OM - (⟨1, 0, 0⟩ : Obj).OL) (Real.log (1 + 1)) = 3 / 4 := by
      simp only [bend]
      rw [if_neg (by norm_num), if_pos (by norm_num), show |(1 : ℝ) - 0 - 0| = 1 by norm_num, Real.sqrt_one, one_mul, div_one, Real.sinh_eq, Real.exp_neg, Real.exp_log (by norm_num)]
      norm_num
    rw [hb] at this
    simp only [] at this ⊢
    rw [hx]
    linarith
  · intro r hr
    by_contra hlt
    obtain ⟨h0, h1⟩ := flux2z_value (l := 1) rfl hr
    rw [hQ] at h1
    have e : ∫ t in (0 : ℝ)..r, ddIg (Obj.ldist Q ⟨1, 0, 0⟩ 1 w).1.frw t = Real.log (1 + r) := milne_int _ 1 h0
    simp only [hx, e] at h1
    have := xlog_le h0 (b := 1.025) (c := 0.025) (by linarith) (by norm_num)
    have h2 := (abs_le.1 h1).2
    have h3 := tolF_le
    linarith

end Verif.Cosmo
