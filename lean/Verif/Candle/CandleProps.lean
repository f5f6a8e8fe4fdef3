import Verif.Candle.Candle
import Verif.Spatial.RateProps

/-!
# Properties C186-C190: bursts in a matter-dominated cosmology
-/

set_option linter.unusedSectionVars false

noncomputable section

namespace Verif.Candle

open Real intervalIntegral Set

/-! ## C186: the distance -/

/-- The numerator of the distance, with `s` the root of 1 + Omega z. -/
theorem numer {om z s : ℝ} (hs : s ^ 2 = 1 + om * z) : z * (om / 2) + (1 - om / 2) * (1 - s) = (s - 1) * (s - 1 + om) / 2 := by
  linear_combination (-1 / 2) * hs

/-- C186: the distance is zero at redshift zero and positive beyond. -/
theorem C186_positive {c h om z : ℝ} (hc : 0 < c) (hh : 0 < h) (ho : 0 < om) : dProp c h om 0 = 0 ∧ (0 < z → 0 < dProp c h om z) := by
  constructor
  · simp [dProp]
  · intro hz
    have hs : √(1 + om * z) ^ 2 = 1 + om * z := sq_sqrt (by positivity)
    have h1 : 1 < √(1 + om * z) := by
      refine lt_sqrt_of_sq_lt ?_
      have := mul_pos ho hz
      linarith
    simp only [dProp]
    rw [numer hs]
    have : 0 < √(1 + om * z) - 1 := by linarith
    positivity

/-- The derivative of the distance as `scdR_dOdC` computes it, before division by the distance. -/
def slopeD (c h om z : ℝ) : ℝ := c / (h * (om / 2) ^ 2 * (1 + z)) * (om / 2 - om / 2 * (1 - om / 2) / √(om * z + 1) - (z * (om / 2) + (1 - om / 2) * (1 - √(om * z + 1))) / (1 + z))

theorem dProp_deriv {c h om z : ℝ} (hh : 0 < h) (ho : 0 < om) (hz : 0 ≤ z) : HasDerivAt (dProp c h om) (slopeD c h om z) z := by
  have hp : 0 < 1 + om * z := by positivity
  have hz1 : 0 < 1 + z := by linarith
  have hr : HasDerivAt (fun t : ℝ => √(1 + om * t)) (om / (2 * √(1 + om * z))) z := by
    have : HasDerivAt (fun t : ℝ => 1 + om * t) om z := by simpa using ((hasDerivAt_id z).const_mul om).const_add 1
    exact this.sqrt hp.ne'
  have hn : HasDerivAt (fun t : ℝ => c * (t * (om / 2) + (1 - om / 2) * (1 - √(1 + om * t)))) (c * (om / 2 + (1 - om / 2) * (-(om / (2 * √(1 + om * z)))))) z := by
    have h1 : HasDerivAt (fun t : ℝ => t * (om / 2)) (om / 2) z := by simpa using (hasDerivAt_id z).mul_const (om / 2)
    have h2 := (hr.const_sub 1).const_mul (1 - om / 2)
    exact (h1.add h2).const_mul c
  have hd : HasDerivAt (fun t : ℝ => h * (om / 2) ^ 2 * (1 + t)) (h * (om / 2) ^ 2) z := by
    simpa using ((hasDerivAt_id z).const_add 1).const_mul (h * (om / 2) ^ 2)
  have hq := hn.div hd (by positivity)
  refine hq.congr_deriv ?_
  rw [slopeD, add_comm (om * z) 1]
  have hs : √(1 + om * z) ≠ 0 := (sqrt_pos.2 hp).ne'
  field_simp
  ring

/-- C186: the distance is the transverse comoving distance of a matter-dominated universe: (dD/dz) (1+z) √(1+Ωz) = √(1 + (1-Ω) D²), with D in units of c/H. -/
theorem C186_friedmann {c h om z : ℝ} (hc : 0 < c) (hh : 0 < h) (ho : 0 < om) (hz : 0 ≤ z) :
    ∃ d', HasDerivAt (dProp c h om) d' z ∧ (h / c * d' * ((1 + z) * √(1 + om * z))) ^ 2 = 1 + (1 - om) * (h / c * dProp c h om z) ^ 2 := by
  refine ⟨_, dProp_deriv hh ho hz, ?_⟩
  have hp : 0 < 1 + om * z := by positivity
  have hs : √(1 + om * z) ^ 2 = 1 + om * z := sq_sqrt hp.le
  have hs0 : 0 < √(1 + om * z) := sqrt_pos.2 hp
  simp only [slopeD, dProp, add_comm (om * z) 1]
  rw [numer hs]
  set s := √(1 + om * z)
  have hz' : z = (s ^ 2 - 1) / om := by rw [hs]; field_simp; ring
  have hz1 : 1 + z = (s ^ 2 - 1 + om) / om := by rw [hz']; field_simp; ring
  have hm : 0 < s ^ 2 - 1 + om := by
    have : 0 < (1 + z) * om := mul_pos (by linarith) ho
    rw [hz1] at this; field_simp at this; exact this
  rw [hz1]
  field_simp
  ring

/-- C186: the logarithmic derivative of the distance in `scdR_dOdC` is that of `d_prop`. -/
theorem C186_slope {c h om z : ℝ} (hc : 0 < c) (hh : 0 < h) (ho : 0 < om) (hz : 0 < z) : HasDerivAt (dProp c h om) (dProp c h om z * dD c h om z) z := by
  have hd := ((C186_positive (z := z) hc hh ho).2 hz).ne'
  refine (dProp_deriv hh ho hz.le).congr_deriv ?_
  rw [dD]
  rw [mul_div_cancel₀ _ hd, slopeD]

/-- C186: for critical density the distance is that of Einstein and de Sitter, 2c/H (1 - 1/√(1+z)). -/
theorem C186_flat {c h z : ℝ} (hh : 0 < h) (hz : 0 ≤ z) : dProp c h 1 z = 2 * c / h * (1 - 1 / √(1 + z)) := by
  have hp : 0 < 1 + z := by linarith
  have hs : √(1 + z) ^ 2 = 1 + z := sq_sqrt hp.le
  have hs0 : √(1 + z) ≠ 0 := (sqrt_pos.2 hp).ne'
  simp only [dProp]
  rw [one_mul, numer (by rw [hs, one_mul])]
  rw [← hs]
  rw [sqrt_sq (sqrt_nonneg _)]
  field_simp
  ring

/-! ## C187: the fraction of the spectrum -/

/-- The integral of a power law. -/
theorem powInt {a b p : ℝ} (ha : 0 < a) (h : a ≤ b) : ∫ e in a..b, e ^ (-p) = if p = 1 then log (b / a) else b ^ (1 - p) * ((b / a) ^ (p - 1) - 1) / (p - 1) := by
  have hb : 0 < b := ha.trans_le h
  have h0 : (0 : ℝ) ∉ uIcc a b := by
    rw [uIcc_of_le h]; exact fun hh => absurd hh.1 (not_le.2 ha)
  split_ifs with hp
  · subst hp
    simp only [rpow_neg_one]
    rw [integral_inv h0]
  · rw [integral_rpow (Or.inr ⟨fun hh => hp (by linarith), h0⟩)]
    have hp1 : p - 1 ≠ 0 := sub_ne_zero.2 hp
    have e1 : b ^ (1 - p) * (b / a) ^ (p - 1) = a ^ (1 - p) := by
      rw [div_rpow hb.le ha.le, show 1 - p = -(p - 1) by ring, rpow_neg hb.le, rpow_neg ha.le]
      have := (rpow_pos_of_pos hb (p - 1)).ne'
      field_simp
    rw [mul_sub, e1, mul_one, show -p + 1 = -(p - 1) by ring, div_neg, ← neg_div, show 1 - p = -(p - 1) by ring]
    ring

/-- Specification: the fraction of the photons of a spectrum `E^-alpha` between `el` and `eu` that are received between `e1` and `e2` after a redshift `z`. -/
def fraction (alpha el eu e1 e2 z : ℝ) : ℝ :=
  if min (e2 * (1 + z)) eu ≤ max (e1 * (1 + z)) el then 0
  else (∫ e in (max (e1 * (1 + z)) el)..(min (e2 * (1 + z)) eu), e ^ (-alpha)) / ∫ e in el..eu, e ^ (-alpha)

theorem fSpec_eq {alpha el eu e1 e2 z : ℝ} (hel : 0 < el) (heu : el < eu) (he2 : 0 < e2) (hz : 0 ≤ z) :
    fSpec alpha el eu e1 e2 z = fraction alpha el eu e1 e2 z * if alpha = 1 then 1 else (max (e2 * (1 + z) / eu) 1) ^ (1 - alpha) := by
  have hu : 0 < eu := hel.trans heu
  have hz1 : 0 < 1 + z := by linarith
  have x1 : max (e1 * ((1 + z) / eu)) (el / eu) = max (e1 * (1 + z)) el / eu := by
    rw [← mul_div_assoc, max_div_div_right hu.le]
  have x2 : min (e2 * ((1 + z) / eu)) 1 = min (e2 * (1 + z)) eu / eu := by
    rw [← mul_div_assoc, ← min_div_div_right hu.le, div_self hu.ne']
  simp only [fSpec, fraction, x1, x2]
  set a := max (e1 * (1 + z)) el with ha
  set b := min (e2 * (1 + z)) eu with hb
  have ha0 : 0 < a := hel.trans_le (le_max_right _ _)
  have hcond : b / eu ≤ a / eu ↔ b ≤ a := div_le_div_iff_of_pos_right hu
  by_cases hba : b ≤ a
  · rw [if_pos (hcond.2 hba), if_pos hba, zero_mul]
  · rw [if_neg (fun hh => hba (hcond.1 hh)), if_neg hba]
    push Not at hba
    have hb0 : 0 < b := ha0.trans hba
    have hrat : b / eu / (a / eu) = b / a := by field_simp
    rw [hrat, powInt ha0 hba.le, powInt hel heu.le]
    by_cases hp : alpha = 1
    · rw [if_pos hp, if_pos hp, if_pos hp, if_pos hp, specK, if_neg (not_not.2 hp)]; ring
    · rw [if_neg hp, if_neg hp, if_neg hp, if_neg hp, specK, if_pos hp]
      have hp1 : alpha - 1 ≠ 0 := sub_ne_zero.2 hp
      have hne : (eu / el) ^ (alpha - 1) - 1 ≠ 0 := by
        have h1 : 1 < eu / el := (one_lt_div hel).2 heu
        rcases lt_or_gt_of_ne hp with hp' | hp'
        · exact (sub_neg.2 (rpow_lt_one_of_one_lt_of_neg h1 (by linarith))).ne
        · exact (sub_pos.2 (one_lt_rpow h1 (by linarith))).ne'
      have key : (e2 / eu) ^ (1 - alpha) * (1 + z) ^ (1 - alpha) = b ^ (1 - alpha) / eu ^ (1 - alpha) * (max (e2 * (1 + z) / eu) 1) ^ (1 - alpha) := by
        rw [← mul_rpow (by positivity) hz1.le, ← div_rpow hb0.le hu.le, ← mul_rpow (by positivity) (by positivity)]
        congr 1
        rw [hb]
        rcases le_total (e2 * (1 + z)) eu with h | h
        · rw [min_eq_left h, max_eq_right ((div_le_one hu).2 h)]; ring
        · rw [min_eq_right h, max_eq_left ((one_le_div hu).2 h)]; field_simp
      have hE : eu ^ (1 - alpha) ≠ 0 := (rpow_pos_of_pos hu _).ne'
      have : (e2 / eu) ^ (1 - alpha) / ((eu / el) ^ (alpha - 1) - 1) * ((b / a) ^ (alpha - 1) - 1) * (1 + z) ^ (1 - alpha) =
          ((e2 / eu) ^ (1 - alpha) * (1 + z) ^ (1 - alpha)) * ((b / a) ^ (alpha - 1) - 1) / ((eu / el) ^ (alpha - 1) - 1) := by ring
      rw [this, key]
      field_simp

/-- C187: `F_spec` is the fraction of the spectrum received by the detector, if the index is 1 or the upper cutoff of the spectrum is not below the upper limit of the detector.

Missing: larger redshifts (`C187_violated_cutoff`). -/
theorem C187_fraction_partial {alpha el eu e1 e2 z : ℝ} (hel : 0 < el) (heu : el < eu) (he2 : 0 < e2) (hz : 0 ≤ z) (h : alpha = 1 ∨ e2 * (1 + z) ≤ eu) :
    fSpec alpha el eu e1 e2 z = fraction alpha el eu e1 e2 z := by
  rw [fSpec_eq hel heu he2 hz]
  split_ifs with hp
  · rw [mul_one]
  · rw [max_eq_right ((div_le_one (hel.trans heu)).2 (h.resolve_left hp)), one_rpow, mul_one]

/-- C187: a fraction is between 0 and 1. -/
theorem C187_bounds {alpha el eu e1 e2 z : ℝ} (hel : 0 < el) (heu : el < eu) : 0 ≤ fraction alpha el eu e1 e2 z ∧ fraction alpha el eu e1 e2 z ≤ 1 := by
  rw [fraction]
  split_ifs with h
  · exact ⟨le_rfl, zero_le_one⟩
  · push Not at h
    set a := max (e1 * (1 + z)) el
    set b := min (e2 * (1 + z)) eu
    have ha : el ≤ a := le_max_right _ _
    have hb : b ≤ eu := min_le_right _ _
    have hpos : ∀ e ∈ Icc el eu, 0 ≤ e ^ (-alpha) := fun e he => rpow_nonneg (hel.le.trans he.1) _
    have hcont : ContinuousOn (fun e : ℝ => e ^ (-alpha)) (Icc el eu) := continuousOn_id.rpow_const fun e he => Or.inl (hel.trans_le he.1).ne'
    have i0 : 0 ≤ ∫ e in a..b, e ^ (-alpha) := integral_nonneg h.le fun e he => hpos e ⟨ha.trans he.1, he.2.trans hb⟩
    have ic : ∀ x y, el ≤ x → x ≤ y → y ≤ eu → IntervalIntegrable (fun e : ℝ => e ^ (-alpha)) MeasureTheory.volume x y := fun x y h1 h2 h3 =>
      (hcont.mono (by rw [uIcc_of_le h2]; exact Icc_subset_Icc h1 h3)).intervalIntegrable
    have i1 : 0 ≤ ∫ e in el..a, e ^ (-alpha) := integral_nonneg ha fun e he => hpos e ⟨he.1, he.2.trans (h.le.trans hb)⟩
    have i2 : 0 ≤ ∫ e in b..eu, e ^ (-alpha) := integral_nonneg hb fun e he => hpos e ⟨(ha.trans h.le).trans he.1, he.2⟩
    have s1 := integral_add_adjacent_intervals (ic el a le_rfl ha (h.le.trans hb)) (ic a b ha h.le hb)
    have s2 := integral_add_adjacent_intervals (ic el b le_rfl (ha.trans h.le) hb) (ic b eu (ha.trans h.le) hb le_rfl)
    refine ⟨div_nonneg i0 (by linarith), div_le_one_of_le₀ (by linarith) (by linarith)⟩

/-- C187 fails when the upper cutoff of the spectrum has been redshifted into the range of the detector: for index 2, a spectrum from 1 to 4, a detector from 1 to 2 and redshift 2 it is 2/27 instead of 1/9. -/
theorem C187_violated_cutoff : fSpec 2 1 4 1 2 2 = 2 / 27 ∧ fraction 2 1 4 1 2 2 = 1 / 9 := by
  constructor
  · simp only [fSpec, specK]; norm_num
  · rw [fraction, if_neg (by norm_num), powInt (by norm_num) (by norm_num), powInt (by norm_num) (by norm_num)]
    norm_num

/-! ## C188: the luminosity function and the rate per redshift -/

/-- The luminosity function. -/
def lum (p nu a n : ℝ) : ℝ := a * (n / nu) ^ (-p) / nu

theorem lum_integral {p nu a n1 : ℝ} (h1 : 0 < n1) (h : n1 ≤ nu) : ∫ n in n1..nu, lum p nu a n = if p = 1 then a * log (nu / n1) else a * ((n1 / nu) ^ (1 - p) - 1) / (p - 1) := by
  have hu : 0 < nu := h1.trans_le h
  have e : ∫ n in n1..nu, lum p nu a n = ∫ n in n1..nu, (a * nu ^ p / nu) * n ^ (-p) := by
    refine integral_congr fun n hn => ?_
    rw [uIcc_of_le h] at hn
    have hn0 : 0 < n := h1.trans_le hn.1
    rw [lum, div_rpow hn0.le hu.le, rpow_neg hu.le p]
    have := (rpow_pos_of_pos hu p).ne'
    field_simp
  rw [e, integral_const_mul, powInt h1 h]
  have hup : nu ^ p ≠ 0 := (rpow_pos_of_pos hu p).ne'
  split_ifs with hp
  · subst hp; rw [rpow_one]; field_simp
  · have hp1 : p - 1 ≠ 0 := sub_ne_zero.2 hp
    have e1 : nu ^ p * nu ^ (1 - p) = nu := by rw [← rpow_add hu]; simp
    have e2 : (n1 / nu) ^ (1 - p) = (nu / n1) ^ (p - 1) := by
      rw [show 1 - p = -(p - 1) by ring, rpow_neg (by positivity), ← inv_rpow (by positivity), inv_div]
    rw [e2]
    field_simp
    linear_combination a * ((nu / n1) ^ (p - 1) - 1) * e1

/-- C188: `set_lfun` normalises the luminosity function, for every slope. -/
theorem C188_norm {c pi4 h f0 p nu ratio : ℝ} (hr : 1 < ratio) (hn : 0 < nu * pi4 * c ^ 2 / (h ^ 2 * f0)) :
    let q := setLfun c pi4 h f0 p nu ratio
    ∫ n in q.1..q.2.1, lum p q.2.1 q.2.2 n = 1 := by
  intro q
  have hr0 : 0 < ratio := by linarith
  have h1 : q.1 = q.2.1 / ratio := rfl
  have h2 : 0 < q.2.1 := hn
  rw [h1, lum_integral (by positivity) (div_le_self h2.le hr.le)]
  have ha : q.2.2 = if p ≠ 1 then (p - 1) / (ratio ^ (p - 1) - 1) else 1 / log ratio := rfl
  have e1 : q.2.1 / (q.2.1 / ratio) = ratio := by field_simp
  have e2 : q.2.1 / ratio / q.2.1 = ratio⁻¹ := by field_simp
  rw [e1, e2, ha]
  split_ifs with hp hq
  · exact absurd hp hq
  · have := (log_pos hr).ne'
    field_simp
  · have hp1 : p - 1 ≠ 0 := sub_ne_zero.2 hp
    rw [inv_rpow hr0.le, ← rpow_neg hr0.le, show -(1 - p) = p - 1 by ring]
    have hne : ratio ^ (p - 1) - 1 ≠ 0 := by
      rcases lt_or_gt_of_ne hp with hp' | hp'
      · exact (sub_neg.2 (rpow_lt_one_of_one_lt_of_neg hr (by linarith))).ne
      · exact (sub_pos.2 (one_lt_rpow hr (by linarith))).ne'
    field_simp

/-- The luminosity of a burst seen at rate `cc` from redshift `z`. -/
def ndotOf (pi4 cc z d f : ℝ) : ℝ := pi4 * d ^ 2 * (1 + z) * cc / f

/-- C188: `cdR_dz` is the volume and time factor times the fraction of bursts with luminosities for which they are seen above the limit, for slopes other than 1.

Missing: slope 1 (`C188_violated_one`). -/
theorem C188_rate_partial {c pi4 h om p nl nu a n0 beta zcut cmin z d f : ℝ} (hf : f ≠ 0) (hp : p ≠ 1) (hcut : ¬ (zcut > 0 ∧ z > zcut)) (hl : 0 < nl) (hlu : nl ≤ nu) :
    cdRdz c pi4 h om p nl nu a n0 beta zcut cmin z d f =
      some ((if ndotOf pi4 cmin z d f > nu then 0 else ∫ n in (max nl (ndotOf pi4 cmin z d f))..nu, lum p nu a n) * (n0 * (pi4 * d ^ 2) * c / ((1 + z) ^ (beta + 2) * √(1 + om * z) * h))) := by
  simp only [cdRdz]
  rw [if_neg hcut, if_neg hf]
  have hN : pi4 * d ^ 2 * (1 + z) * cmin / f = ndotOf pi4 cmin z d f := rfl
  rw [hN]
  by_cases h1 : ndotOf pi4 cmin z d f > nu
  · rw [if_pos h1, if_pos h1, zero_mul]
  · rw [if_neg h1, if_neg h1, if_neg (sub_ne_zero.2 hp)]
    rw [lum_integral (hl.trans_le (le_max_left _ _)) (max_le hlu (not_lt.1 h1)), if_neg hp]
    congr 1
    ring

/-- C188 fails for slope 1, which `set_lfun` accepts: the rate is zero divided by zero for every redshift at which bursts are seen. -/
theorem C188_violated_one {c pi4 h om nl nu a n0 beta zcut cmin z d f : ℝ} (hcut : ¬ (zcut > 0 ∧ z > zcut)) (h1 : ndotOf pi4 cmin z d f ≤ nu) :
    cdRdz c pi4 h om 1 nl nu a n0 beta zcut cmin z d f = none := by
  simp only [cdRdz]
  rw [if_neg hcut]
  split_ifs with h2 h3 h4
  · rfl
  · exact absurd h3 (not_lt.2 h1)
  · rfl
  · exact absurd (sub_self 1) h4

/-- C188: the two rates agree: the rate per redshift falls with the limit as the integrand over redshift of the rate per count rate and solid angle says, times 4 pi. -/
theorem C188_consistent {c pi4 h om p nu a n0 beta cc z d f : ℝ} (hpi : 0 < pi4) (hz : 0 ≤ z) (hom : 0 < om) (hd : 0 < d) (hf : 0 < f) (hcc : 0 < cc) (hnu : 0 < nu) (hh : 0 < h) (hp : p ≠ 1) :
    HasDerivAt (fun t => a * ((ndotOf pi4 t z d f / nu) ^ (1 - p) - 1) / (p - 1) * (n0 * (pi4 * d ^ 2) * c / ((1 + z) ^ (beta + 2) * √(1 + om * z) * h)))
      (-(pi4 * (pi4 * n0 * intgd pi4 om p nu a beta cc z d f * c / h))) cc := by
  have hz1 : 0 < 1 + z := by linarith
  have hp1 : p - 1 ≠ 0 := sub_ne_zero.2 hp
  set k := pi4 * d ^ 2 * (1 + z) / f / nu with hk
  have hk0 : 0 < k := by positivity
  have e0 : ∀ t, ndotOf pi4 t z d f / nu = k * t := fun t => by rw [ndotOf, hk]; field_simp
  simp only [e0]
  have h1 : HasDerivAt (fun t : ℝ => (k * t) ^ (1 - p)) (k * (1 - p) * (k * cc) ^ (1 - p - 1)) cc := by
    have : HasDerivAt (fun t : ℝ => k * t) k cc := by simpa using (hasDerivAt_id cc).const_mul k
    exact this.rpow_const (Or.inl (by positivity))
  have h2 := ((h1.sub_const 1).const_mul a).div_const (p - 1)
  have h3 := h2.mul_const (n0 * (pi4 * d ^ 2) * c / ((1 + z) ^ (beta + 2) * √(1 + om * z) * h))
  refine h3.congr_deriv ?_
  have hs : 0 < √(1 + om * z) := sqrt_pos.2 (by positivity)
  have eb : (1 + z) ^ (beta + 2) = (1 + z) ^ 2 / (1 + z) ^ (-beta) := by
    rw [rpow_add hz1, rpow_neg hz1.le]; norm_num; ring
  have hb : 0 < (1 + z) ^ (-beta) := rpow_pos_of_pos hz1 _
  have en : pi4 * (d * d) * (1 + z) * cc / f / nu = k * cc := by rw [hk]; field_simp
  simp only [intgd]
  rw [en, show 1 - p - 1 = -p by ring, eb]
  set P := (k * cc) ^ (-p)
  rw [hk]
  field_simp
  ring

/-! ## C189: rates per count rate and solid angle -/

theorem zInt_eq {g : ℝ → ℝ} {slope z1 z2 : ℝ} (h0 : 0 < z1) (h : z1 ≤ z2) (hg : ContinuousOn g (Icc z1 z2)) : zInt g slope z1 z2 = ∫ z in z1..z2, g z := by
  have hp : 1 - powOf slope ≠ 0 := by
    rw [powOf]
    split_ifs with hh
    · norm_num
    · exact sub_ne_zero.2 (Ne.symm hh)
  rw [← Verif.Spatial.changed hp h0 h hg]
  simp only [zInt]
  rw [← integral_div]
  refine integral_congr fun y _ => ?_
  rw [sub_sub_cancel]

/-- C189: the rate is 4 pi n0 c/H times the integral over the range of redshifts, whatever slopes were found for the change of variables and wherever the range is split. -/
theorem C189_rate {c pi4 h n0 z1 z2 zm : ℝ} {g : ℝ → ℝ} {slope : ℝ → ℝ → ℝ} (h0 : 0 < z1) (hg : ContinuousOn g (Icc z1 z2)) :
    cdRdOdC c pi4 h n0 g slope z1 z2 zm = if z2 ≤ z1 then 0 else pi4 * n0 * c / h * ∫ z in z1..z2, g z := by
  simp only [cdRdOdC]
  by_cases h : z2 ≤ z1
  · rw [if_pos h, if_pos h]
  · rw [if_neg h, if_neg h]
    push Not at h
    by_cases hm : zm > z1 ∧ zm < z2
    · simp only [if_pos hm, if_pos (show z2 > zm from hm.2)]
      have c1 : ContinuousOn g (Icc z1 zm) := hg.mono (Icc_subset_Icc_right hm.2.le)
      have c2 : ContinuousOn g (Icc zm z2) := hg.mono (Icc_subset_Icc_left hm.1.le)
      rw [zInt_eq h0 hm.1.le c1, zInt_eq (h0.trans hm.1) hm.2.le c2]
      rw [integral_add_adjacent_intervals (ContinuousOn.intervalIntegrable (by rwa [uIcc_of_le hm.1.le])) (ContinuousOn.intervalIntegrable (by rwa [uIcc_of_le hm.2.le]))]
      ring
    · simp only [if_neg hm, if_neg (show ¬ (0 : ℝ) > z2 from by linarith)]
      rw [zInt_eq h0 h.le hg]
      ring

/-- Below the cutoff the fraction is a power of 1 + z. -/
theorem fSpec_below {alpha el eu e1 e2 z : ℝ} (hel : 0 < el) (heu : el < eu) (he : el ≤ e1) (he12 : e1 < e2) (hz : 0 ≤ z) (h : e2 * (1 + z) ≤ eu) :
    fSpec alpha el eu e1 e2 z = if alpha = 1 then specK alpha el eu e2 * log (e2 / e1) else specK alpha el eu e2 * ((e2 / e1) ^ (alpha - 1) - 1) * (1 + z) ^ (1 - alpha) := by
  have hu : 0 < eu := hel.trans heu
  have hz1 : 0 < 1 + z := by linarith
  have h1 : 0 < e1 := hel.trans_le he
  have x1 : max (e1 * ((1 + z) / eu)) (el / eu) = e1 * ((1 + z) / eu) := by
    refine max_eq_left ?_
    rw [← mul_div_assoc, div_le_div_iff_of_pos_right hu]
    nlinarith
  have x2 : min (e2 * ((1 + z) / eu)) 1 = e2 * ((1 + z) / eu) := by
    refine min_eq_left ?_
    rw [← mul_div_assoc]; exact (div_le_one hu).2 h
  have hr : e2 * ((1 + z) / eu) / (e1 * ((1 + z) / eu)) = e2 / e1 := by field_simp
  simp only [fSpec, x1, x2, hr]
  rw [if_neg]
  rw [not_le]
  exact mul_lt_mul_of_pos_right he12 (by positivity)

/-- Above the cutoff, for index 1. -/
theorem fSpec_above {el eu e1 e2 z : ℝ} (hel : 0 < el) (heu : el < eu) (he : el ≤ e1) (hz : 0 ≤ z) (h : eu ≤ e2 * (1 + z)) (h' : e1 * (1 + z) < eu) :
    fSpec 1 el eu e1 e2 z = specK 1 el eu e2 * log (eu / (e1 * (1 + z))) := by
  have hu : 0 < eu := hel.trans heu
  have hz1 : 0 < 1 + z := by linarith
  have h1 : 0 < e1 := hel.trans_le he
  have x1 : max (e1 * ((1 + z) / eu)) (el / eu) = e1 * (1 + z) / eu := by
    rw [← mul_div_assoc]
    refine max_eq_left ?_
    rw [div_le_div_iff_of_pos_right hu]
    nlinarith
  have x2 : min (e2 * ((1 + z) / eu)) 1 = 1 := by
    refine min_eq_right ?_
    rw [← mul_div_assoc]; exact (one_le_div hu).2 h
  simp only [fSpec, x1, x2]
  rw [if_neg (not_le.2 ((div_lt_one hu).2 h')), if_pos trivial, one_div_div]

/-- C189: the logarithmic derivative of the fraction of the spectrum used for standard candles is that of `F_spec` below the cutoff, and above it for index 1.

Missing: other indices above the cutoff (`C189_violated_slope`). -/
theorem C189_slope_partial {alpha el eu e1 e2 z : ℝ} (hel : 0 < el) (heu : el < eu) (he : el ≤ e1) (he12 : e1 < e2) (hz : 0 < z)
    (h : e2 * (1 + z) < eu ∨ (alpha = 1 ∧ eu < e2 * (1 + z) ∧ e1 * (1 + z) < eu)) :
    HasDerivAt (fSpec alpha el eu e1 e2) (fSpec alpha el eu e1 e2 z * dF alpha eu e1 e2 z) z := by
  have hz1 : 0 < 1 + z := by linarith
  have h1 : 0 < e1 := hel.trans_le he
  have h2 : 0 < e2 := h1.trans he12
  have d1 : HasDerivAt (fun t : ℝ => 1 + t) 1 z := by simpa using (hasDerivAt_id z).const_add 1
  have near0 : ∀ᶠ t in nhds z, 0 < t := lt_mem_nhds hz
  rcases h with h | ⟨rfl, h, h'⟩
  · have near : ∀ᶠ t in nhds z, e2 * (1 + t) < eu := ((continuous_const.mul (continuous_const.add continuous_id)).tendsto z).eventually (gt_mem_nhds h)
    have hcond : ¬ (1 + z > eu / e2) := by rw [gt_iff_lt, div_lt_iff₀ h2]; linarith
    by_cases hp : alpha = 1
    · have ev : fSpec alpha el eu e1 e2 =ᶠ[nhds z] fun _ => specK alpha el eu e2 * log (e2 / e1) := by
        filter_upwards [near, near0] with t ht ht0
        rw [fSpec_below hel heu he he12 ht0.le ht.le, if_pos hp]
      refine (HasDerivAt.congr_of_eventuallyEq (hasDerivAt_const z _) ev).congr_deriv ?_
      simp only [dF, if_neg hcond, hp]; simp
    · have ev : fSpec alpha el eu e1 e2 =ᶠ[nhds z] fun t => specK alpha el eu e2 * ((e2 / e1) ^ (alpha - 1) - 1) * (1 + t) ^ (1 - alpha) := by
        filter_upwards [near, near0] with t ht ht0
        rw [fSpec_below hel heu he he12 ht0.le ht.le, if_neg hp]
      have hd := (d1.rpow_const (p := 1 - alpha) (Or.inl hz1.ne')).const_mul (specK alpha el eu e2 * ((e2 / e1) ^ (alpha - 1) - 1))
      refine (hd.congr_of_eventuallyEq ev).congr_deriv ?_
      simp only [dF, if_neg hcond, if_pos (show alpha ≠ 1 from hp)]
      rw [fSpec_below hel heu he he12 hz.le h.le, if_neg hp, rpow_sub_one hz1.ne']
      field_simp
  · have near : ∀ᶠ t in nhds z, eu < e2 * (1 + t) := ((continuous_const.mul (continuous_const.add continuous_id)).tendsto z).eventually (lt_mem_nhds h)
    have near' : ∀ᶠ t in nhds z, e1 * (1 + t) < eu := ((continuous_const.mul (continuous_const.add continuous_id)).tendsto z).eventually (gt_mem_nhds h')
    have hcond : 1 + z > eu / e2 := by rw [gt_iff_lt, div_lt_iff₀ h2]; linarith
    have ev : fSpec 1 el eu e1 e2 =ᶠ[nhds z] fun t => specK 1 el eu e2 * log (eu / (e1 * (1 + t))) := by
      filter_upwards [near, near', near0] with t ht ht' ht0
      exact fSpec_above hel heu he ht0.le ht.le ht'
    have hu : 0 < eu := hel.trans heu
    have hq : HasDerivAt (fun t : ℝ => eu / (e1 * (1 + t))) (-(eu / (e1 * (1 + z)) / (1 + z))) z := by
      have := ((d1.const_mul e1).inv (by positivity : e1 * (1 + z) ≠ 0)).const_mul eu
      refine this.congr_deriv ?_
      field_simp
    have hl := (hq.log (by positivity)).const_mul (specK 1 el eu e2)
    refine (hl.congr_of_eventuallyEq ev).congr_deriv ?_
    have hlog : log (eu / (e1 * (1 + z))) ≠ 0 := (log_pos ((one_lt_div (by positivity)).2 h')).ne'
    simp only [dF, if_pos hcond]
    rw [fSpec_above hel heu he hz.le h.le h']
    simp only [ne_eq, not_true_eq_false, if_false]
    field_simp

/-- C189: so the Jacobian is the derivative of the count rate of a standard candle with respect to redshift. -/
theorem C189_jacobian {pi4 c h om ndot z lF : ℝ} {f : ℝ → ℝ} (hpi : 0 < pi4) (hc : 0 < c) (hh : 0 < h) (ho : 0 < om) (hz : 0 < z) (hn : 0 < ndot) (hf : 0 < f z) (hF : HasDerivAt f (f z * lF) z) :
    ∃ c', HasDerivAt (fun t => ndot * f t / (pi4 * dProp c h om t ^ 2 * (1 + t))) c' z ∧ |c'| = dCdz pi4 ndot z (dProp c h om z) (f z) lF (dD c h om z) := by
  have hd := (C186_positive (z := z) hc hh ho).2 hz
  have hz1 : 0 < 1 + z := by linarith
  have d1 : HasDerivAt (fun t : ℝ => 1 + t) 1 z := by simpa using (hasDerivAt_id z).const_add 1
  have dden := ((C186_slope hc hh ho hz).pow 2).const_mul pi4 |>.mul d1
  have dq := (hF.const_mul ndot).div dden (by simp only [Pi.mul_apply, Pi.pow_apply]; positivity)
  refine ⟨ndot * f z / (pi4 * dProp c h om z ^ 2 * (1 + z)) * (lF - 2 * dD c h om z - 1 / (1 + z)), dq.congr_deriv ?_, ?_⟩
  · simp only [Pi.mul_apply, Pi.pow_apply]
    push_cast
    field_simp
    ring
  · rw [dCdz, abs_mul, abs_of_pos (by positivity)]

/-- C189: and the rate of standard candles per count rate and solid angle is their rate per redshift divided by the Jacobian and 4 pi. -/
theorem C189_candle {c pi4 h om n0 beta zcut ndot cmin z d f jac : ℝ} (hpi : 0 < pi4) (hz : 0 < z) (hs : cmin ≤ ndot * f / (pi4 * d ^ 2 * (1 + z))) :
    scdRdOdC c h om n0 beta zcut z d jac = scdRdz c pi4 h om n0 beta zcut ndot cmin z d f / jac / pi4 := by
  simp only [scdRdOdC, scdRdz]
  rw [if_neg hz.ne']
  split_ifs with h1 h2
  · simp
  · exact absurd h2 (not_lt.2 hs)
  · field_simp

/-- C189 fails above the cutoff for indices other than 1: for the spectrum and detector of `C187_violated_cutoff` the logarithmic derivative used at redshift 2 is -1, while that of `F_spec` is -5/3. -/
theorem C189_violated_slope : dF 2 4 1 2 2 = -1 ∧ HasDerivAt (fSpec 2 1 4 1 2) (fSpec 2 1 4 1 2 2 * (-5 / 3)) 2 := by
  constructor
  · simp only [dF]; norm_num
  · have ev : fSpec 2 1 4 1 2 =ᶠ[nhds 2] fun t => 2 / 3 * (4 / (1 + t) - 1) / (1 + t) := by
      have n1 : ∀ᶠ t : ℝ in nhds 2, 1 < t := lt_mem_nhds (by norm_num)
      have n2 : ∀ᶠ t : ℝ in nhds 2, t < 3 := gt_mem_nhds (by norm_num)
      filter_upwards [n1, n2] with t h1 h2
      have x1 : max (1 * ((1 + t) / 4)) ((1 : ℝ) / 4) = (1 + t) / 4 := by rw [one_mul]; exact max_eq_left (by linarith)
      have x2 : min (2 * ((1 + t) / 4)) (1 : ℝ) = 1 := min_eq_right (by linarith)
      simp only [fSpec, x1, x2]
      rw [if_neg (by linarith), if_neg (by norm_num), specK, if_pos (by norm_num), show (1 : ℝ) - 2 = -1 by norm_num, show (2 : ℝ) - 1 = 1 by norm_num, rpow_one, rpow_one, rpow_neg_one, rpow_neg_one]
      have : 1 + t ≠ 0 := by linarith
      field_simp
      ring
    have d1 : HasDerivAt (fun t : ℝ => 1 + t) 1 2 := by simpa using (hasDerivAt_id (2 : ℝ)).const_add 1
    have i1 := ((((d1.inv (by norm_num)).const_mul 4).sub_const 1).const_mul (2 / 3)).div d1 (by norm_num)
    have i2 : HasDerivAt (fun t : ℝ => 2 / 3 * (4 / (1 + t) - 1) / (1 + t)) _ 2 := i1
    refine (i2.congr_of_eventuallyEq ev).congr_deriv ?_
    rw [C187_violated_cutoff.1]
    norm_num

/-! ## C190: the range of redshifts -/

/-- C190: a redshift that the iterations return puts the count rate of the luminosity in question within one part in 10000 of the one required, for every start and every number of iterations. -/
theorem C190_root {d f : ℝ → ℝ} {x zmax del : ℝ} {fuel : ℕ} {z0 z : ℝ} (h : newton d f x zmax del fuel z0 = some z) : |x - xOf d f z| ≤ 1 / 10000 * x := by
  induction fuel generalizing z0 with
  | zero => simp [newton] at h
  | succ n ih =>
      simp only [newton] at h
      split_ifs at h with h1 <;> first | exact ih h | (rw [← Option.some.inj h]; exact not_lt.1 h1)

/-- C190: in terms of luminosities: seen at the count rate `cc`, a burst at that redshift has the limiting luminosity to one part in 10000. -/
theorem C190_luminosity {d f : ℝ → ℝ} {pi4 n cc zmax del : ℝ} {fuel : ℕ} {z0 z : ℝ} (hpi : 0 < pi4) (hc : 0 < cc) (h : newton d f (n / (pi4 * cc)) zmax del fuel z0 = some z) :
    |n - ndotOf pi4 cc z (d z) (f z)| ≤ 1 / 10000 * n := by
  have h1 := C190_root h
  have e : n - ndotOf pi4 cc z (d z) (f z) = pi4 * cc * (n / (pi4 * cc) - xOf d f z) := by
    rw [ndotOf, xOf, mul_sub, mul_div_cancel₀ _ (by positivity : pi4 * cc ≠ 0)]; ring
  rw [e, abs_mul, abs_of_pos (by positivity : 0 < pi4 * cc)]
  have := mul_le_mul_of_nonneg_left h1 (by positivity : 0 ≤ pi4 * cc)
  have e2 : pi4 * cc * (1 / 10000 * (n / (pi4 * cc))) = 1 / 10000 * n := by field_simp
  linarith

/-- C190: the upper limit never exceeds a cutoff that is set, and is left alone below it. -/
theorem C190_cut {zcut z2 : ℝ} : (0 < zcut → cut zcut z2 ≤ zcut) ∧ cut zcut z2 ≤ z2 ∧ ((zcut ≤ 0 ∨ z2 ≤ zcut) → cut zcut z2 = z2) := by
  rw [cut]
  split_ifs with h
  · exact ⟨fun _ => le_rfl, h.2.le, fun hh => by rcases hh with hh | hh <;> [exact absurd h.1 (not_lt.2 hh); exact absurd h.2 (not_lt.2 hh)]⟩
  · push Not at h
    exact ⟨fun h0 => h h0, le_rfl, fun _ => rfl⟩

/-- C190: at a root the iterations stop at once. -/
theorem C190_stops {d f : ℝ → ℝ} {x zmax del z : ℝ} (hx : 0 ≤ x) (h : xOf d f z = x) (fuel : ℕ) : newton d f x zmax del (fuel + 1) z = some z := by
  simp only [newton]
  rw [if_neg]
  rw [h, sub_self, abs_zero, not_lt]; positivity

/-- A spectrum from 1 to 4 and a detector from 1 to 2 at redshift 1/2, index 2: below the cutoff. -/
example : (2 : ℝ) * (1 + 1 / 2) < 4 ∧ fSpec 2 1 4 1 2 (1 / 2) = 4 / 9 := by
  constructor
  · norm_num
  · rw [fSpec_below one_pos (by norm_num) le_rfl (by norm_num) (by norm_num) (by norm_num), if_neg (by norm_num), specK, if_pos (by norm_num), show (1 : ℝ) - 2 = -1 by norm_num, show (2 : ℝ) - 1 = 1 by norm_num, rpow_one, rpow_one, rpow_neg_one, rpow_neg_one]
    norm_num

end Verif.Candle
