import Verif.Cosmo.CosmoProps
import Mathlib.Analysis.Calculus.MeanValue
import Mathlib.Analysis.Calculus.Deriv.MeanValue

/-!
# Newton's method for convex functions
-/

set_option linter.unusedSectionVars false

noncomputable section

namespace Verif.Cosmo

open Set

theorem tangent_le {g g' : ℝ → ℝ} (hg : ∀ z, 0 ≤ z → HasDerivAt g (g' z) z) (hm : MonotoneOn g' (Ici 0)) {z w : ℝ} (hz : 0 ≤ z) (hw : 0 ≤ w) : g z + g' z * (w - z) ≤ g w := by
  rcases lt_trichotomy z w with h | rfl | h
  · obtain ⟨c, hc, e⟩ := exists_hasDerivAt_eq_slope g g' h (fun t ht => (hg t (hz.trans ht.1)).continuousAt.continuousWithinAt) (fun t ht => hg t (hz.trans ht.1.le))
    have h1 : g' z ≤ g' c := hm hz (hz.trans hc.1.le) hc.1.le
    rw [e, le_div_iff₀ (by linarith)] at h1
    linarith
  · simp
  · obtain ⟨c, hc, e⟩ := exists_hasDerivAt_eq_slope g g' h (fun t ht => (hg t (hw.trans ht.1)).continuousAt.continuousWithinAt) (fun t ht => hg t (hw.trans ht.1.le))
    have h1 : g' c ≤ g' z := hm (hw.trans hc.1.le) hz hc.2.le
    rw [e, div_le_iff₀ (by linarith)] at h1
    linarith

variable {I E : ℝ → ℝ} {x : ℝ}

theorem newton_right {g' : ℝ → ℝ} (hg : ∀ z, 0 ≤ z → HasDerivAt (fun z => (1 + z) * I z) (g' z) z) (hm : MonotoneOn g' (Ici 0)) (h1 : 1 ≤ g' 0) (hI : I 0 = 0)
    (hd : ∀ z, 0 ≤ z → I z + (1 + z) / E z = g' z) (hx : 0 < x) {B : ℝ} (hB : 0 ≤ B) :
    ∀ (n fuel : ℕ) (z : ℝ), n < fuel → 0 ≤ z → z ≤ B → x ≤ (1 + z) * I z → z ≤ n * (tolF * x / g' B) → ∃ r, newton I E id x fuel z = some r := by
  have hpos : ∀ z, 0 ≤ z → 0 < g' z := fun z hz => lt_of_lt_of_le one_pos (h1.trans (hm (mem_Ici.2 le_rfl) hz hz))
  have ht : 0 < tolF := by norm_num [tolF]
  intro n
  induction n with
  | zero =>
    intro fuel z _ hz _ hxz hn
    have : z = 0 := le_antisymm (by simpa using hn) hz
    subst this
    rw [hI] at hxz
    linarith
  | succ n ih =>
    intro fuel z hf hz hzB hxz hn
    obtain ⟨m, rfl⟩ : ∃ m, fuel = m + 1 := ⟨fuel - 1, by omega⟩
    simp only [newton, id]
    by_cases hc : tolF * x < |x - (1 + z) * I z|
    · rw [if_pos hc, hd z hz]
      rw [abs_of_nonpos (by linarith)] at hc
      have hp := hpos z hz
      have tan0 := tangent_le hg hm hz le_rfl
      simp only [hI, mul_zero] at tan0
      have hz' : 0 ≤ z + (x - (1 + z) * I z) / g' z := by
        have : 0 ≤ (z * g' z + (x - (1 + z) * I z)) / g' z := div_nonneg (by linarith) hp.le
        rwa [add_div, mul_div_cancel_right₀ _ hp.ne'] at this
      rw [if_neg (not_lt.2 hz')]
      have hle : z + (x - (1 + z) * I z) / g' z ≤ z - tolF * x / g' B := by
        have a1 : tolF * x / g' B ≤ tolF * x / g' z := div_le_div_of_nonneg_left (by positivity) hp (hm hz hB hzB)
        have a2 : (x - (1 + z) * I z) / g' z ≤ -(tolF * x) / g' z := div_le_div_of_nonneg_right (by linarith) hp.le
        rw [neg_div] at a2
        linarith
      have hdel : 0 < tolF * x / g' B := by have := hpos B hB; positivity
      refine ih m _ (by omega) hz' (by linarith) ?_ ?_
      · have tan := tangent_le hg hm hz hz'
        have e : g' z * (z + (x - (1 + z) * I z) / g' z - z) = x - (1 + z) * I z := by
          rw [add_sub_cancel_left, mul_div_cancel₀ _ hp.ne']
        rw [e] at tan
        linarith
      · push_cast at hn
        linarith
    · rw [if_neg hc]; exact ⟨_, rfl⟩

/-- Newton's method returns for a convex increasing function. -/
theorem newton_returns {g' : ℝ → ℝ} (hg : ∀ z, 0 ≤ z → HasDerivAt (fun z => (1 + z) * I z) (g' z) z) (hm : MonotoneOn g' (Ici 0)) (h1 : 1 ≤ g' 0) (hI : I 0 = 0)
    (hd : ∀ z, 0 ≤ z → I z + (1 + z) / E z = g' z) (hx : 0 < x) {z : ℝ} (hz : 0 ≤ z) : ∃ N, ∀ fuel, N ≤ fuel → ∃ r, newton I E id x fuel z = some r := by
  have hpos : ∀ z, 0 ≤ z → 0 < g' z := fun z hz => lt_of_lt_of_le one_pos (h1.trans (hm (mem_Ici.2 le_rfl) hz hz))
  have ht : 0 < tolF := by norm_num [tolF]
  have right : ∀ z, 0 ≤ z → x ≤ (1 + z) * I z → ∃ N, ∀ fuel, N ≤ fuel → ∃ r, newton I E id x fuel z = some r := by
    intro z hz hxz
    have hdel : 0 < tolF * x / g' z := by have := hpos z hz; positivity
    obtain ⟨n, hn⟩ := exists_nat_ge (z / (tolF * x / g' z))
    rw [div_le_iff₀ hdel] at hn
    exact ⟨n + 1, fun fuel hf => newton_right hg hm h1 hI hd hx hz n fuel z hf hz le_rfl hxz hn⟩
  rcases le_total x ((1 + z) * I z) with h | h
  · exact right z hz h
  · have hp := hpos z hz
    have hz' : 0 ≤ z + (x - (1 + z) * I z) / g' z := by
      have : 0 ≤ (x - (1 + z) * I z) / g' z := div_nonneg (by linarith) hp.le
      linarith
    have tan := tangent_le hg hm hz hz'
    have e : g' z * (z + (x - (1 + z) * I z) / g' z - z) = x - (1 + z) * I z := by
      rw [add_sub_cancel_left, mul_div_cancel₀ _ hp.ne']
    rw [e] at tan
    obtain ⟨N, hN⟩ := right _ hz' (by linarith)
    refine ⟨N + 1, fun fuel hf => ?_⟩
    obtain ⟨m, rfl⟩ : ∃ m, fuel = m + 1 := ⟨fuel - 1, by omega⟩
    simp only [newton, id]
    by_cases hc : tolF * x < |x - (1 + z) * I z|
    · rw [if_pos hc, hd z hz, if_neg (not_lt.2 hz')]
      exact hN m (by omega)
    · rw [if_neg hc]; exact ⟨_, rfl⟩

theorem hubbleSq_deriv (o : Obj) (z : ℝ) : HasDerivAt (hubbleSq o) (3 * o.OM * (1 + z) ^ 2 + 2 * (1 - o.OM - o.OL) * (1 + z)) z := by
  have h : HasDerivAt (fun z : ℝ => 1 + z) 1 z := by simpa using (hasDerivAt_id z).const_add 1
  have := (((h.pow 3).const_mul o.OM).add ((h.pow 2).const_mul (1 - o.OM - o.OL))).add_const o.OL
  exact this.congr_deriv (by push_cast; ring)

/-- The slope of the flat luminosity distance. -/
def lslope (o : Obj) (z : ℝ) : ℝ := comoving o z + (1 + z) / √(hubbleSq o z)

theorem lslope_mono {o : Obj} (hM : 0 ≤ o.OM) (hL : 0 ≤ o.OL) (hk : o.OM + o.OL ≤ 1) (hq : ∀ t, 0 ≤ t → 0 < hubbleSq o t) : MonotoneOn (lslope o) (Ici 0) := by
  have hd : ∀ z, 0 ≤ z → HasDerivAt (lslope o) (1 / √(hubbleSq o z) + (1 * √(hubbleSq o z) - (1 + z) * ((3 * o.OM * (1 + z) ^ 2 + 2 * (1 - o.OM - o.OL) * (1 + z)) / (2 * √(hubbleSq o z)))) / √(hubbleSq o z) ^ 2) z := by
    intro z hz
    have h : HasDerivAt (fun z : ℝ => 1 + z) 1 z := by simpa using (hasDerivAt_id z).const_add 1
    exact (comoving_deriv hz fun t ht => hq t ht.1).add (h.div ((hubbleSq_deriv o z).sqrt (hq z hz).ne') (Real.sqrt_pos.2 (hq z hz)).ne')
  refine monotoneOn_of_deriv_nonneg (convex_Ici 0) (fun z hz => (hd z hz).continuousAt.continuousWithinAt) (fun z hz => ?_) (fun z hz => ?_)
  · rw [interior_Ici] at hz
    exact (hd z (le_of_lt hz)).differentiableAt.differentiableWithinAt
  · rw [interior_Ici] at hz
    have hz : 0 ≤ z := le_of_lt hz
    rw [(hd z hz).deriv]
    have hs : 0 < √(hubbleSq o z) := Real.sqrt_pos.2 (hq z hz)
    have hs2 : √(hubbleSq o z) ^ 2 = hubbleSq o z := Real.sq_sqrt (hq z hz).le
    have e : 1 / √(hubbleSq o z) + (1 * √(hubbleSq o z) - (1 + z) * ((3 * o.OM * (1 + z) ^ 2 + 2 * (1 - o.OM - o.OL) * (1 + z)) / (2 * √(hubbleSq o z)))) / √(hubbleSq o z) ^ 2
        = (4 * √(hubbleSq o z) ^ 2 - (1 + z) * (3 * o.OM * (1 + z) ^ 2 + 2 * (1 - o.OM - o.OL) * (1 + z))) / (2 * √(hubbleSq o z) ^ 3) := by
      field_simp; ring
    rw [e, hs2]
    refine div_nonneg ?_ (by positivity)
    have e2 : 4 * hubbleSq o z - (1 + z) * (3 * o.OM * (1 + z) ^ 2 + 2 * (1 - o.OM - o.OL) * (1 + z)) = o.OM * (1 + z) ^ 3 + 2 * (1 - o.OM - o.OL) * (1 + z) ^ 2 + 4 * o.OL := by
      simp only [hubbleSq]; ring
    rw [e2]
    have : 0 ≤ 1 - o.OM - o.OL := by linarith
    positivity

end Verif.Cosmo
