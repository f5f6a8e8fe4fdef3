import Verif.Count.GammlnErr
import Mathlib.Analysis.SpecialFunctions.Gamma.BohrMollerup

/-!
# Accuracy of the log gamma function: the error for every real argument
-/

set_option linter.unusedSectionVars false

namespace Verif.OnOff.Lz

open Filter Topology

/-- The error of `gammln` at `z + n + 1`. -/
noncomputable def errR (z : ℝ) (n : ℕ) : ℝ := gammln (z + n + 1) - Real.log (Real.Gamma (z + n + 1))

theorem errR_succ {z : ℝ} (hz : 0 ≤ z) (n : ℕ) : errR z (n + 1) - errR z n = incr (z + n) := by
  have hp : (0 : ℝ) < z + n + 1 := by positivity
  have hg : Real.log (Real.Gamma (z + n + 1 + 1)) = Real.log (z + n + 1) + Real.log (Real.Gamma (z + n + 1)) := by
    rw [Real.Gamma_add_one hp.ne', Real.log_mul hp.ne' (Real.Gamma_pos_of_pos hp).ne']
  rw [← gammln_incr (show (0 : ℝ) ≤ z + n by positivity), errR, errR, Nat.cast_add_one, show z + ((n : ℝ) + 1) + 1 = z + n + 1 + 1 by ring, hg]
  ring

theorem ser_limR (z : ℝ) : Tendsto (fun n : ℕ => serLoop cof (z + n) 1) atTop (𝓝 1) := by
  have g : ∀ c : ℚ, ∀ k : ℝ, Tendsto (fun n : ℕ => (c : ℝ) / ((n : ℝ) + k)) atTop (𝓝 0) := fun c k =>
    (tendsto_atTop_add_const_right atTop k tendsto_natCast_atTop_atTop).const_div_atTop _
  have := ((((((tendsto_const_nhds (x := (1 : ℝ))).add (g 76.18009173 (z + 1))).add (g (-86.50532033) (z + 2))).add (g 24.01409822 (z + 3))).add (g (-1.231739516) (z + 4))).add (g 0.120858003e-2 (z + 5))).add (g (-0.536382e-5) (z + 6))
  simp only [add_zero] at this
  refine this.congr fun n => ?_
  simp only [cof, serLoop]
  rw [show z + n + 1 + 1 + 1 + 1 + 1 + 1 = n + (z + 6) by ring, show z + n + 1 + 1 + 1 + 1 + 1 = n + (z + 5) by ring, show z + n + 1 + 1 + 1 + 1 = n + (z + 4) by ring,
    show z + n + 1 + 1 + 1 = n + (z + 3) by ring, show z + n + 1 + 1 = n + (z + 2) by ring, show z + n + 1 = n + (z + 1) by ring]

theorem gamma_lim {z : ℝ} (hz : 0 < z) : Tendsto (fun n : ℕ => Real.log (Real.Gamma (z + n + 1)) - Real.log (n.factorial : ℝ) - z * Real.log n) atTop (𝓝 0) := by
  have h := (Real.BohrMollerup.tendsto_log_gamma hz).const_sub (Real.log (Real.Gamma z))
  rw [sub_self] at h
  refine h.congr fun n => ?_
  have e := Real.BohrMollerup.f_add_nat_eq (f := Real.log ∘ Real.Gamma) (fun {y} hy => by
    simp only [Function.comp]
    rw [Real.Gamma_add_one hy.ne', Real.log_mul hy.ne' (Real.Gamma_pos_of_pos hy).ne', add_comm]) hz (n + 1)
  simp only [Function.comp] at e
  rw [show z + n + 1 = z + ((n + 1 : ℕ) : ℝ) by push_cast; ring, e, Real.BohrMollerup.logGammaSeq]
  ring

theorem errR_lim {z : ℝ} (hz : 0 < z) : Tendsto (errR z) atTop (𝓝 errLim) := by
  have l1 : Tendsto (fun n : ℕ => (n : ℝ) * Real.log (1 + (z + 11 / 2) / n)) atTop (𝓝 (z + 11 / 2)) :=
    (Real.tendsto_mul_log_one_add_div_atTop (z + 11 / 2)).comp tendsto_natCast_atTop_atTop
  have l2 : Tendsto (fun n : ℕ => Real.log (1 + (z + 11 / 2) / (n : ℝ))) atTop (𝓝 0) := by
    have : Tendsto (fun n : ℕ => 1 + (z + 11 / 2) / (n : ℝ)) atTop (𝓝 (1 + 0)) :=
      tendsto_const_nhds.add (tendsto_natCast_atTop_atTop.const_div_atTop _)
    rw [add_zero] at this
    simpa using this.log (by norm_num)
  have l3 : Tendsto (fun n : ℕ => Real.log (serLoop cof (z + n) 1)) atTop (𝓝 0) := by
    simpa using (ser_limR z).log (by norm_num)
  have l4 : Tendsto (fun n : ℕ => Real.log (Stirling.stirlingSeq n)) atTop (𝓝 (Real.log (Real.sqrt Real.pi))) :=
    Stirling.tendsto_stirlingSeq_sqrt_pi.log (by positivity)
  have := ((((l1.add (l2.const_mul (z + 1 / 2))).add l3).sub l4).sub (gamma_lim hz)).add_const (Real.log stp - Real.log 2 / 2 - z - 11 / 2)
  have e : z + 11 / 2 + (z + 1 / 2) * (0 : ℝ) + 0 - Real.log (Real.sqrt Real.pi) - 0 + (Real.log stp - Real.log 2 / 2 - z - 11 / 2) = errLim := by
    rw [errLim]; ring
  rw [e] at this
  refine this.congr' ?_
  filter_upwards [eventually_ge_atTop 1] with n hn
  have hn' : (0 : ℝ) < n := by exact_mod_cast hn
  have s := Stirling.log_stirlingSeq_formula n
  rw [Real.log_mul (by norm_num) hn'.ne', Real.log_div hn'.ne' (Real.exp_pos 1).ne', Real.log_exp] at s
  have t : Real.log (1 + (z + 11 / 2) / (n : ℝ)) = Real.log (z + n + 11 / 2) - Real.log n := by
    rw [← Real.log_div (by positivity) hn'.ne']; congr 1; field_simp; ring
  rw [errR, gammln_eq (show (0 : ℝ) ≤ z + n by positivity), t, s]
  ring

theorem pole_limR (z : ℝ) : ∀ (l : List (ℚ × ℚ)), Tendsto (fun n : ℕ => pole l (z + n)) atTop (𝓝 0)
  | [] => by simp [pole]
  | (c, a) :: l => by
    have g : Tendsto (fun n : ℕ => (1 : ℝ) / ((n : ℝ) + (z + a))) atTop (𝓝 0) := (tendsto_atTop_add_const_right atTop (z + a : ℝ) tendsto_natCast_atTop_atTop).const_div_atTop _
    have := (g.const_mul (c : ℝ)).add (pole_limR z l)
    rw [mul_zero, add_zero] at this
    refine this.congr fun n => ?_
    rw [pole, show (n : ℝ) + (z + a) = z + n + a by ring]

theorem errR_ge {z : ℝ} (hz : 0 < z) (n : ℕ) : errLim - pole upper (z + n) ≤ errR z n := by
  have m : Antitone fun k : ℕ => errR z k + pole upper (z + k) := antitone_nat_of_succ_le fun k => by
    have h1 := incr_le (show (0 : ℝ) ≤ z + k by positivity)
    have h2 := errR_succ hz.le k
    rw [show z + ((k + 1 : ℕ) : ℝ) = z + k + 1 by push_cast; ring]
    linarith
  have l := (errR_lim hz).add (pole_limR z upper)
  rw [add_zero] at l
  have := m.le_of_tendsto l n
  linarith

theorem errR_le {z : ℝ} (hz : 0 < z) (n : ℕ) : errR z n ≤ errLim - pole lower (z + n) := by
  have m : Monotone fun k : ℕ => errR z k + pole lower (z + k) := monotone_nat_of_le_succ fun k => by
    have h1 := le_incr (show (0 : ℝ) ≤ z + k by positivity)
    have h2 := errR_succ hz.le k
    rw [show z + ((k + 1 : ℕ) : ℝ) = z + k + 1 by push_cast; ring]
    linarith
  have l := (errR_lim hz).add (pole_limR z lower)
  rw [add_zero] at l
  have := m.ge_of_tendsto l n
  linarith

theorem gammln_err_real {x : ℝ} (hx : 1 ≤ x) : |gammln x - Real.log (Real.Gamma x)| ≤ 3 / 10 ^ 10 := by
  rcases eq_or_lt_of_le hx with rfl | hx
  · have := gammln_err 0
    simpa using this
  · have hz : 0 < x - 1 := by linarith
    have h1 := errR_ge hz 0
    have h2 := errR_le hz 0
    simp only [errR, Nat.cast_zero, add_zero, sub_add_cancel] at h1 h2
    have h3 := upper_le hz.le
    have h4 := lower_ge hz.le
    have h5 := abs_le.mp errLim_le
    rw [abs_le]
    constructor <;> linarith

end Verif.OnOff.Lz
