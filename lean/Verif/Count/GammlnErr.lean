import Verif.Count.GammlnFit

/-!
# Accuracy of the log gamma function: the error for every count
-/

set_option linter.unusedSectionVars false

namespace Verif.OnOff.Lz

open Filter Topology

/-- The error of `gammln` at `n + 1`. -/
noncomputable def err (n : ℕ) : ℝ := gammln ((n : ℝ) + 1) - Real.log (n.factorial : ℝ)

/-- The limit of the error. -/
noncomputable def errLim : ℝ := Real.log stp - Real.log (Real.sqrt Real.pi) - Real.log 2 / 2

theorem err_succ (n : ℕ) : err (n + 1) - err n = incr n := by
  have hf : Real.log ((n + 1).factorial : ℝ) = Real.log ((n : ℝ) + 1) + Real.log (n.factorial : ℝ) := by
    rw [Nat.factorial_succ, Nat.cast_mul, Real.log_mul (by positivity) (by positivity), Nat.cast_add_one]
  rw [← gammln_incr (Nat.cast_nonneg n), err, err, hf, Nat.cast_add_one]
  ring

theorem ser_lim : Tendsto (fun n : ℕ => serLoop cof (n : ℝ) 1) atTop (𝓝 1) := by
  have g : ∀ c : ℚ, ∀ k : ℝ, Tendsto (fun n : ℕ => (c : ℝ) / ((n : ℝ) + k)) atTop (𝓝 0) := fun c k =>
    (tendsto_atTop_add_const_right atTop k tendsto_natCast_atTop_atTop).const_div_atTop _
  have := ((((((tendsto_const_nhds (x := (1 : ℝ))).add (g 76.18009173 1)).add (g (-86.50532033) 2)).add (g 24.01409822 3)).add (g (-1.231739516) 4)).add (g 0.120858003e-2 5)).add (g (-0.536382e-5) 6)
  simp only [add_zero] at this
  refine this.congr fun n => ?_
  simp only [cof, serLoop]
  rw [show (n : ℝ) + 1 + 1 = n + 2 by ring, show (n : ℝ) + 2 + 1 = n + 3 by ring, show (n : ℝ) + 3 + 1 = n + 4 by ring, show (n : ℝ) + 4 + 1 = n + 5 by ring, show (n : ℝ) + 5 + 1 = n + 6 by ring]

theorem err_lim : Tendsto err atTop (𝓝 errLim) := by
  have l1 : Tendsto (fun n : ℕ => (n : ℝ) * Real.log (1 + (11 / 2) / n)) atTop (𝓝 (11 / 2)) :=
    (Real.tendsto_mul_log_one_add_div_atTop (11 / 2)).comp tendsto_natCast_atTop_atTop
  have l2 : Tendsto (fun n : ℕ => Real.log (1 + (11 / 2) / (n : ℝ))) atTop (𝓝 0) := by
    have : Tendsto (fun n : ℕ => 1 + (11 / 2) / (n : ℝ)) atTop (𝓝 (1 + 0)) :=
      tendsto_const_nhds.add (tendsto_natCast_atTop_atTop.const_div_atTop _)
    rw [add_zero] at this
    simpa using this.log (by norm_num)
  have l3 : Tendsto (fun n : ℕ => Real.log (serLoop cof (n : ℝ) 1)) atTop (𝓝 0) := by
    simpa using ser_lim.log (by norm_num)
  have l4 : Tendsto (fun n : ℕ => Real.log (Stirling.stirlingSeq n)) atTop (𝓝 (Real.log (Real.sqrt Real.pi))) :=
    Stirling.tendsto_stirlingSeq_sqrt_pi.log (by positivity)
  have := (((l1.add (l2.const_mul (1 / 2))).add l3).sub l4).add_const (Real.log stp - Real.log 2 / 2 - 11 / 2)
  have e : 11 / 2 + 1 / 2 * (0 : ℝ) + 0 - Real.log (Real.sqrt Real.pi) + (Real.log stp - Real.log 2 / 2 - 11 / 2) = errLim := by
    rw [errLim]; ring
  rw [e] at this
  refine this.congr' ?_
  filter_upwards [eventually_ge_atTop 1] with n hn
  have hn' : (0 : ℝ) < n := by exact_mod_cast hn
  have s := Stirling.log_stirlingSeq_formula n
  rw [Real.log_mul (by norm_num) hn'.ne', Real.log_div hn'.ne' (Real.exp_pos 1).ne', Real.log_exp] at s
  have t : Real.log (1 + (11 / 2) / (n : ℝ)) = Real.log (n + 11 / 2) - Real.log n := by
    rw [← Real.log_div (by positivity) hn'.ne']; congr 1; field_simp
  rw [err, gammln_eq (Nat.cast_nonneg n), t, s]
  ring

theorem errLim_le : |errLim| ≤ 1 / 10 ^ 11 := by
  have h1 := Real.pi_gt_d20
  have h2 := Real.pi_lt_d20
  have e : errLim = Real.log (stp ^ 2 / (2 * Real.pi)) / 2 := by
    rw [Real.log_div (pow_pos stp_pos 2).ne' (by positivity), Real.log_mul (by norm_num) (by positivity), Real.log_pow, errLim, Real.log_sqrt Real.pi_pos.le]
    push_cast; ring
  have p : (0 : ℝ) < stp ^ 2 / (2 * Real.pi) := div_pos (pow_pos stp_pos 2) (by positivity)
  have u := Real.log_le_sub_one_of_pos p
  have l := Real.one_sub_inv_le_log_of_pos p
  have hs : (stp : ℝ) ^ 2 = 6.2831853072748358326225 ^ 1 := by
    rw [stp]; push_cast; norm_num
  rw [hs] at u l e
  have b1 : (6.2831853072748358326225 : ℝ) ^ 1 / (2 * Real.pi) ≤ 1 + 2 / 10 ^ 11 := by
    rw [div_le_iff₀ (by positivity)]; norm_num at h1 ⊢; linarith
  have b2 : ((6.2831853072748358326225 : ℝ) ^ 1 / (2 * Real.pi))⁻¹ ≤ 1 + 2 / 10 ^ 11 := by
    rw [inv_div, div_le_iff₀ (by norm_num)]; norm_num at h2 ⊢; linarith
  rw [e, abs_le]
  constructor <;> linarith

theorem incr_lim : Tendsto (fun n : ℕ => incr n) atTop (𝓝 0) := by
  have := (err_lim.comp (tendsto_add_atTop_nat 1)).sub err_lim
  rw [sub_self] at this
  exact this.congr fun n => err_succ n

theorem pole_lim : ∀ (l : List (ℚ × ℚ)), Tendsto (fun n : ℕ => pole l (n : ℝ)) atTop (𝓝 0)
  | [] => by simp [pole]
  | (c, a) :: l => by
    have g : Tendsto (fun n : ℕ => (1 : ℝ) / ((n : ℝ) + a)) atTop (𝓝 0) := (tendsto_atTop_add_const_right atTop (a : ℝ) tendsto_natCast_atTop_atTop).const_div_atTop _
    simpa [pole] using (g.const_mul (c : ℝ)).add (pole_lim l)

theorem diff_lim (l : List (ℚ × ℚ)) : Tendsto (fun n : ℕ => pole l (n : ℝ) - pole l ((n : ℝ) + 1)) atTop (𝓝 0) := by
  have := (pole_lim l).sub ((pole_lim l).comp (tendsto_add_atTop_nat 1))
  simpa using this

theorem Tw.nonneg {h : ℝ → ℝ} {fs : List (List ℚ × List ℚ)} (t : Tw h fs) (hn : nnFracs fs = true) (hl : Tendsto (fun n : ℕ => h n) atTop (𝓝 0)) {z : ℝ} (hz : 0 ≤ z) : 0 ≤ h z := by
  obtain ⟨h', t⟩ := t
  exact nonneg_of_convex (fun z hz => (t z hz).1) (fun z hz => (t z hz).2) (fun z hz => nnFracs_sum hn hz) hl hz

theorem incr_le {z : ℝ} (hz : 0 ≤ z) : incr z ≤ pole upper z - pole upper (z + 1) := by
  have := ((Tw.pole upper (by decide +kernel)).add (Tw.incr.scale (-1))).nonneg upper_nn (by simpa using (diff_lim upper).add (incr_lim.const_mul (-1))) hz
  push_cast at this
  linarith

theorem le_incr {z : ℝ} (hz : 0 ≤ z) : pole lower z - pole lower (z + 1) ≤ incr z := by
  have := (((Tw.pole lower (by decide +kernel)).scale (-1)).add Tw.incr).nonneg lower_nn (by simpa using ((diff_lim lower).const_mul (-1)).add incr_lim) hz
  push_cast at this
  linarith

theorem err_ge (n : ℕ) : errLim - pole upper n ≤ err n := by
  have m : Antitone fun k : ℕ => err k + pole upper k := antitone_nat_of_succ_le fun k => by
    have h1 := incr_le (Nat.cast_nonneg (α := ℝ) k)
    have h2 := err_succ k
    push_cast
    linarith
  have l := err_lim.add (pole_lim upper)
  rw [add_zero] at l
  have := m.le_of_tendsto l n
  linarith

theorem err_le (n : ℕ) : err n ≤ errLim - pole lower n := by
  have m : Monotone fun k : ℕ => err k + pole lower k := monotone_nat_of_le_succ fun k => by
    have h1 := le_incr (Nat.cast_nonneg (α := ℝ) k)
    have h2 := err_succ k
    push_cast
    linarith
  have l := err_lim.add (pole_lim lower)
  rw [add_zero] at l
  have := m.ge_of_tendsto l n
  linarith

/-- The fractions of `s * pole l`. -/
def fpole0 (s : ℚ) : List (ℚ × ℚ) → List (List ℚ × List ℚ)
  | [] => []
  | (c, a) :: l => ([s * c], lin a) :: fpole0 s l

theorem fpole0_sum (s : ℚ) (z : ℝ) : ∀ l : List (ℚ × ℚ), ((fpole0 s l).map fun f => pev f.1 z / pev f.2 z).sum = s * pole l z
  | [] => by simp [fpole0, pole]
  | (c, a) :: l => by
    rw [fpole0, List.map_cons, List.sum_cons, fpole0_sum s z l, pole, pev_lin]
    simp only [pev]
    push_cast
    ring

theorem upper_le {z : ℝ} (hz : 0 ≤ z) : pole upper z ≤ 28 / 10 ^ 11 := by
  have := nnFracs_sum (fs := ([28 / 10 ^ 11], [1]) :: (fpole0 (-1) upper ++ List.replicate 15 ([], lin 1))) (by decide +kernel) hz
  rw [List.map_cons, List.sum_cons, List.map_append, List.sum_append, fpole0_sum, List.map_replicate, List.sum_replicate] at this
  norm_num [pev] at this
  norm_num
  linarith

theorem lower_ge {z : ℝ} (hz : 0 ≤ z) : -(22 / 10 ^ 11) ≤ pole lower z := by
  have := nnFracs_sum (fs := ([22 / 10 ^ 11], [1]) :: fpole0 1 lower) (by decide +kernel) hz
  rw [List.map_cons, List.sum_cons, fpole0_sum] at this
  norm_num [pev] at this
  norm_num
  linarith

theorem gammln_err (n : ℕ) : |gammln ((n : ℝ) + 1) - Real.log (n.factorial : ℝ)| ≤ 3 / 10 ^ 10 := by
  have h1 := err_ge n
  have h2 := err_le n
  have h3 := upper_le (Nat.cast_nonneg (α := ℝ) n)
  have h4 := lower_ge (Nat.cast_nonneg (α := ℝ) n)
  have h5 := abs_le.mp errLim_le
  rw [abs_le]
  unfold err at h1 h2
  constructor <;> linarith

end Verif.OnOff.Lz
