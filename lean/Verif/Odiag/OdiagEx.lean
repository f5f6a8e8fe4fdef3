import Verif.Odiag.OdiagProps

/-!
# A series for which `odiag` finds a stationary part after deleting half of it
-/

set_option linter.unusedSectionVars false

noncomputable section

namespace Verif.Odiag

open Finset

/-- The state of the recursion with rational numbers, as real numbers. -/
def Ar.cast (s : Ar ℚ) : Ar ℝ := { ord := s.ord, wrk := fun t => (s.wrk t : ℝ), wrks := fun t => (s.wrks t : ℝ), coef := fun r => (s.coef r : ℝ), var := (s.var : ℝ) }

theorem reflect_cast (u v : ℕ → ℚ) (m : ℕ) : reflect (fun t => (u t : ℝ)) (fun t => (v t : ℝ)) m = (reflect u v m).map (fun k => (k : ℝ)) := by
  simp only [reflect, loopSum_eq]
  have e1 : ∑ t ∈ range m, ((u t : ℝ) ^ 2 + (v t : ℝ) ^ 2) = ((∑ t ∈ range m, (u t ^ 2 + v t ^ 2) : ℚ) : ℝ) := by push_cast; rfl
  have e2 : ∑ t ∈ range m, (u t : ℝ) * (v t : ℝ) = ((∑ t ∈ range m, u t * v t : ℚ) : ℝ) := by push_cast; rfl
  rw [e1, e2]
  simp only [Rat.cast_eq_zero]
  split_ifs with h
  · rfl
  · simp

theorem update_cast (k : ℚ) (m : ℕ) (u v : ℕ → ℚ) :
    update (k : ℝ) m (fun t => (u t : ℝ), fun t => (v t : ℝ)) = (fun t => ((update k m (u, v)).1 t : ℝ), fun t => ((update k m (u, v)).2 t : ℝ)) := by
  refine Prod.ext (funext fun t => ?_) (funext fun t => ?_)
  · rw [(update_spec _ _ _ _).1]
    simp only [(update_spec k m (u, v) t).1]
    split_ifs <;> push_cast <;> rfl
  · rw [(update_spec _ _ _ _).2]
    simp only [(update_spec k m (u, v) t).2]
    split_ifs <;> push_cast <;> rfl

theorem burg_cast (n : ℕ) (x : ℕ → ℚ) (m : ℕ) : burg n (fun t => (x t : ℝ)) m = (burg n x m).map Ar.cast := by
  induction m with
  | zero =>
      simp only [burg, first]
      rw [reflect_cast x (fun t => x (t + 1))]
      rcases reflect x (fun t => x (t + 1)) (n - 1) with _ | k
      · rfl
      · simp only [Option.map_some, Ar.cast, loopSum_eq]
        congr 2
        push_cast
        rfl
  | succ m ih =>
      rw [burg, ih, burg]
      rcases burg n x m with _ | s
      · rfl
      · simp only [Option.map_some, Option.bind_some, next, Ar.cast]
        rw [update_cast]
        simp only
        rw [reflect_cast]
        rcases reflect (update (s.coef s.ord) (n - s.ord - 1) (s.wrk, s.wrks)).1 (update (s.coef s.ord) (n - s.ord - 1) (s.wrk, s.wrks)).2 (n - (s.ord + 1)) with _ | k
        · rfl
        · simp only [Option.map_some, Ar.cast]
          refine congrArg some ?_
          rw [Ar.mk.injEq]
          refine ⟨rfl, rfl, rfl, funext fun r => ?_, by push_cast; rfl⟩
          split_ifs <;> push_cast <;> rfl

/-- The second half of the series: -1, -1, 3, -1. -/
def yq : ℕ → ℚ := fun t => if t = 0 then -1 else if t = 1 then -1 else if t = 2 then 3 else if t = 3 then -1 else 0

/-- The series 0, 0, 0, 1000, -1, -1, 3, -1. -/
def xex : ℕ → ℝ := fun t => if t < 3 then 0 else if t = 3 then 1000 else (yq (t - 4) : ℝ)

theorem yq_order (m : ℕ) (o : ℕ) (c v : ℚ) (h : ((burg 4 yq m).map fun s => (s.ord, loopSum (fun r => s.coef (r + 1)) s.ord, s.var)) = some (o, c, v)) :
    ∃ s, burg 4 (fun t => (yq t : ℝ)) m = some s ∧ s.ord = o ∧ loopSum (fun r => s.coef (r + 1)) s.ord = (c : ℝ) ∧ s.var = (v : ℝ) := by
  rw [Option.map_eq_some_iff] at h
  obtain ⟨s, hs, he⟩ := h
  simp only [Prod.mk.injEq] at he
  refine ⟨s.cast, by rw [burg_cast, hs]; rfl, he.1, ?_, by rw [← he.2.2]; rfl⟩
  rw [← he.2.1]
  simp only [Ar.cast, loopSum_eq]
  push_cast
  rfl

theorem bestar_yq : bestar 4 (fun t => (yq t : ℝ)) = some { ord := 3, var := 127008 / 16865173 / (4 / (14807 / 176) ^ 2), clen := (14807 / 176) ^ 2 } := by
  obtain ⟨s1, h1, o1, c1, v1⟩ := yq_order 0 1 (-5 / 11) (288 / 121) (by decide +kernel)
  obtain ⟨s2, h2, o2, c2, v2⟩ := yq_order 1 2 (-109 / 67) (3744 / 4489) (by decide +kernel)
  obtain ⟨s3, h3, o3, c3, v3⟩ := yq_order 2 3 (14631 / 14807) (127008 / 16865173) (by decide +kernel)
  obtain ⟨d1, e1, f1⟩ : ∃ d, candidate 4 s1 = some d ∧ d.1 = 4 * Real.log (288 / 121) + 2 := by
    rw [o1] at c1
    simp only [candidate, v1, o1, c1]
    norm_num
  obtain ⟨d2, e2, f2⟩ : ∃ d, candidate 4 s2 = some d ∧ d.1 = 4 * Real.log (3744 / 4489) + 4 := by
    rw [o2] at c2
    simp only [candidate, v2, o2, c2]
    norm_num
  have e3 : candidate 4 s3 = some (4 * Real.log (127008 / 16865173) + 6, { ord := 3, var := 127008 / 16865173 / (4 / (14807 / 176) ^ 2), clen := (14807 / 176) ^ 2 }) := by
    rw [o3] at c3
    simp only [candidate, v3, o3, c3]
    norm_num
  have l12 : Real.log (3744 / 4489) < Real.log (288 / 121) - 1 / 2 := by
    have : Real.log (3744 / 4489) < 0 := Real.log_neg (by norm_num) (by norm_num)
    have h : (1 : ℝ) / 2 < Real.log (288 / 121) := by
      rw [Real.lt_log_iff_exp_lt (by norm_num)]
      have h2 : Real.exp (1 / 2) * Real.exp (1 / 2) = Real.exp 1 := by rw [← Real.exp_add]; norm_num
      have := Real.exp_one_lt_d9
      nlinarith [Real.exp_pos (1 / 2 : ℝ)]
    linarith
  have l23 : Real.log (127008 / 16865173) < Real.log (3744 / 4489) - 1 := by
    rw [show (127008 / 16865173 : ℝ) = 3744 / 4489 * (127008 / 16865173 / (3744 / 4489)) by norm_num, Real.log_mul (by norm_num) (by norm_num)]
    have : Real.log (127008 / 16865173 / (3744 / 4489)) < -1 := by
      rw [Real.log_lt_iff_lt_exp (by norm_num)]
      have := Real.exp_neg_one_gt_d9
      linarith
    linarith
  have g2 : bestGo 4 (fun t => (yq t : ℝ)) 1 = some d2 := by
    simp only [bestGo, h1, h2, Option.bind_some, e1, e2]
    rw [if_pos]
    rw [f1, f2]; linarith
  have g3 : bestGo 4 (fun t => (yq t : ℝ)) 2 = some (4 * Real.log (127008 / 16865173) + 6, { ord := 3, var := 127008 / 16865173 / (4 / (14807 / 176) ^ 2), clen := (14807 / 176) ^ 2 }) := by
    rw [bestGo, g2, h3, Option.bind_some, e3]
    simp only
    rw [if_pos]
    rw [f2]; linarith
  simp [bestar, g3]

/-- The hypotheses of C172 and C173 are met: `odiag` deletes the first half of this series and finds the mean zero of the rest. -/
theorem odiag_xex (spec : ℕ → (ℕ → ℝ) → ℝ) : ∃ sp ar cl, odiag spec 8 xex = some (.yes 4 0 sp ar 3 cl) := by
  have hm : meanOf xex 4 4 = 0 := by norm_num [meanOf, loopSum, xex, yq]
  have hx : (fun t => xex (4 + t) - meanOf xex 4 4) = fun t => (yq t : ℝ) := by
    funext t
    rw [hm, sub_zero, xex, if_neg (by omega), if_neg (by omega), Nat.add_sub_cancel_left]
  have hx' : (fun t => xex (t + 4) - meanOf xex 4 4) = fun t => (yq t : ℝ) := by rw [← hx]; funext t; rw [add_comm]
  have hs : search xex 8 (127008 / 16865173 * (14807 / 176) ^ 2) [0, 1, 2, 3, 4, 5] = some 4 := by
    simp only [search]
    norm_num [cvm, meanOf, loopSum, xex, yq, ccrit]
  simp only [odiag]
  rw [show 8 / 2 = 4 from rfl, show 8 - 4 = 4 from rfl, hx, bestar_yq]
  simp only
  rw [show ((4 : ℕ) : ℝ) * (127008 / 16865173 / (4 / (14807 / 176) ^ 2)) = 127008 / 16865173 * (14807 / 176) ^ 2 by norm_num, hs]
  simp only
  rw [show 8 - 4 = 4 from rfl, hx', bestar_yq, hm]
  exact ⟨_, _, _, rfl⟩

end Verif.Odiag
