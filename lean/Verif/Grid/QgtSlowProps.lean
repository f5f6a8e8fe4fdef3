import Verif.Grid.QgtSlow
import Mathlib.Tactic.Linarith
import Mathlib.Tactic.FieldSimp
import Mathlib.Tactic.Ring

/-!
# C221: the quadrature above a level in logarithms
-/

namespace Verif.HPD.Slow

open Real

theorem exp_max (u v : ℝ) : exp (max u v) = max (exp u) (exp v) := exp_monotone.map_max
theorem exp_min (u v : ℝ) : exp (min u v) = min (exp u) (exp v) := exp_monotone.map_min

theorem scale (x m : ℝ) : exp m * exp (x - m) = exp x := by rw [← exp_add]; congr 1; ring

/-- What a crossed cell adds, relative to any `m`. -/
theorem cell_one {crit u v : ℝ} (h1 : ¬ (u > crit ∧ v > crit)) (h2 : u > crit ∨ v > crit) (m : ℝ) :
    exp m * (1 / 2 * (exp (max u v - m) + exp (crit - m)) * (exp (max u v - m) - exp (crit - m)) / (exp (max u v - m) - exp (min u v - m))) =
      cellGT (exp crit) (exp u) (exp v) := by
  have h1' : ¬ (exp u > exp crit ∧ exp v > exp crit) := by simpa [exp_lt_exp] using h1
  have h2' : exp u > exp crit ∨ exp v > exp crit := by simpa [exp_lt_exp] using h2
  rw [cellGT, if_neg h1', if_pos h2', ← exp_max, ← exp_min]
  have hlt : min u v < max u v := by
    rcases lt_trichotomy u v with h | h | h
    · rw [min_eq_left h.le, max_eq_right h.le]; exact h
    · subst h; tauto
    · rw [min_eq_right h.le, max_eq_left h.le]; exact h
  have e1 := exp_pos m
  have e2 := scale (max u v) m
  have e3 := scale (min u v) m
  have e4 := scale crit m
  have e5 : exp (min u v - m) < exp (max u v - m) := exp_lt_exp.2 (by linarith)
  rw [← e2, ← e3, ← e4]
  have e6 : exp (max u v - m) - exp (min u v - m) ≠ 0 := by linarith
  have e7 : exp m * exp (max u v - m) - exp m * exp (min u v - m) ≠ 0 := by
    rw [← mul_sub]; exact mul_ne_zero e1.ne' e6
  field_simp

theorem cell_both {crit u v : ℝ} (h : u > crit ∧ v > crit) (m : ℝ) :
    exp m * (1 / 2 * (exp (u - m) + exp (v - m))) = cellGT (exp crit) (exp u) (exp v) := by
  rw [cellGT, if_pos (by simpa [exp_lt_exp] using h), ← scale u m, ← scale v m]
  ring

theorem cell_none {crit u v : ℝ} (h1 : ¬ (u > crit ∧ v > crit)) (h2 : ¬ (u > crit ∨ v > crit)) :
    cellGT (exp crit) (exp u) (exp v) = 0 := by
  rw [cellGT, if_neg (by simpa [exp_lt_exp] using h1), if_neg (by simpa [exp_lt_exp] using h2)]

theorem loop_tame (crit : ℝ) (l : List ℝ) : ∀ (x acc : ℝ) (s : Acc), s.amax = s.amaxp → exp s.amaxp * s.q = acc → Tame crit s.amaxp (x :: l) →
    exp (loop crit (x :: l) s).amax * (loop crit (x :: l) s).q = qgtLoop (exp crit) acc ((x :: l).map exp) := by
  induction l with
  | nil =>
    intro x acc s h1 h2 _
    simp only [loop, List.map_cons, List.map_nil, qgtLoop]
    rw [h1, h2]
  | cons v l ih =>
    intro u acc s h1 h2 ht
    obtain ⟨q, mp, m⟩ := s
    simp only at h1 h2 ht
    subst h1
    simp only [loop, List.map_cons, qgtLoop]
    by_cases hb : u > crit ∧ v > crit
    · simp only [Tame, if_pos hb] at ht
      simp only [step, if_pos hb]
      refine ih v _ _ rfl ?_ ht
      simp only
      rw [← cell_both hb (max (max m u) v), ← h2, ← scale m (max (max m u) v)]
      ring
    · by_cases ho : u > crit ∨ v > crit
      · simp only [Tame, if_neg hb, if_pos ho] at ht
        have e : max m (max u v) = m := max_eq_left ht.1
        simp only [step, if_neg hb, if_pos ho, e]
        refine ih v _ _ rfl ?_ ht.2
        simp only
        rw [← cell_one hb ho m, ← h2, sub_self, exp_zero]
        ring
      · simp only [Tame, if_neg hb, if_neg ho] at ht
        simp only [step, if_neg hb, if_neg ho]
        refine ih v _ _ rfl ?_ ht
        simp only
        rw [cell_none hb ho, add_zero, h2]

/-- **C221.**  For arrays of logarithms of any length in which no crossing of the level rises above all that the code has noted so far, `qgt1` returns `(amax, q)` such that `exp(amax)*q` is what the Fortran routine gives for the integrand itself, that is (C34) the integral of the interpolant where it is above the level.  Missing: other arrays (`C221_violated`). -/
theorem C221_value_partial (x : ℝ) (l : List ℝ) (crit : ℝ) (h : Tame crit x (x :: l)) :
    ∃ amax q, qgt1 (x :: l) crit = .ok (amax, q) ∧ exp amax * q = qgt1d ((x :: l).map exp) (exp crit) :=
  ⟨_, _, rfl, loop_tame crit l x 0 ⟨0, x, x⟩ rfl (by simp) h⟩

theorem tame_of_le (crit : ℝ) (l : List ℝ) : ∀ (x m : ℝ), (∀ y ∈ x :: l, y ≤ m) → Tame crit m (x :: l) := by
  induction l with
  | nil => intros; trivial
  | cons v l ih =>
    intro u m h
    have hu := h u (by simp)
    have hv := h v (by simp)
    have ht := ih v m fun y hy => h y (List.mem_cons_of_mem _ hy)
    simp only [Tame, max_eq_left hu, max_eq_left hv, max_le hu hv, true_and]
    split_ifs <;> exact ht

/-- **C221.**  In particular for all arrays whose first value is the largest, at every level. -/
theorem C221_first_partial (x : ℝ) (l : List ℝ) (crit : ℝ) (h : ∀ y ∈ l, y ≤ x) :
    ∃ amax q, qgt1 (x :: l) crit = .ok (amax, q) ∧ exp amax * q = qgt1d ((x :: l).map exp) (exp crit) :=
  C221_value_partial x l crit (tame_of_le crit l x x (by simpa using h))

theorem tame_of_gt (crit : ℝ) (l : List ℝ) : ∀ (x m : ℝ), (∀ y ∈ x :: l, crit < y) → Tame crit m (x :: l) := by
  induction l with
  | nil => intros; trivial
  | cons v l ih =>
    intro u m h
    have hu := h u (by simp)
    have hv := h v (by simp)
    simp only [Tame]
    rw [if_pos ⟨hu, hv⟩]
    exact ih v _ fun y hy => h y (List.mem_cons_of_mem _ hy)

/-- **C221.**  And for all arrays that lie above the level. -/
theorem C221_above_partial (x : ℝ) (l : List ℝ) (crit : ℝ) (h : ∀ y ∈ x :: l, crit < y) :
    ∃ amax q, qgt1 (x :: l) crit = .ok (amax, q) ∧ exp amax * q = qgt1d ((x :: l).map exp) (exp crit) :=
  C221_value_partial x l crit (tame_of_gt crit l x x h)

example : ∀ y ∈ [(3 : ℝ), 5, 1], (0 : ℝ) < y := by
  intro y hy; simp at hy; rcases hy with rfl | rfl | rfl <;> norm_num

/-- **C221, violated.**  An array without elements, for which the Fortran routine gives 0, raises an exception. -/
theorem C221_violated_empty (crit : ℝ) : qgt1 [] crit = .error .index ∧ qgt1d (([] : List ℝ).map exp) (exp crit) = 0 :=
  ⟨rfl, by simp [qgt1d, qgtLoop]⟩

/-- **C221, violated.**  For every single peak, `b` on both sides of `t` with the level between them, the part of the rising side is multiplied by `exp(b-t)` before that of the falling side is added: `amaxp` is not updated when the level is crossed.  The value is too small. -/
theorem C221_violated (b t crit : ℝ) (h1 : b ≤ crit) (h2 : crit < t) :
    ∃ amax q, qgt1 [b, t, b] crit = .ok (amax, q) ∧
      exp amax * q = (1 + exp (b - t)) / 2 * qgt1d ([b, t, b].map exp) (exp crit) ∧ exp amax * q < qgt1d ([b, t, b].map exp) (exp crit) := by
  have hb : ¬ (b > crit ∧ t > crit) := fun h => absurd h.1 (not_lt.2 h1)
  have ho : b > crit ∨ t > crit := .inr h2
  have hb' : ¬ (t > crit ∧ b > crit) := fun h => absurd h.2 (not_lt.2 h1)
  have ho' : t > crit ∨ b > crit := .inl h2
  have hbt : b < t := lt_of_le_of_lt h1 h2
  have c1 := cell_one hb ho t
  have c2 := cell_one hb' ho' t
  have em : max b t = t := max_eq_right hbt.le
  have em' : max t b = t := max_eq_left hbt.le
  have en : min b t = b := min_eq_left hbt.le
  have en' : min t b = b := min_eq_right hbt.le
  rw [em, en] at c1
  rw [em', en'] at c2
  have esym : cellGT (exp crit) (exp t) (exp b) = cellGT (exp crit) (exp b) (exp t) := by rw [← c1, ← c2]
  have hpos : 0 < cellGT (exp crit) (exp b) (exp t) := by
    rw [← c1]
    have e1 : exp (crit - t) < exp (t - t) := exp_lt_exp.2 (by linarith)
    have e2 : exp (b - t) < exp (t - t) := exp_lt_exp.2 (by linarith)
    have e3 := exp_pos (crit - t)
    have e4 := exp_pos t
    apply mul_pos e4
    apply div_pos _ (by linarith)
    apply mul_pos _ (by linarith)
    linarith
  have eq : exp t * (loop crit [b, t, b] ⟨0, b, b⟩).q = (1 + exp (b - t)) * cellGT (exp crit) (exp b) (exp t) := by
    simp only [loop, step, if_neg hb, if_pos ho, if_neg hb', if_pos ho', em, em', en, en', zero_mul, zero_add]
    rw [mul_add, c2, esym]
    have : ∀ X Y : ℝ, exp t * (X * Y) = exp t * X * Y := fun X Y => by ring
    rw [this, c1]
    ring
  have ea : (loop crit [b, t, b] ⟨0, b, b⟩).amax = t := by
    simp only [loop, step, if_neg hb, if_pos ho, if_neg hb', if_pos ho', em, em']
  have eg : qgt1d ([b, t, b].map exp) (exp crit) = 2 * cellGT (exp crit) (exp b) (exp t) := by
    simp only [qgt1d, List.map_cons, List.map_nil, qgtLoop, esym, zero_add]
    ring
  refine ⟨_, _, rfl, ?_, ?_⟩
  · rw [ea, eq, eg]; ring
  · rw [ea, eq, eg]
    have : exp (b - t) < 1 := by rw [← exp_zero]; exact exp_lt_exp.2 (by linarith)
    nlinarith

end Verif.HPD.Slow
