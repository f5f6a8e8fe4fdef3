import Verif.Deriv.InfoScale
import Mathlib.Tactic.Ring
import Mathlib.Tactic.FieldSimp
import Mathlib.Tactic.Linarith
import Mathlib.Tactic.Positivity
import Mathlib.Tactic.NormNum

/-!
# C233: the scales for the derivatives lower the log posterior by the amount asked for
-/

namespace Verif.Deriv.InfoScale

open Real

/-! ## Specification -/

/-- The log posterior falls by `h d²/2` if parameter `i` moves by `d` from the mode. -/
def Parabola (lpp : (ℕ → ℝ) → ℝ) (mode : ℕ → ℝ) (i : ℕ) (h : ℝ) : Prop :=
  0 < h ∧ ∀ d, lpp (Function.update mode i (mode i + d)) = lpp mode - h * d ^ 2 / 2

/-! ## Proofs -/

theorem frac_pos (t0 : ℝ) : 0 < frac t0 := by
  unfold frac
  split_ifs with h
  · positivity
  · norm_num

theorem newton_done (g : ℝ → ℝ) (m c s : ℝ) : ∀ left t r, newton g m c s left t = .done r → |g r - c| ≤ 0.03 ∧ g r ≤ m := by
  intro left
  induction left with
  | zero => intro t r h; rw [newton] at h; split_ifs at h
  | succ left ih =>
    intro t r h
    rw [newton] at h
    simp only at h
    split_ifs at h with h1 h2 h3 h4
    · exact ih _ _ h
    · simp only [Out.done.injEq] at h
      subst h
      exact ⟨not_lt.mp h2, not_lt.mp h1⟩

theorem scale_done (g : ℝ → ℝ) (t0 m del : ℝ) (fuel : ℕ) (d : ℝ) (h : scale g t0 m del fuel = some (.done d)) :
    |g (t0 + d) - (m - del)| ≤ 0.03 ∧ g (t0 + d) ≤ m := by
  unfold scale at h
  split at h
  · simp at h
  · simp at h
  · simp at h
  · simp at h
  · split at h
    · rename_i t ht
      simp only [Option.some.injEq, Out.done.injEq] at h
      subst h
      rw [show t0 + (t - t0) = t by ring]
      exact newton_done g m _ _ _ _ _ ht
    · simp at h
    · simp at h
    · simp at h

theorem scales_done (lpp : (ℕ → ℝ) → ℝ) (m del : ℝ) (fuel : ℕ) : ∀ r i (tval dp dp' : ℕ → ℝ),
    scales lpp m del fuel r i tval dp = some (.done dp') →
    (∀ k < i, dp' k = dp k) ∧ ∀ k, i ≤ k → k < i + r →
      scale (fun t => lpp (Function.update tval k t)) (tval k) m del fuel = some (.done (dp' k)) := by
  intro r
  induction r with
  | zero =>
    intro i tval dp dp' h
    simp only [scales, Option.some.injEq, Out.done.injEq] at h
    subst h
    exact ⟨fun k _ => rfl, fun k h1 h2 => by omega⟩
  | succ r ih =>
    intro i tval dp dp' h
    rw [scales] at h
    split at h
    · simp at h
    · simp at h
    · simp at h
    · simp at h
    · rename_i d hd
      rw [Function.update_eq_self] at h
      obtain ⟨a, b⟩ := ih _ _ _ _ h
      refine ⟨fun k hk => ?_, fun k h1 h2 => ?_⟩
      · rw [a k (by omega), Function.update_of_ne (by omega)]
      · by_cases e : k = i
        · subst e
          rw [a k (by omega), Function.update_self]
          exact hd
        · exact b k (by omega) (by omega)

/-- **C233** (partial): for every log posterior, mode, number of parameters and `del`: if the scales are found, then a move of any one parameter by its scale changes the log posterior by `-del` to within 0.03, and never raises it. Missing: that they are found, see the other theorems. -/
theorem C233_drop_partial (lpp : (ℕ → ℝ) → ℝ) (mode : ℕ → ℝ) (npar : ℕ) (del : ℝ) (fuel : ℕ) (dp : ℕ → ℝ)
    (h : infoScales lpp mode npar del fuel = some (.done dp)) (i : ℕ) (hi : i < npar) :
    |lpp (Function.update mode i (mode i + dp i)) - (lpp mode - del)| ≤ 0.03 ∧
      lpp (Function.update mode i (mode i + dp i)) ≤ lpp mode :=
  scale_done _ _ _ _ _ _ ((scales_done lpp _ del fuel npar 0 mode _ dp h).2 i (Nat.zero_le _) (by omega))

theorem scale_parabola (lpp : (ℕ → ℝ) → ℝ) (mode : ℕ → ℝ) (i : ℕ) (h del : ℝ) (hd : 0 < del) (hp : Parabola lpp mode i h) (fuel : ℕ) :
    scale (fun t => lpp (Function.update mode i t)) (mode i) (lpp mode) del (fuel + 1) = some (.done √(2 * del / h)) := by
  obtain ⟨hh, hp⟩ := hp
  have hf := frac_pos (mode i)
  have e1 : grow (fun t => lpp (Function.update mode i t)) (mode i) (lpp mode) (fuel + 1) 1
      = some (.done (1, h * frac (mode i) ^ 2 / 2)) := by
    rw [grow]
    simp only [one_mul, hp]
    have : 0 < h * frac (mode i) ^ 2 / 2 := by positivity
    rw [if_neg (by linarith), if_neg (by linarith)]
    congr 3
    ring
  have e2 : frac (mode i) * √(del / (h * frac (mode i) ^ 2 / 2)) = √(2 * del / h) := by
    rw [show del / (h * frac (mode i) ^ 2 / 2) = (2 * del / h) / frac (mode i) ^ 2 by field_simp,
      sqrt_div' _ (by positivity), sqrt_sq hf.le]
    field_simp
  have e3 : lpp (Function.update mode i (mode i + √(2 * del / h))) = lpp mode - del := by
    rw [hp, sq_sqrt (by positivity)]
    field_simp
  have e4 : newton (fun t => lpp (Function.update mode i t)) (lpp mode) (lpp mode - del) (frac (mode i)) 15 (mode i + √(2 * del / h))
      = .done (mode i + √(2 * del / h)) := by
    rw [newton]
    simp only [e3]
    rw [if_neg (by linarith), if_neg (by norm_num)]
  unfold scale
  rw [e1]
  simp only [one_mul, e2, e4, add_sub_cancel_left]

/-- **C233** (partial): if along every parameter the log posterior is a parabola with its top at the mode, and `del` is positive, the scales are found, and they are exactly those that lower it by `del`, in any number of dimensions. Missing: other functions; a flat direction gives no scale, see `C233_violated_flat`. -/
theorem C233_parabola_partial (lpp : (ℕ → ℝ) → ℝ) (mode : ℕ → ℝ) (npar : ℕ) (del : ℝ) (hd : 0 < del) (h : ℕ → ℝ)
    (hp : ∀ i < npar, Parabola lpp mode i (h i)) (fuel : ℕ) :
    ∃ dp, infoScales lpp mode npar del (fuel + 1) = some (.done dp) ∧
      ∀ i < npar, dp i = √(2 * del / h i) ∧ lpp (Function.update mode i (mode i + dp i)) = lpp mode - del := by
  have key : ∀ r i (dp : ℕ → ℝ), (∀ k, i ≤ k → k < i + r → Parabola lpp mode k (h k)) →
      ∃ dp', scales lpp (lpp mode) del (fuel + 1) r i mode dp = some (.done dp') := by
    intro r
    induction r with
    | zero => intro i dp _; exact ⟨dp, rfl⟩
    | succ r ih =>
      intro i dp hk
      rw [scales, scale_parabola lpp mode i (h i) del hd (hk i le_rfl (by omega)) fuel]
      simp only [Function.update_eq_self]
      exact ih (i + 1) _ fun k h1 h2 => hk k (by omega) (by omega)
  obtain ⟨dp, e⟩ := key npar 0 (fun _ => 0) fun k _ hk => hp k (by omega)
  refine ⟨dp, e, fun i hi => ?_⟩
  have hs := (scales_done lpp _ del (fuel + 1) npar 0 mode _ dp e).2 i (Nat.zero_le _) (by omega)
  rw [scale_parabola lpp mode i (h i) del hd (hp i hi) fuel] at hs
  simp only [Option.some.injEq, Out.done.injEq] at hs
  refine ⟨hs.symm, ?_⟩
  obtain ⟨hh, hq⟩ := hp i hi
  rw [← hs, hq, sq_sqrt (by positivity)]
  field_simp

theorem grow_flat (m t0 : ℝ) : ∀ fuel f, grow (fun _ => m) t0 m fuel f = none := by
  intro fuel
  induction fuel with
  | zero => intro f; rfl
  | succ fuel ih =>
    intro f
    rw [grow]
    simp only [sub_self, le_refl, if_true, gt_iff_lt, lt_irrefl, if_false]
    exact ih _

/-- **C233** (violated): if the log posterior does not depend on one of the parameters, no scales are ever found, whatever it does in the others. -/
theorem C233_violated_flat (lpp : (ℕ → ℝ) → ℝ) (mode : ℕ → ℝ) (npar k : ℕ) (hk : k < npar) (del : ℝ)
    (hf : ∀ t, lpp (Function.update mode k t) = lpp mode) (fuel : ℕ) (dp : ℕ → ℝ) :
    infoScales lpp mode npar del fuel ≠ some (.done dp) := by
  intro h
  have hs := (scales_done lpp _ del fuel npar 0 mode _ dp h).2 k (Nat.zero_le _) (by omega)
  rw [show (fun t => lpp (Function.update mode k t)) = fun _ => lpp mode from funext hf] at hs
  unfold scale at hs
  rw [grow_flat] at hs
  simp at hs

/-- **C233** (violated): with a flat first parameter the loop never ends. -/
theorem C233_violated_loop (lpp : (ℕ → ℝ) → ℝ) (mode : ℕ → ℝ) (npar : ℕ) (del : ℝ)
    (hf : ∀ t, lpp (Function.update mode 0 t) = lpp mode) (fuel : ℕ) :
    infoScales lpp mode (npar + 1) del fuel = none := by
  unfold infoScales
  rw [scales, show (fun t => lpp (Function.update mode 0 t)) = fun _ => lpp mode from funext hf]
  unfold scale
  rw [grow_flat]

/-- **C233** (violated): a log posterior that rises by any amount at the first trial point, one percent above a positive mode and 0.01 above another, stops the calculation, although the mode may be a local maximum. -/
theorem C233_violated_offset (lpp : (ℕ → ℝ) → ℝ) (mode : ℕ → ℝ) (npar : ℕ) (del : ℝ)
    (hf : lpp mode < lpp (Function.update mode 0 (mode 0 + frac (mode 0)))) (fuel : ℕ) :
    infoScales lpp mode (npar + 1) del (fuel + 1) = some .offset := by
  have e : grow (fun t => lpp (Function.update mode 0 t)) (mode 0) (lpp mode) (fuel + 1) 1 = some .offset := by
    rw [grow]
    simp only [one_mul]
    rw [if_pos hf]
  unfold infoScales
  rw [scales]
  unfold scale
  rw [e]

/-- Two parameters with parabolas of different widths. -/
example : ∀ i < 2, Parabola (fun x => -(x 0 - 1) ^ 2 - 3 * (x 1 + 2) ^ 2) (fun i => if i = 0 then 1 else -2) i (if i = 0 then 2 else 6) := by
  intro i hi
  have : i = 0 ∨ i = 1 := by omega
  rcases this with rfl | rfl
  · refine ⟨by norm_num, fun d => ?_⟩
    simp only [Function.update]
    norm_num
    try ring
  · refine ⟨by norm_num, fun d => ?_⟩
    simp only [Function.update]
    norm_num
    try ring

/-- A flat parameter. -/
example (t : ℝ) : (fun x : ℕ → ℝ => -(x 1) ^ 2) (Function.update (fun _ => 0) 0 t) = (fun x : ℕ → ℝ => -(x 1) ^ 2) fun _ => 0 := by
  simp [Function.update]

/-- A local maximum at 0, with a narrow top, above which the log posterior rises again. -/
example : (fun x : ℕ → ℝ => x 0 ^ 2 * (x 0 - 0.001)) (fun _ => 0) <
    (fun x : ℕ → ℝ => x 0 ^ 2 * (x 0 - 0.001)) (Function.update (fun _ => 0) 0 ((fun _ => 0 : ℕ → ℝ) 0 + frac ((fun _ => 0 : ℕ → ℝ) 0))) := by
  simp only [Function.update_self, frac]
  norm_num

end Verif.Deriv.InfoScale
