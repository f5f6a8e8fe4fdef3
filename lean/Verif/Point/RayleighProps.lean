import Verif.Point.BesselLemmas
import Verif.Point.BesselInt

/-!
# C116: the Rayleigh statistic, and C117: the log Bessel function and the likelihood that use it

Specification: the power at a frequency is `((Σ sin w t)² + (Σ cos w t)²) / n`; it lies between zero and the number of events.  `I0` is the modified Bessel function of order zero, given by its series (`I0`, Bessel.lean), and `vonMises` (BesselInt.lean) the average over phases of the product over the events of `exp(k cos(w t - phi)) / I0(k)`.
-/

set_option linter.unusedSectionVars false

namespace Verif.Point

open Real

/-- The Rayleigh power: the specification. -/
noncomputable def power (w : ℝ) (times : List ℝ) : ℝ := (((times.map fun t => sin (w * t)).sum) ^ 2 + ((times.map fun t => cos (w * t)).sum) ^ 2) / times.length

theorem fold_pair {α : Type} (f g : α → ℝ) (xs : List α) (a b : ℝ) : xs.foldl (fun (s : ℝ × ℝ) x => (s.1 + f x, s.2 + g x)) (a, b) = (a + (xs.map f).sum, b + (xs.map g).sum) := by
  induction xs generalizing a b with
  | nil => simp
  | cons x xs ih => simp [ih, add_assoc]

/-- **C116** (one frequency).  For any frequency and any events, `rayleigh` returns the two sums and the power. -/
theorem C116_rayleigh (w : ℝ) {times : List ℝ} (h : times ≠ []) :
    rayleigh w times = some ((times.map fun t => sin (w * t)).sum, (times.map fun t => cos (w * t)).sum, power w times) := by
  unfold rayleigh power
  rw [fold_pair]
  simp only [zero_add]
  rw [if_neg (by simpa using h)]
  simp only [sq]

theorem power_sq_le (times : List ℝ) (w : ℝ) : ((times.map fun t => sin (w * t)).sum) ^ 2 + ((times.map fun t => cos (w * t)).sum) ^ 2 ≤ (times.length : ℝ) ^ 2 := by
  have key : ∀ a b : ℝ, a * (times.map fun t => sin (w * t)).sum + b * (times.map fun t => cos (w * t)).sum ≤ times.length * √(a ^ 2 + b ^ 2) := by
    intro a b
    induction times with
    | nil => simp
    | cons t ts ih =>
      have h1 : a * sin (w * t) + b * cos (w * t) ≤ √(a ^ 2 + b ^ 2) := by
        apply le_sqrt_of_sq_le
        nlinarith [sin_sq_add_cos_sq (w * t), sq_nonneg (a * cos (w * t) - b * sin (w * t))]
      simp only [List.map_cons, List.sum_cons, List.length_cons]
      push_cast
      linarith
  set S := (times.map fun t => sin (w * t)).sum
  set C := (times.map fun t => cos (w * t)).sum
  have h := key S C
  have hr : √(S ^ 2 + C ^ 2) ^ 2 = S ^ 2 + C ^ 2 := sq_sqrt (by positivity)
  have h0 := sqrt_nonneg (S ^ 2 + C ^ 2)
  set r := √(S ^ 2 + C ^ 2)
  have h2 : r * r ≤ times.length * r := by nlinarith
  rcases h0.eq_or_lt with h3 | h3
  · rw [← hr, ← h3, zero_pow two_ne_zero]; positivity
  · have h4 := le_of_mul_le_mul_right h2 h3
    rw [← hr]
    exact pow_le_pow_left₀ h0 h4 2

/-- **C116** (range).  The power lies between zero and the number of events; at frequency zero it is the number of events. -/
theorem C116_range (w : ℝ) (times : List ℝ) : 0 ≤ power w times ∧ power w times ≤ times.length ∧ power 0 times = times.length := by
  refine ⟨by unfold power; positivity, ?_, ?_⟩
  · unfold power
    rcases Nat.eq_zero_or_pos times.length with h | h
    · simp [h]
    · have h' : (0 : ℝ) < times.length := Nat.cast_pos.2 h
      rw [div_le_iff₀ h', ← sq]
      exact power_sq_le times w
  · unfold power
    have : (times.map fun t => cos (0 * t)).sum = times.length := by
      induction times with
      | nil => simp
      | cons t ts ih => rw [List.map_cons, List.sum_cons, ih]; simp [add_comm]
    rw [this]
    simp only [zero_mul, sin_zero, List.map_const', List.sum_replicate, smul_zero]
    rcases eq_or_ne (times.length : ℝ) 0 with h | h
    · simp [h]
    · field_simp
      ring

/-- The work arrays when the frequency is `w`. -/
noncomputable def trigAt (dw w t : ℝ) : Trig := { sd := sin (dw * t), cd1 := cos (dw * t) - 1, swt := sin (w * t), cwt := cos (w * t) }

theorem trigInit_eq (dw w t : ℝ) : trigInit dw w t = trigAt dw w t := by
  unfold trigInit trigAt
  have h := cos_two_mul' (0.5 * (dw * t))
  have h2 := sin_sq_add_cos_sq (0.5 * (dw * t))
  have e : 2 * (0.5 * (dw * t)) = dw * t := by norm_num; ring
  rw [e] at h
  have : -2 * sin (0.5 * (dw * t)) * sin (0.5 * (dw * t)) = cos (dw * t) - 1 := by nlinarith
  simp only [this]

theorem trigNext_eq (dw w t : ℝ) : trigNext (trigAt dw w t) = trigAt dw (w + dw) t := by
  unfold trigNext trigAt
  simp only [add_mul, sin_add, cos_add]
  congr 1 <;> ring

theorem gridLoop_eq (dw : ℝ) (times : List ℝ) (n : ℕ) (w : ℝ) :
    gridLoop times.length dw n w (times.map (trigAt dw w)) = (List.range n).map fun (i : ℕ) => (w + i * dw, power (w + i * dw) times) := by
  induction n generalizing w with
  | zero => rfl
  | succ n ih =>
    rw [gridLoop, fold_pair]
    simp only [List.map_map, zero_add]
    have e : trigNext ∘ trigAt dw w = trigAt dw (w + dw) := funext fun t => trigNext_eq dw w t
    rw [e, ih, List.range_succ_eq_map, List.map_cons, List.map_map]
    simp only [CharP.cast_eq_zero, zero_mul, add_zero]
    congr 1
    · simp only [power, sq, Function.comp_def, trigAt]
    · apply List.map_congr_left
      intro i _
      simp only [Function.comp, Nat.succ_eq_add_one]
      push_cast
      have : w + dw + i * dw = w + (i + 1) * dw := by ring
      rw [this]

/-- **C116** (grid).  For any number of frequencies from two on and any events, `rsgrid` returns equally spaced frequencies from the first limit to the last, with the power that `rayleigh` returns for each: the recurrences for the sines and cosines make no error of their own.
Missing: a grid of one frequency (`C116_violated_one`). -/
theorem C116_grid_partial {nw : ℕ} (hn : 2 ≤ nw) (w_l w_u : ℝ) {times : List ℝ} (h : times ≠ []) :
    ∃ grid, rsgrid nw w_l w_u times = some grid ∧ grid.length = nw ∧
      (∀ i : ℕ, i < nw → ∃ w, grid[i]? = some (w, power w times) ∧ w = w_l + i * (w_u - w_l) / (nw - 1) ∧ (rayleigh w times).map (fun r => r.2.2) = some (power w times)) ∧
      (grid.head?).map Prod.fst = some w_l ∧ (grid.getLast?).map Prod.fst = some w_u := by
  have hn' : (2 : ℝ) ≤ nw := by exact_mod_cast hn
  have hne : (nw : ℝ) - 1 ≠ 0 := by linarith
  have e : trigInit ((w_u - w_l) / (nw - 1)) w_l = trigAt ((w_u - w_l) / (nw - 1)) w_l := funext fun t => trigInit_eq _ _ t
  have h0 : rsgrid nw w_l w_u times = some ((List.range nw).map fun (i : ℕ) => (w_l + i * ((w_u - w_l) / (nw - 1)), power (w_l + i * ((w_u - w_l) / (nw - 1))) times)) := by
    unfold rsgrid
    rw [if_neg (by push Not; exact ⟨by omega, by simpa using h⟩)]
    simp only
    rw [e, gridLoop_eq]
  refine ⟨_, h0, by simp, ?_, ?_, ?_⟩
  · intro i hi
    refine ⟨w_l + i * ((w_u - w_l) / (nw - 1)), ?_, by ring, ?_⟩
    · rw [List.getElem?_map, List.getElem?_range hi]; rfl
    · rw [C116_rayleigh _ h]; rfl
  · obtain ⟨m, rfl⟩ : ∃ m, nw = m + 1 := ⟨nw - 1, by omega⟩
    rw [List.range_succ_eq_map]
    simp
  · obtain ⟨m, rfl⟩ : ∃ m, nw = m + 1 := ⟨nw - 1, by omega⟩
    rw [List.range_succ]
    simp only [List.map_append, List.map_cons, List.map_nil, List.getLast?_append, List.getLast?_singleton, Option.some_or, Option.map_some]
    congr 1
    push_cast at hne ⊢
    have : (m : ℝ) ≠ 0 := by simpa using hne
    rw [show (m : ℝ) + 1 - 1 = m by ring]
    field_simp
    ring

example : ∃ grid, rsgrid 3 1 5 [0, 1, 4] = some grid ∧ grid.length = 3 ∧ (grid.getLast?).map Prod.fst = some 5 := by
  obtain ⟨g, a, b, -, -, c⟩ := C116_grid_partial (nw := 3) (by norm_num) 1 5 (times := [0, 1, 4]) (by simp)
  exact ⟨g, a, b, c⟩

/-- **C116, violated** (one frequency).  A grid of a single frequency must be that frequency and its power; there is no result, because of a division of zero or another number by zero. -/
theorem C116_violated_one (w_l w_u : ℝ) (times : List ℝ) : rsgrid 1 w_l w_u times = none := by
  unfold rsgrid
  rw [if_pos (Or.inl rfl)]

/-- **C117** (Bessel function).  For every argument, `lbessi0` is the log of the modified Bessel function with an error of less than one part in a million; for arguments below 3.75, two in ten million. -/
theorem C117_bessel (x : ℝ) : |lbessi0 x - log (I0 x)| ≤ 9e-7 ∧ (|x| < 3.75 → |lbessi0 x - log (I0 x)| ≤ 1.7e-7) := by
  refine ⟨?_, lbessi0_small⟩
  rcases lt_or_ge |x| 3.75 with h | h
  · exact (lbessi0_small h).trans (by norm_num)
  · exact lbessi0_large h

/-- **C117** (likelihood).  For every concentration, number of events and resultant, `lml_wk` is the log marginal likelihood with an error of at most one millionth for each event and one more. -/
theorem C117_lml (k : ℝ) (n : ℕ) (S : ℝ) : |lmlWk k n S - (log (I0 (k * S)) - n * log (I0 k))| ≤ (n + 1) * 9e-7 := by
  have h1 := (C117_bessel (k * S)).1
  have h2 := (C117_bessel k).1
  unfold lmlWk
  have e : lbessi0 (k * S) - ((n : ℤ) : ℝ) * lbessi0 k - (log (I0 (k * S)) - n * log (I0 k)) = (lbessi0 (k * S) - log (I0 (k * S))) - n * (lbessi0 k - log (I0 k)) := by push_cast; ring
  rw [e]
  refine (abs_sub _ _).trans ?_
  rw [abs_mul, Nat.abs_cast]
  have hn : (0 : ℝ) ≤ n := Nat.cast_nonneg n
  nlinarith

/-- **C117** (marginal likelihood).  For any events, frequency and concentration, `lml_wk` of the amplitude that `rayleigh` gives is the log of the likelihood averaged over all phases, to that accuracy. -/
theorem C117_marginal (w k : ℝ) {times : List ℝ} (h : times ≠ []) :
    ∃ S C P, rayleigh w times = some (S, C, P) ∧ |lmlWk k times.length (√(S ^ 2 + C ^ 2)) - log (vonMises w k times)| ≤ (times.length + 1) * 9e-7 := by
  refine ⟨_, _, _, C116_rayleigh w h, ?_⟩
  have h1 := I0_ge_one k
  have h2 := I0_ge_one (k * √((times.map fun t => sin (w * t)).sum ^ 2 + (times.map fun t => cos (w * t)).sum ^ 2))
  rw [vonMises_eq, log_div (by linarith) (by positivity), log_pow]
  exact C117_lml ..

example : ∃ S C P, rayleigh 2 [0, 1, 3] = some (S, C, P) ∧ |lmlWk 5 3 (√(S ^ 2 + C ^ 2)) - log (vonMises 2 5 [0, 1, 3])| ≤ 4 * 9e-7 := by
  obtain ⟨S, C, P, a, b⟩ := C117_marginal 2 5 (times := [0, 1, 3]) (by simp)
  refine ⟨S, C, P, a, ?_⟩
  have e : ((([0, 1, 3] : List ℝ).length : ℝ) + 1) = 4 := by norm_num
  rw [e] at b
  exact b

/-- The log Bessel function is not trivial: at 2 the series gives more than 2.27. -/
example : 2.27 < I0 2 := by
  have h := (bs_enclose 0 4 (s := 2 ^ 2 / 4) (by norm_num)).1
  rw [I0_eq]
  refine lt_of_lt_of_le ?_ h
  simp only [part, Finset.sum_range_succ, Finset.sum_range_zero, bc, Nat.factorial]
  norm_num

end Verif.Point
