import Verif.Odiag.Burg
import Mathlib.Tactic.Linarith
import Mathlib.Tactic.Ring
import Mathlib.Tactic.FieldSimp
import Mathlib.Algebra.Order.BigOperators.Ring.Finset
import Mathlib.Tactic.NormNum

/-!
# Property C171: autoregressive coefficients from the Burg recursion
-/

set_option linter.unusedSectionVars false

namespace Verif.Odiag

open Finset

variable {K : Type} [Field K] [LinearOrder K] [IsStrictOrderedRing K]

/-- The error of predicting `x t` from the `p` elements before it. -/
def fwd (x : ℕ → K) (p : ℕ) (a : ℕ → K) (t : ℕ) : K := x t - ∑ s ∈ Icc 1 p, a s * x (t - s)

/-- The error of predicting `x t` from the `p` elements after it. -/
def bwd (x : ℕ → K) (p : ℕ) (a : ℕ → K) (t : ℕ) : K := x t - ∑ s ∈ Icc 1 p, a s * x (t + s)

/-- The sum of the squares of all forward and backward prediction errors within the series. -/
def energy (x : ℕ → K) (n p : ℕ) (a : ℕ → K) : K := ∑ t ∈ Ico p n, fwd x p a t ^ 2 + ∑ t ∈ range (n - p), bwd x p a t ^ 2

/-- Coefficients one order higher, with last coefficient `k`, by the Levinson recursion. -/
def levinson (p : ℕ) (a : ℕ → K) (k : K) (r : ℕ) : K := if r = p + 1 then k else a r - k * a (p + 1 - r)

theorem loopSum_eq (f : ℕ → K) (n : ℕ) : loopSum f n = ∑ t ∈ range n, f t := by
  induction n with
  | zero => rfl
  | succ n ih => rw [loopSum, ih, sum_range_succ]

theorem update_spec (c : K) (m : ℕ) (w : (ℕ → K) × (ℕ → K)) (t : ℕ) :
    (update c m w).1 t = (if t < m then w.1 t - c * w.2 t else w.1 t) ∧ (update c m w).2 t = (if t < m then w.2 (t + 1) - c * w.1 (t + 1) else w.2 t) := by
  induction m generalizing t with
  | zero => simp [update]
  | succ m ih =>
      have a0 := ih m
      have a1 := ih (m + 1)
      have at' := ih t
      simp only [lt_irrefl, if_false, show ¬ m + 1 < m by omega] at a0 a1
      simp only [update]
      by_cases h : t = m
      · subst h
        rw [Function.update_self, Function.update_self, Function.update_of_ne (by omega), a0.1, a0.2, a1.1, a1.2]
        simp
      · rw [Function.update_of_ne h, Function.update_of_ne h, at'.1, at'.2]
        simp only [show t < m + 1 ↔ t < m by omega, and_self]

theorem update_fst (c : K) (m : ℕ) (u v : ℕ → K) {t : ℕ} (h : t < m) : (update c m (u, v)).1 t = u t - c * v t := by
  rw [(update_spec c m (u, v) t).1, if_pos h]

theorem update_snd (c : K) (m : ℕ) (u v : ℕ → K) {t : ℕ} (h : t < m) : (update c m (u, v)).2 t = v (t + 1) - c * u (t + 1) := by
  rw [(update_spec c m (u, v) t).2, if_pos h]

theorem reflect_some {u v : ℕ → K} {m : ℕ} {k : K} (h : reflect u v m = some k) :
    (∑ t ∈ range m, (u t ^ 2 + v t ^ 2)) ≠ 0 ∧ k = 2 * (∑ t ∈ range m, u t * v t) / ∑ t ∈ range m, (u t ^ 2 + v t ^ 2) := by
  simp only [reflect, loopSum_eq] at h
  split_ifs at h with h0
  exact ⟨h0, (Option.some.inj h).symm⟩

theorem reflect_abs {u v : ℕ → K} {m : ℕ} {k : K} (h : reflect u v m = some k) : |k| ≤ 1 := by
  obtain ⟨h0, rfl⟩ := reflect_some h
  have hp : 0 < ∑ t ∈ range m, (u t ^ 2 + v t ^ 2) := lt_of_le_of_ne (sum_nonneg fun t _ => by positivity) h0.symm
  rw [abs_div, abs_of_pos hp, div_le_one hp, abs_le]
  constructor
  · rw [← sub_nonneg, sub_neg_eq_add, mul_sum, ← sum_add_distrib]
    exact sum_nonneg fun t _ => by nlinarith [sq_nonneg (u t + v t)]
  · rw [← sub_nonneg, mul_sum, ← sum_sub_distrib]
    exact sum_nonneg fun t _ => by nlinarith [sq_nonneg (u t - v t)]

/-- The chosen coefficient minimises the sum of squares of both updated workspaces. -/
theorem reflect_min {u v : ℕ → K} {m : ℕ} {k : K} (h : reflect u v m = some k) (k' : K) :
    ∑ t ∈ range m, ((u t - k * v t) ^ 2 + (v t - k * u t) ^ 2) ≤ ∑ t ∈ range m, ((u t - k' * v t) ^ 2 + (v t - k' * u t) ^ 2) := by
  obtain ⟨h0, hk⟩ := reflect_some h
  have hp : 0 < ∑ t ∈ range m, (u t ^ 2 + v t ^ 2) := lt_of_le_of_ne (sum_nonneg fun t _ => by positivity) h0.symm
  have e : ∀ c : K, ∑ t ∈ range m, ((u t - c * v t) ^ 2 + (v t - c * u t) ^ 2)
      = (1 + c ^ 2) * (∑ t ∈ range m, (u t ^ 2 + v t ^ 2)) - 4 * c * ∑ t ∈ range m, u t * v t := by
    intro c
    rw [mul_sum, mul_sum, ← sum_sub_distrib]
    exact sum_congr rfl fun t _ => by ring
  rw [e, e]
  have hN : 2 * (∑ t ∈ range m, u t * v t) = k * ∑ t ∈ range m, (u t ^ 2 + v t ^ 2) := by rw [hk]; field_simp
  have : 0 ≤ (k - k') ^ 2 * ∑ t ∈ range m, (u t ^ 2 + v t ^ 2) := by positivity
  have e2 : (1 + k' ^ 2) * (∑ t ∈ range m, (u t ^ 2 + v t ^ 2)) - 4 * k' * (∑ t ∈ range m, u t * v t)
      - ((1 + k ^ 2) * (∑ t ∈ range m, (u t ^ 2 + v t ^ 2)) - 4 * k * ∑ t ∈ range m, u t * v t)
      = (k' ^ 2 - k ^ 2) * (∑ t ∈ range m, (u t ^ 2 + v t ^ 2)) - 2 * (k' - k) * (2 * ∑ t ∈ range m, u t * v t) := by ring
  rw [hN] at e2
  nlinarith

theorem bwd_levinson (x : ℕ → K) (p : ℕ) (a : ℕ → K) (k : K) (t : ℕ) :
    bwd x (p + 1) (levinson p a k) t = bwd x p a t - k * fwd x p a (t + p + 1) := by
  have h1 : ∑ s ∈ Icc 1 (p + 1), levinson p a k s * x (t + s) = ∑ s ∈ Icc 1 p, a s * x (t + s) - k * (∑ s ∈ Icc 1 p, a (p + 1 - s) * x (t + s)) + k * x (t + (p + 1)) := by
    rw [sum_Icc_succ_top (by omega), mul_sum, ← sum_sub_distrib]
    congr 1
    · refine sum_congr rfl fun s hs => ?_
      rw [mem_Icc] at hs
      rw [levinson, if_neg (by omega)]; ring
    · rw [levinson, if_pos rfl]
  have h2 : ∑ s ∈ Icc 1 p, a (p + 1 - s) * x (t + s) = ∑ s ∈ Icc 1 p, a s * x (t + p + 1 - s) := by
    refine sum_nbij' (fun s => p + 1 - s) (fun s => p + 1 - s) ?_ ?_ ?_ ?_ ?_
    · intro s hs; rw [mem_Icc] at *; omega
    · intro s hs; rw [mem_Icc] at *; omega
    · intro s hs; rw [mem_Icc] at hs; omega
    · intro s hs; rw [mem_Icc] at hs; omega
    · intro s hs; rw [mem_Icc] at hs
      rw [show t + p + 1 - (p + 1 - s) = t + s by omega]
  rw [bwd, h1, h2, bwd, fwd, show t + (p + 1) = t + p + 1 by ring]
  ring

theorem fwd_levinson (x : ℕ → K) (p : ℕ) (a : ℕ → K) (k : K) (t : ℕ) :
    fwd x (p + 1) (levinson p a k) (t + p + 1) = fwd x p a (t + p + 1) - k * bwd x p a t := by
  have h1 : ∑ s ∈ Icc 1 (p + 1), levinson p a k s * x (t + p + 1 - s) = ∑ s ∈ Icc 1 p, a s * x (t + p + 1 - s) - k * (∑ s ∈ Icc 1 p, a (p + 1 - s) * x (t + p + 1 - s)) + k * x t := by
    rw [sum_Icc_succ_top (by omega), mul_sum, ← sum_sub_distrib]
    congr 1
    · refine sum_congr rfl fun s hs => ?_
      rw [mem_Icc] at hs
      rw [levinson, if_neg (by omega)]; ring
    · rw [levinson, if_pos rfl, show t + p + 1 - (p + 1) = t by omega]
  have h2 : ∑ s ∈ Icc 1 p, a (p + 1 - s) * x (t + p + 1 - s) = ∑ s ∈ Icc 1 p, a s * x (t + s) := by
    refine sum_nbij' (fun s => p + 1 - s) (fun s => p + 1 - s) ?_ ?_ ?_ ?_ ?_
    · intro s hs; rw [mem_Icc] at *; omega
    · intro s hs; rw [mem_Icc] at *; omega
    · intro s hs; rw [mem_Icc] at hs; omega
    · intro s hs; rw [mem_Icc] at hs; omega
    · intro s hs; rw [mem_Icc] at hs
      rw [show t + (p + 1 - s) = t + p + 1 - s by omega]
  rw [fwd, h1, h2, bwd, fwd]
  ring

theorem energy_levinson (x : ℕ → K) {n p : ℕ} (hp : p + 1 ≤ n) (a : ℕ → K) (k : K) :
    energy x n (p + 1) (levinson p a k) = ∑ t ∈ range (n - (p + 1)), ((bwd x p a t - k * fwd x p a (t + p + 1)) ^ 2 + (fwd x p a (t + p + 1) - k * bwd x p a t) ^ 2) := by
  rw [energy, sum_Ico_eq_sum_range, add_comm, ← sum_add_distrib]
  refine sum_congr rfl fun t _ => ?_
  rw [bwd_levinson, show p + 1 + t = t + p + 1 by ring, fwd_levinson]

/-- The state of the recursion: the workspaces hold the prediction errors for the coefficients of the order before. -/
structure Inv (n : ℕ) (x : ℕ → K) (p : ℕ) (a : ℕ → K) (s : Ar K) : Prop where
  ord : s.ord = p + 1
  le : p + 1 < n
  wrk : ∀ t < n - (p + 1), s.wrk t = bwd x p a t
  wrks : ∀ t < n - (p + 1), s.wrks t = fwd x p a (t + p + 1)
  refl : reflect s.wrk s.wrks (n - (p + 1)) = some (s.coef (p + 1))
  coef : ∀ r, 1 ≤ r → r ≤ p + 1 → s.coef r = levinson p a (s.coef (p + 1)) r

theorem reflect_pos {u v : ℕ → K} {m : ℕ} {k : K} (h : reflect u v m = some k) : 0 < m := by
  by_contra h0
  obtain rfl : m = 0 := by omega
  simp [reflect, loopSum] at h

theorem first_inv {n : ℕ} {x : ℕ → K} {s : Ar K} (h : first n x = some s) (a : ℕ → K) : Inv n x 0 a s := by
  simp only [first] at h
  split at h
  · exact absurd h (by simp)
  · next k hk =>
    obtain rfl := Option.some.inj h
    have := reflect_pos hk
    refine ⟨rfl, by omega, fun t _ => by simp [bwd], fun t _ => by simp [fwd], hk, fun r h1 h2 => ?_⟩
    obtain rfl : r = 1 := by omega
    simp [levinson]

theorem next_inv {n : ℕ} {x : ℕ → K} {p : ℕ} {a : ℕ → K} {s s' : Ar K} (hi : Inv n x p a s) (h : next n s = some s') : Inv n x (p + 1) s.coef s' := by
  simp only [next] at h
  split at h
  · exact absurd h (by simp)
  · next k hk =>
    obtain rfl := Option.some.inj h
    have hm := reflect_pos hk
    rw [hi.ord] at hk hm
    have hb : ∀ t, bwd x (p + 1) s.coef t = bwd x (p + 1) (levinson p a (s.coef (p + 1))) t := by
      intro t
      simp only [bwd]
      congr 1
      refine sum_congr rfl fun r hr => ?_
      rw [mem_Icc] at hr
      rw [hi.coef r hr.1 hr.2]
    have hf : ∀ t, fwd x (p + 1) s.coef t = fwd x (p + 1) (levinson p a (s.coef (p + 1))) t := by
      intro t
      simp only [fwd]
      congr 1
      refine sum_congr rfl fun r hr => ?_
      rw [mem_Icc] at hr
      rw [hi.coef r hr.1 hr.2]
    refine ⟨by rw [hi.ord], by omega, fun t ht => ?_, fun t ht => ?_, ?_, fun r h1 h2 => ?_⟩
    · simp only [hi.ord]
      rw [update_fst _ _ _ _ (by omega), hi.wrk t (by omega), hi.wrks t (by omega), hb, bwd_levinson]
    · simp only [hi.ord]
      rw [update_snd _ _ _ _ (by omega), hi.wrk (t + 1) (by omega), hi.wrks (t + 1) (by omega), hf,
        show t + (p + 1) + 1 = (t + 1) + p + 1 by ring, fwd_levinson]
    · simp only [hi.ord, if_true]
      exact hk
    · simp only [hi.ord, if_true, levinson]

theorem burg_inv {n : ℕ} {x : ℕ → K} (m : ℕ) {s : Ar K} (h : burg n x m = some s) :
    ∃ a, Inv n x m a s ∧ (∀ m', m = m' + 1 → ∃ s0, burg n x m' = some s0 ∧ a = s0.coef ∧ s.var = s0.var * (1 - s.coef (m + 1) ^ 2)) := by
  induction m generalizing s with
  | zero => exact ⟨fun _ => 0, first_inv h _, fun m' hm => absurd hm (by omega)⟩
  | succ m ih =>
      rw [burg, Option.bind_eq_some_iff] at h
      obtain ⟨s0, h0, h1⟩ := h
      obtain ⟨a0, hi, -⟩ := ih h0
      have hn := next_inv hi h1
      refine ⟨s0.coef, hn, fun m' hm => ?_⟩
      obtain rfl : m = m' := by omega
      refine ⟨s0, h0, rfl, ?_⟩
      simp only [next] at h1
      split at h1
      · exact absurd h1 (by simp)
      · obtain rfl := Option.some.inj h1
        simp only [hi.ord, if_true]

/-- C171: from each order to the next the coefficients follow the Levinson recursion. -/
theorem C171_levinson {n : ℕ} {x : ℕ → K} {m : ℕ} {s s' : Ar K} (h : burg n x m = some s) (h' : burg n x (m + 1) = some s') :
    s.ord = m + 1 ∧ s'.ord = m + 2 ∧ ∀ r, 1 ≤ r → r ≤ m + 1 → s'.coef r = s.coef r - s'.coef (m + 2) * s.coef (m + 2 - r) := by
  obtain ⟨a, hi, -⟩ := burg_inv m h
  obtain ⟨a', hi', hl⟩ := burg_inv (m + 1) h'
  obtain ⟨s0, h0, rfl, -⟩ := hl m rfl
  obtain rfl : s = s0 := Option.some.inj (h.symm.trans h0)
  refine ⟨hi.ord, hi'.ord, fun r h1 h2 => ?_⟩
  rw [hi'.coef r h1 (by omega), levinson, if_neg (by omega)]

/-- C171: the last coefficient of each order is the one for which the sum of all squared forward and backward prediction errors is least, the others following by the Levinson recursion. -/
theorem C171_optimal {n : ℕ} {x : ℕ → K} {m : ℕ} {s s' : Ar K} (h : burg n x m = some s) (h' : burg n x (m + 1) = some s') (k : K) :
    energy x n (m + 2) s'.coef ≤ energy x n (m + 2) (levinson (m + 1) s.coef k) := by
  obtain ⟨a', hi', hl⟩ := burg_inv (m + 1) h'
  obtain ⟨s0, h0, rfl, -⟩ := hl m rfl
  obtain rfl : s = s0 := Option.some.inj (h.symm.trans h0)
  have hle := hi'.le
  have e : energy x n (m + 2) s'.coef = energy x n (m + 2) (levinson (m + 1) s.coef (s'.coef (m + 2))) := by
    simp only [energy]
    have hb : ∀ t, bwd x (m + 2) s'.coef t = bwd x (m + 2) (levinson (m + 1) s.coef (s'.coef (m + 2))) t := by
      intro t
      simp only [bwd]
      congr 1
      refine sum_congr rfl fun r hr => ?_
      rw [mem_Icc] at hr
      rw [hi'.coef r hr.1 hr.2]
    have hf : ∀ t, fwd x (m + 2) s'.coef t = fwd x (m + 2) (levinson (m + 1) s.coef (s'.coef (m + 2))) t := by
      intro t
      simp only [fwd]
      congr 1
      refine sum_congr rfl fun r hr => ?_
      rw [mem_Icc] at hr
      rw [hi'.coef r hr.1 hr.2]
    simp only [hb, hf]
  rw [e, energy_levinson x (by omega), energy_levinson x (by omega)]
  have := reflect_min hi'.refl k
  have conv : ∀ c : K, ∑ t ∈ range (n - (m + 1 + 1)), ((bwd x (m + 1) s.coef t - c * fwd x (m + 1) s.coef (t + (m + 1) + 1)) ^ 2 + (fwd x (m + 1) s.coef (t + (m + 1) + 1) - c * bwd x (m + 1) s.coef t) ^ 2)
      = ∑ t ∈ range (n - (m + 1 + 1)), ((s'.wrk t - c * s'.wrks t) ^ 2 + (s'.wrks t - c * s'.wrk t) ^ 2) := by
    intro c
    refine sum_congr rfl fun t ht => ?_
    rw [mem_range] at ht
    rw [hi'.wrk t ht, hi'.wrks t ht]
  rw [conv, conv]
  exact this

/-- C171: the first order minimises the sum of squared errors over all coefficients. -/
theorem C171_first {n : ℕ} {x : ℕ → K} {s : Ar K} (h : burg n x 0 = some s) (a : ℕ → K) : energy x n 1 s.coef ≤ energy x n 1 a := by
  have hi := first_inv h a
  have hle := hi.le
  have e : ∀ b : ℕ → K, energy x n 1 b = ∑ t ∈ range (n - 1), ((s.wrk t - b 1 * s.wrks t) ^ 2 + (s.wrks t - b 1 * s.wrk t) ^ 2) := by
    intro b
    rw [energy, sum_Ico_eq_sum_range, add_comm, ← sum_add_distrib]
    refine sum_congr rfl fun t ht => ?_
    rw [mem_range] at ht
    rw [hi.wrk t ht, hi.wrks t ht]
    simp [bwd, fwd, add_comm]
  rw [e, e]
  exact reflect_min hi.refl (a 1)

/-- C171: the last coefficient of every order is between -1 and 1. -/
theorem C171_stable {n : ℕ} {x : ℕ → K} {m : ℕ} {s : Ar K} (h : burg n x m = some s) : |s.coef (m + 1)| ≤ 1 := by
  obtain ⟨a, hi, -⟩ := burg_inv m h
  exact reflect_abs hi.refl

theorem first_var {n : ℕ} {x : ℕ → K} {s : Ar K} (h : burg n x 0 = some s) : s.var = (∑ t ∈ range n, x t ^ 2) / n * (1 - s.coef 1 ^ 2) := by
  simp only [burg, first] at h
  split at h
  · exact absurd h (by simp)
  · obtain rfl := Option.some.inj h
    simp only [loopSum_eq]

theorem one_sub_sq {k : K} (h : |k| ≤ 1) : 0 ≤ 1 - k ^ 2 ∧ 1 - k ^ 2 ≤ 1 := by
  have := abs_le.1 h
  constructor
  · nlinarith
  · nlinarith [sq_nonneg k]

/-- C171: the noise variance is never negative, never above the mean square of the series, and never grows with the order. -/
theorem C171_variance {n : ℕ} {x : ℕ → K} {m : ℕ} {s : Ar K} (h : burg n x m = some s) :
    0 ≤ s.var ∧ s.var ≤ (∑ t ∈ range n, x t ^ 2) / n ∧ ∀ s', burg n x (m + 1) = some s' → s'.var ≤ s.var := by
  have hnn : ∀ m s, burg n x m = some s → 0 ≤ s.var ∧ s.var ≤ (∑ t ∈ range n, x t ^ 2) / n := by
    intro m
    induction m with
    | zero =>
        intro s h
        have hk := one_sub_sq (C171_stable h)
        rw [first_var h]
        have : 0 ≤ (∑ t ∈ range n, x t ^ 2) / (n : K) := div_nonneg (sum_nonneg fun t _ => sq_nonneg _) (Nat.cast_nonneg n)
        simp only [zero_add] at hk
        constructor
        · exact mul_nonneg this hk.1
        · nlinarith
    | succ m ih =>
        intro s h
        have hk := one_sub_sq (C171_stable h)
        obtain ⟨a, hi, hl⟩ := burg_inv (m + 1) h
        obtain ⟨s0, h0, -, hv⟩ := hl m rfl
        have := ih s0 h0
        rw [hv]
        constructor
        · exact mul_nonneg this.1 hk.1
        · nlinarith
  refine ⟨(hnn m s h).1, (hnn m s h).2, fun s' h' => ?_⟩
  have hk := one_sub_sq (C171_stable h')
  obtain ⟨a, hi, hl⟩ := burg_inv (m + 1) h'
  obtain ⟨s0, h0, -, hv⟩ := hl m rfl
  obtain rfl : s = s0 := Option.some.inj (h.symm.trans h0)
  rw [hv]
  have := (hnn m s h).1
  nlinarith

/-- C171: no coefficients are found for an order that is not below the length of the series. -/
theorem C171_short {n : ℕ} {x : ℕ → K} {m : ℕ} {s : Ar K} (h : burg n x m = some s) : m + 1 < n := by
  obtain ⟨a, hi, -⟩ := burg_inv m h
  exact hi.le

/-- C171 fails for a chain that does not move: with its mean subtracted it is zero throughout, and the first coefficient is zero divided by zero. -/
theorem C171_violated_constant {n : ℕ} {x : ℕ → K} (h : ∀ t < n, x t = 0) : burg n x 0 = none := by
  have : reflect x (fun t => x (t + 1)) (n - 1) = none := by
    simp only [reflect, loopSum_eq]
    rw [if_pos]
    refine sum_eq_zero fun t ht => ?_
    rw [mem_range] at ht
    rw [h t (by omega), h (t + 1) (by omega)]
    ring
  simp only [burg, first, this]

/-- Beyond that the recursion stops only when the next order has no prediction errors left to work with.

Missing: a series that is zero throughout (`C171_violated_constant`). -/
theorem C171_stops_partial {n : ℕ} {x : ℕ → K} {m : ℕ} {s : Ar K} (h : burg n x m = some s) (hn : m + 2 < n) :
    burg n x (m + 1) = none ↔ (∀ t, m + 2 ≤ t → t < n → fwd x (m + 1) s.coef t = 0) ∧ ∀ t, t + m + 2 < n → bwd x (m + 1) s.coef t = 0 := by
  obtain ⟨a, hi, -⟩ := burg_inv m h
  have hb : ∀ t, bwd x (m + 1) s.coef t = bwd x (m + 1) (levinson m a (s.coef (m + 1))) t := by
    intro t
    simp only [bwd]
    congr 1
    refine sum_congr rfl fun r hr => ?_
    rw [mem_Icc] at hr
    rw [hi.coef r hr.1 hr.2]
  have hf : ∀ t, fwd x (m + 1) s.coef t = fwd x (m + 1) (levinson m a (s.coef (m + 1))) t := by
    intro t
    simp only [fwd]
    congr 1
    refine sum_congr rfl fun r hr => ?_
    rw [mem_Icc] at hr
    rw [hi.coef r hr.1 hr.2]
  have hw : ∀ t < n - (m + 2), (update (s.coef s.ord) (n - s.ord - 1) (s.wrk, s.wrks)).1 t = bwd x (m + 1) s.coef t := by
    intro t ht
    rw [hi.ord, update_fst _ _ _ _ (by omega), hi.wrk t (by omega), hi.wrks t (by omega), hb, bwd_levinson]
  have hws : ∀ t < n - (m + 2), (update (s.coef s.ord) (n - s.ord - 1) (s.wrk, s.wrks)).2 t = fwd x (m + 1) s.coef (t + m + 2) := by
    intro t ht
    rw [hi.ord, update_snd _ _ _ _ (by omega), hi.wrk (t + 1) (by omega), hi.wrks (t + 1) (by omega), hf,
      show t + m + 2 = (t + 1) + m + 1 by ring, fwd_levinson]
  have key : burg n x (m + 1) = none ↔ ∑ t ∈ range (n - (m + 2)), (bwd x (m + 1) s.coef t ^ 2 + fwd x (m + 1) s.coef (t + m + 2) ^ 2) = 0 := by
    rw [burg, h, Option.bind_some]
    have e : ∑ t ∈ range (n - (m + 2)), (bwd x (m + 1) s.coef t ^ 2 + fwd x (m + 1) s.coef (t + m + 2) ^ 2)
        = ∑ t ∈ range (n - (s.ord + 1)), ((update (s.coef s.ord) (n - s.ord - 1) (s.wrk, s.wrks)).1 t ^ 2 + (update (s.coef s.ord) (n - s.ord - 1) (s.wrk, s.wrks)).2 t ^ 2) := by
      rw [hi.ord] at *
      refine sum_congr rfl fun t ht => ?_
      rw [mem_range] at ht
      rw [hw t ht, hws t ht]
    rw [e]
    simp only [next, reflect, loopSum_eq]
    split_ifs with h0
    · simp [h0]
    · simp [h0]
  rw [key, sum_eq_zero_iff_of_nonneg fun t _ => by positivity]
  constructor
  · intro hz
    have hz' : ∀ t, t < n - (m + 2) → bwd x (m + 1) s.coef t = 0 ∧ fwd x (m + 1) s.coef (t + m + 2) = 0 := by
      intro t ht
      have := hz t (mem_range.2 ht)
      have a1 := sq_nonneg (bwd x (m + 1) s.coef t)
      have a2 := sq_nonneg (fwd x (m + 1) s.coef (t + m + 2))
      exact ⟨pow_eq_zero_iff (two_ne_zero) |>.1 (by linarith), pow_eq_zero_iff (two_ne_zero) |>.1 (by linarith)⟩
    refine ⟨fun t h1 h2 => ?_, fun t h1 => (hz' t (by omega)).1⟩
    have := (hz' (t - (m + 2)) (by omega)).2
    rwa [show t - (m + 2) + m + 2 = t by omega] at this
  · rintro ⟨h1, h2⟩ t ht
    rw [mem_range] at ht
    rw [h1 (t + m + 2) (by omega) (by omega), h2 t (by omega)]
    ring

/-- C171: one less the sum of the coefficients is the product of one less each last coefficient. -/
theorem C171_sum {n : ℕ} {x : ℕ → K} {m : ℕ} {s s' : Ar K} (h : burg n x m = some s) (h' : burg n x (m + 1) = some s') :
    1 - ∑ r ∈ Icc 1 (m + 2), s'.coef r = (1 - s'.coef (m + 2)) * (1 - ∑ r ∈ Icc 1 (m + 1), s.coef r) := by
  have hl := (C171_levinson h h').2.2
  have h2 : ∑ r ∈ Icc 1 (m + 1), s.coef (m + 2 - r) = ∑ r ∈ Icc 1 (m + 1), s.coef r := by
    refine sum_nbij' (fun s => m + 2 - s) (fun s => m + 2 - s) ?_ ?_ ?_ ?_ ?_
    · intro s hs; rw [mem_Icc] at *; omega
    · intro s hs; rw [mem_Icc] at *; omega
    · intro s hs; rw [mem_Icc] at hs; omega
    · intro s hs; rw [mem_Icc] at hs; omega
    · intro s hs; rfl
  rw [sum_Icc_succ_top (by omega)]
  have h1 : ∑ r ∈ Icc 1 (m + 1), s'.coef r = ∑ r ∈ Icc 1 (m + 1), s.coef r - s'.coef (m + 2) * ∑ r ∈ Icc 1 (m + 1), s.coef r := by
    conv_rhs => rw [← h2, mul_sum]
    rw [h2, ← sum_sub_distrib]
    refine sum_congr rfl fun r hr => ?_
    rw [mem_Icc] at hr
    exact hl r hr.1 hr.2
  rw [h1]
  ring

/-- The series 1, -1, 0 has coefficients of order 1 and 2. -/
example : ((burg 3 (fun t => if t = 0 then (1 : ℚ) else if t = 1 then -1 else 0) 0).map fun s => (s.coef 1, s.var)) = some (-2/3, 10/27)
    ∧ ((burg 3 (fun t => if t = 0 then (1 : ℚ) else if t = 1 then -1 else 0) 1).map fun s => (s.coef 1, s.coef 2, s.var)) = some (-6/5, -4/5, 2/15) := by
  decide +kernel

end Verif.Odiag
