import Verif.Odiag.Odiag
import Verif.Odiag.BurgProps
import Mathlib.Analysis.Complex.ExponentialBounds

/-!
# Properties C172-C173: the best autoregressive model and the test for stationarity
-/

set_option linter.unusedSectionVars false

noncomputable section

namespace Verif.Odiag

open Finset

/-- Akaike's criterion for an order with noise variance `v`. -/
def aic (n o : ℕ) (v : ℝ) : ℝ := n * Real.log v + 2 * o

/-- Schwarz's criterion. -/
def bic (n o : ℕ) (v : ℝ) : ℝ := n * Real.log v + Real.log n * o

theorem loopSum_Icc (f : ℕ → ℝ) (n : ℕ) : loopSum (fun r => f (r + 1)) n = ∑ r ∈ Icc 1 n, f r := by
  induction n with
  | zero => simp [loopSum]
  | succ n ih => rw [loopSum, ih, sum_Icc_succ_top (by omega)]

theorem candidate_some {n : ℕ} {s : Ar ℝ} {c : ℝ × Best} (h : candidate n s = some c) :
    0 < s.var ∧ 1 - ∑ r ∈ Icc 1 s.ord, s.coef r ≠ 0 ∧ c.1 = aic n s.ord s.var ∧ c.2.ord = s.ord ∧ c.2.clen = 1 / (1 - ∑ r ∈ Icc 1 s.ord, s.coef r) ^ 2
      ∧ c.2.var = s.var / (n / c.2.clen) := by
  simp only [candidate, loopSum_Icc] at h
  split_ifs at h with h0
  push Not at h0
  obtain rfl := Option.some.inj h
  exact ⟨h0.1, h0.2, rfl, rfl, rfl, rfl⟩

theorem bestGo_spec {n : ℕ} {x : ℕ → ℝ} (m : ℕ) {c : ℝ × Best} (h : bestGo n x m = some c) :
    ∃ o s, o ≤ m ∧ burg n x o = some s ∧ candidate n s = some c ∧
      ∀ o' ≤ m, ∃ s' c', burg n x o' = some s' ∧ candidate n s' = some c' ∧ c.1 ≤ c'.1 ∧ (o' < o → c.1 < c'.1) := by
  induction m generalizing c with
  | zero =>
      rw [bestGo, Option.bind_eq_some_iff] at h
      obtain ⟨s, h1, h2⟩ := h
      refine ⟨0, s, le_rfl, h1, h2, fun o' ho => ?_⟩
      obtain rfl : o' = 0 := by omega
      exact ⟨s, c, h1, h2, le_rfl, fun h => absurd h (by omega)⟩
  | succ m ih =>
      simp only [bestGo] at h
      split at h
      · next b d hb hd =>
        rw [Option.bind_eq_some_iff] at hd
        obtain ⟨s1, h1, h2⟩ := hd
        obtain ⟨o, s, ho, hs, hc, hall⟩ := ih hb
        split_ifs at h with hlt
        · obtain rfl := Option.some.inj h
          refine ⟨m + 1, s1, le_rfl, h1, h2, fun o' ho' => ?_⟩
          rcases Nat.lt_or_ge o' (m + 1) with h3 | h3
          · obtain ⟨s', c', e1, e2, e3, -⟩ := hall o' (by omega)
            exact ⟨s', c', e1, e2, by linarith, fun _ => by linarith⟩
          · obtain rfl : o' = m + 1 := by omega
            exact ⟨s1, d, h1, h2, le_rfl, fun h => absurd h (by omega)⟩
        · obtain rfl := Option.some.inj h
          refine ⟨o, s, by omega, hs, hc, fun o' ho' => ?_⟩
          rcases Nat.lt_or_ge o' (m + 1) with h3 | h3
          · exact hall o' (by omega)
          · obtain rfl : o' = m + 1 := by omega
            exact ⟨s1, d, h1, h2, not_lt.1 hlt, fun h => absurd h (by omega)⟩
      · exact absurd h (by simp)

/-- C172: the order returned is the lowest of those, up to 30 and below the length of the series, for which Akaike's criterion is least.

Missing: the criterion that the description names (`C172_violated_bic`). -/
theorem C172_best_partial {n : ℕ} {x : ℕ → ℝ} {b : Best} (h : bestar n x = some b) :
    1 ≤ b.ord ∧ b.ord ≤ 30 ∧ b.ord < n ∧ ∃ s, burg n x (b.ord - 1) = some s ∧
      ∀ o, 1 ≤ o → o ≤ 30 → o < n → ∃ s', burg n x (o - 1) = some s' ∧ aic n b.ord s.var ≤ aic n o s'.var ∧ (o < b.ord → aic n b.ord s.var < aic n o s'.var) := by
  simp only [bestar] at h
  split_ifs at h with h0
  rw [Option.map_eq_some_iff] at h
  obtain ⟨c, hc, rfl⟩ := h
  obtain ⟨o, s, ho, hs, hcd, hall⟩ := bestGo_spec _ hc
  obtain ⟨a, hi, -⟩ := burg_inv o hs
  obtain ⟨-, -, e1, e2, -, -⟩ := candidate_some hcd
  have hord := hi.ord
  rw [e2, hord]
  refine ⟨by omega, by omega, by omega, s, by simpa using hs, fun o' h1 h2 h3 => ?_⟩
  obtain ⟨s', c', f1, f2, f3, f4⟩ := hall (o' - 1) (by omega)
  obtain ⟨-, -, g1, g2, -, -⟩ := candidate_some f2
  obtain ⟨a', hi', -⟩ := burg_inv _ f1
  have hord' := hi'.ord
  rw [show o' - 1 + 1 = o' by omega] at hord'
  rw [e1, g1, hord, hord'] at f3 f4
  exact ⟨s', f1, f3, fun h => f4 (by omega)⟩

/-- C172: the correlation length is one over the square of one less the sum of the coefficients of the chosen order, and the variance of the mean is that times the noise variance divided by the length of the series; both are positive. -/
theorem C172_variance {n : ℕ} {x : ℕ → ℝ} {b : Best} (h : bestar n x = some b) :
    ∃ s, burg n x (b.ord - 1) = some s ∧ b.clen = 1 / (1 - ∑ r ∈ Icc 1 b.ord, s.coef r) ^ 2 ∧ b.var = s.var * b.clen / n ∧ 0 < b.clen ∧ 0 < b.var := by
  simp only [bestar] at h
  split_ifs at h with h0
  rw [Option.map_eq_some_iff] at h
  obtain ⟨c, hc, rfl⟩ := h
  obtain ⟨o, s, ho, hs, hcd, hall⟩ := bestGo_spec _ hc
  obtain ⟨a, hi, -⟩ := burg_inv o hs
  obtain ⟨e1, e2, e3, e4, e5, e6⟩ := candidate_some hcd
  have hord := hi.ord
  rw [e4, hord]
  have hcl : 0 < c.2.clen := by rw [e5]; positivity
  have hn : (0 : ℝ) < n := by
    have := hi.le
    exact_mod_cast (by omega : 0 < n)
  have hv : c.2.var = s.var * c.2.clen / n := by rw [e6]; field_simp
  refine ⟨s, by simpa using hs, by rw [e5, hord], hv, hcl, ?_⟩
  rw [hv]; positivity

/-! ## Behaviour when the series is scaled -/

theorem reflect_scale {u v : ℕ → ℝ} {m : ℕ} {c : ℝ} (hc : c ≠ 0) : reflect (fun t => c * u t) (fun t => c * v t) m = reflect u v m := by
  simp only [reflect, loopSum_eq]
  have e1 : ∑ t ∈ range m, ((c * u t) ^ 2 + (c * v t) ^ 2) = c ^ 2 * ∑ t ∈ range m, (u t ^ 2 + v t ^ 2) := by rw [mul_sum]; exact sum_congr rfl fun t _ => by ring
  have e2 : ∑ t ∈ range m, (c * u t) * (c * v t) = c ^ 2 * ∑ t ∈ range m, u t * v t := by rw [mul_sum]; exact sum_congr rfl fun t _ => by ring
  rw [e1, e2]
  have hc2 : c ^ 2 ≠ 0 := pow_ne_zero 2 hc
  simp only [mul_eq_zero, hc2, false_or]
  split_ifs with h
  · rfl
  · congr 1; field_simp

theorem update_scale (c k : ℝ) (m : ℕ) (u v : ℕ → ℝ) :
    update k m (fun t => c * u t, fun t => c * v t) = (fun t => c * (update k m (u, v)).1 t, fun t => c * (update k m (u, v)).2 t) := by
  refine Prod.ext (funext fun t => ?_) (funext fun t => ?_)
  · rw [(update_spec _ _ _ _).1]
    simp only [(update_spec k m (u, v) t).1]
    split_ifs <;> ring
  · rw [(update_spec _ _ _ _).2]
    simp only [(update_spec k m (u, v) t).2]
    split_ifs <;> ring

/-- The state for a scaled series. -/
def Ar.scale (c : ℝ) (s : Ar ℝ) : Ar ℝ := { ord := s.ord, wrk := fun t => c * s.wrk t, wrks := fun t => c * s.wrks t, coef := s.coef, var := c ^ 2 * s.var }

theorem burg_scale {c : ℝ} (hc : c ≠ 0) (n : ℕ) (x : ℕ → ℝ) (m : ℕ) : burg n (fun t => c * x t) m = (burg n x m).map (Ar.scale c) := by
  induction m with
  | zero =>
      simp only [burg, first]
      rw [reflect_scale hc]
      split
      · rfl
      · simp only [Option.map_some, Ar.scale, loopSum_eq]
        congr 2
        have : ∑ t ∈ range n, (c * x t) ^ 2 = c ^ 2 * ∑ t ∈ range n, x t ^ 2 := by rw [mul_sum]; exact sum_congr rfl fun t _ => by ring
        rw [this]; ring
  | succ m ih =>
      rw [burg, ih, burg]
      rcases burg n x m with _ | s
      · rfl
      · simp only [Option.map_some, Option.bind_some, next, Ar.scale]
        rw [update_scale]
        simp only
        rw [reflect_scale hc]
        split
        · rfl
        · simp only [Option.map_some, Ar.scale]
          congr 2
          ring

theorem candidate_scale {c : ℝ} (hc : c ≠ 0) (n : ℕ) (s : Ar ℝ) :
    candidate n (s.scale c) = (candidate n s).map fun q => (q.1 + n * Real.log (c ^ 2), { q.2 with var := c ^ 2 * q.2.var }) := by
  have hc2 : 0 < c ^ 2 := by positivity
  simp only [candidate, Ar.scale]
  have e : c ^ 2 * s.var ≤ 0 ↔ s.var ≤ 0 := by
    constructor
    · intro h; by_contra h0; push Not at h0; nlinarith [mul_pos hc2 h0]
    · intro h; exact mul_nonpos_of_nonneg_of_nonpos hc2.le h
  simp only [e]
  split_ifs with h
  · rfl
  · push Not at h
    simp only [Option.map_some]
    rw [Real.log_mul hc2.ne' h.1.ne']
    refine congrArg some (Prod.ext ?_ ?_)
    · simp only; ring
    · simp only [Best.mk.injEq, true_and, and_true]
      ring

/-- C172: multiplying the series by a number leaves the order and the correlation length as they are and multiplies the variance by its square. -/
theorem C172_scale {c : ℝ} (hc : c ≠ 0) (n : ℕ) (x : ℕ → ℝ) : bestar n (fun t => c * x t) = (bestar n x).map fun b => { b with var := c ^ 2 * b.var } := by
  simp only [bestar]
  split_ifs with h0
  · rfl
  have key : ∀ m, bestGo n (fun t => c * x t) m = (bestGo n x m).map fun q => (q.1 + n * Real.log (c ^ 2), { q.2 with var := c ^ 2 * q.2.var }) := by
    intro m
    induction m with
    | zero =>
        rw [bestGo, burg_scale hc, bestGo]
        rcases burg n x 0 with _ | s
        · rfl
        · exact candidate_scale hc n s
    | succ m ih =>
        have hb : (burg n (fun t => c * x t) (m + 1)).bind (candidate n) = ((burg n x (m + 1)).bind (candidate n)).map fun q => (q.1 + n * Real.log (c ^ 2), { q.2 with var := c ^ 2 * q.2.var }) := by
          rw [burg_scale hc]
          rcases burg n x (m + 1) with _ | s
          · rfl
          · exact candidate_scale hc n s
        simp only [bestGo]
        rw [ih, hb]
        rcases bestGo n x m with _ | b
        · rfl
        · rcases (burg n x (m + 1)).bind (candidate n) with _ | d
          · rfl
          · simp only [Option.map_some, add_lt_add_iff_right]
            split_ifs <;> rfl
  rw [key, Option.map_map, Option.map_map]
  rfl

theorem log_three_bounds : Real.log 3 < 3 * Real.log (25 / 16) ∧ 3 * Real.log (25 / 16) < 2 := by
  have e : 3 * Real.log (25 / 16) = Real.log ((25 / 16) ^ 3) := by rw [Real.log_pow]; norm_num
  rw [e]
  constructor
  · exact Real.log_lt_log (by norm_num) (by norm_num)
  · rw [Real.log_lt_iff_lt_exp (by norm_num)]
    have := Real.exp_one_gt_d9
    have e2 : Real.exp 2 = Real.exp 1 * Real.exp 1 := by rw [← Real.exp_add]; norm_num
    rw [e2]
    nlinarith

/-- The series 3, 0, 1. -/
def ser : ℕ → ℝ := fun t => if t = 0 then 3 else if t = 1 then 0 else if t = 2 then 1 else 0

theorem ser_first : ∃ s, burg 3 ser 0 = some s ∧ s.ord = 1 ∧ s.wrk = ser ∧ s.wrks = (fun t => ser (t + 1)) ∧ (∀ r, s.coef r = 0) ∧ s.var = 10 / 3 := by
  have hr : reflect ser (fun t => ser (t + 1)) (3 - 1) = some 0 := by
    norm_num [reflect, loopSum, ser]
  simp only [burg, first, hr]
  refine ⟨_, rfl, rfl, rfl, rfl, fun r => rfl, ?_⟩
  norm_num [loopSum, ser]

theorem ser_second : ∃ s, burg 3 ser 1 = some s ∧ s.ord = 2 ∧ s.coef 1 = 0 ∧ s.coef 2 = 3 / 5 ∧ s.var = 32 / 15 := by
  obtain ⟨s, h, ho, hw, hws, hc, hv⟩ := ser_first
  have hr : reflect (update (s.coef s.ord) (3 - s.ord - 1) (s.wrk, s.wrks)).1 (update (s.coef s.ord) (3 - s.ord - 1) (s.wrk, s.wrks)).2 (3 - (s.ord + 1)) = some (3 / 5) := by
    rw [ho, hw, hws, hc]
    norm_num [reflect, loopSum, ser, update]
  rw [burg, h, Option.bind_some]
  simp only [next, hr]
  refine ⟨_, rfl, by rw [ho], ?_, ?_, ?_⟩
  · simp [ho, hc]
  · simp [ho]
  · rw [hv]; norm_num

/-- C172 fails with respect to the description of `odiag`, which says that the order is determined by Schwarz's criterion: for the series 3, 0, 1 it is 1, while Schwarz's criterion is lower for order 2. -/
theorem C172_violated_bic : ∃ b s1 s2, bestar 3 ser = some b ∧ burg 3 ser 0 = some s1 ∧ burg 3 ser 1 = some s2 ∧ b.ord = 1 ∧ bic 3 2 s2.var < bic 3 1 s1.var := by
  obtain ⟨s1, h1, ho1, -, -, hc1, hv1⟩ := ser_first
  obtain ⟨s2, h2, ho2, hc21, hc22, hv2⟩ := ser_second
  have lg : Real.log (10 / 3) = Real.log (32 / 15) + Real.log (25 / 16) := by
    rw [← Real.log_mul (by norm_num) (by norm_num)]; norm_num
  have hb := log_three_bounds
  have c1 : candidate 3 s1 = some (3 * Real.log (10 / 3) + 2, { ord := 1, var := 10 / 3 / 3, clen := 1 }) := by
    simp only [candidate, ho1, hv1, loopSum, hc1]
    norm_num
  obtain ⟨d, c2, hd⟩ : ∃ d, candidate 3 s2 = some d ∧ d.1 = 3 * Real.log (32 / 15) + 4 := by
    simp only [candidate, ho2, hv2, loopSum, hc21, hc22]
    norm_num
  refine ⟨{ ord := 1, var := 10 / 3 / 3, clen := 1 }, s1, s2, ?_, h1, h2, rfl, ?_⟩
  · have : bestGo 3 ser 1 = some (3 * Real.log (10 / 3) + 2, { ord := 1, var := 10 / 3 / 3, clen := 1 }) := by
      simp only [bestGo, h1, h2, Option.bind_some, c1, c2, hd]
      rw [if_neg]
      rw [lg]; linarith [hb.2]
    simp [bestar, this]
  · simp only [bic, hv1, hv2]
    rw [lg]
    push_cast
    linarith [hb.1]

/-! ## C173: stationarity -/

/-- The standardised partial sums: a Brownian bridge for a stationary series of variance `var` per point. -/
def bridge (x : ℕ → ℝ) (ndat : ℕ) (var : ℝ) (del j : ℕ) : ℝ :=
  ((∑ t ∈ Ico del (del + j), x t) - j * ((∑ t ∈ Ico del ndat, x t) / (ndat - del : ℕ))) / √(var * (ndat - del : ℕ))

/-- The trapezoid rule with steps `1/n` for the square of the bridge. -/
def cramer (x : ℕ → ℝ) (ndat : ℕ) (var : ℝ) (del : ℕ) : ℝ :=
  ∑ j ∈ range (ndat - del), (1 / (ndat - del : ℕ)) * ((bridge x ndat var del j ^ 2 + bridge x ndat var del (j + 1) ^ 2) / 2)

theorem meanOf_eq (x : ℕ → ℝ) (lo n : ℕ) : meanOf x lo n = (∑ t ∈ Ico lo (lo + n), x t) / n := by
  rw [meanOf, loopSum_eq, sum_Ico_eq_sum_range, Nat.add_sub_cancel_left]

theorem cvm_eq (x : ℕ → ℝ) {ndat : ℕ} {var : ℝ} (hv : 0 ≤ var) {del : ℕ} (hd : del < ndat) : cvm x ndat var del = cramer x ndat var del := by
  obtain ⟨n, rfl⟩ : ∃ n, ndat = del + (n + 1) := ⟨ndat - del - 1, by omega⟩
  have hnn : (0 : ℝ) ≤ var * ((n + 1 : ℕ) : ℝ) := mul_nonneg hv (Nat.cast_nonneg _)
  set f : ℕ → ℝ := fun j => bridge x (del + (n + 1)) var del j ^ 2 with hf
  have h0 : f 0 = 0 := by simp [hf, bridge]
  have h1 : f (n + 1) = 0 := by
    have hne : ((n + 1 : ℕ) : ℝ) ≠ 0 := by positivity
    simp only [hf, bridge, Nat.add_sub_cancel_left]
    rw [mul_div_cancel₀ _ hne]
    simp
  have htrap : ∑ j ∈ range (n + 1), (f j + f (j + 1)) = 2 * ∑ j ∈ range n, f (j + 1) := by
    rw [sum_add_distrib, sum_range_succ' f, h0, sum_range_succ (fun j => f (j + 1)), h1]
    ring
  have hc : cramer x (del + (n + 1)) var del = (1 / ((n + 1 : ℕ) : ℝ)) * ∑ j ∈ range n, f (j + 1) := by
    simp only [cramer, Nat.add_sub_cancel_left]
    have : ∀ j ∈ range (n + 1), (1 / ((n + 1 : ℕ) : ℝ)) * ((bridge x (del + (n + 1)) var del j ^ 2 + bridge x (del + (n + 1)) var del (j + 1) ^ 2) / 2)
        = (1 / ((n + 1 : ℕ) : ℝ) / 2) * (f j + f (j + 1)) := fun j _ => by simp only [hf]; ring
    rw [sum_congr rfl this, ← mul_sum, htrap]
    ring
  rw [hc]
  simp only [cvm, loopSum_eq, Nat.add_sub_cancel_left, Nat.add_sub_cancel]
  congr 1
  refine sum_congr rfl fun j _ => ?_
  simp only [hf, bridge, Nat.add_sub_cancel_left, meanOf_eq]
  rw [div_pow, Real.sq_sqrt hnn, sum_Ico_eq_sum_range x del (del + (j + 1)), Nat.add_sub_cancel_left]
  ring

theorem six {p q : List ℕ} {i : ℕ} (h : [0, 1, 2, 3, 4, 5] = p ++ i :: q) : p = List.range i ∧ i ≤ 5 := by
  have h6 : List.range 6 = p ++ i :: q := by rw [← h]; rfl
  have hlen : p.length < 6 := by
    have := congrArg List.length h6
    simp at this; omega
  have hi : i = p.length := by
    have e : (List.range 6)[p.length]? = (p ++ i :: q)[p.length]? := by rw [h6]
    rw [List.getElem?_range hlen, List.getElem?_append_right le_rfl] at e
    simpa using e.symm
  refine ⟨?_, by omega⟩
  have e : (List.range 6).take p.length = (p ++ i :: q).take p.length := by rw [h6]
  rw [List.take_range, List.take_left, min_eq_left hlen.le] at e
  rw [hi, e]

theorem search_some {x : ℕ → ℝ} {ndat : ℕ} {var : ℝ} {l : List ℕ} {del : ℕ} (h : search x ndat var l = some del) :
    ∃ p i q, l = p ++ i :: q ∧ del = i * ndat / 10 ∧ cvm x ndat var del < ccrit ∧ ∀ j ∈ p, ¬ cvm x ndat var (j * ndat / 10) < ccrit := by
  induction l with
  | nil => simp [search] at h
  | cons i l ih =>
      simp only [search] at h
      split_ifs at h with hc
      · obtain rfl := Option.some.inj h
        exact ⟨[], i, l, rfl, rfl, hc, by simp⟩
      · obtain ⟨p, i', q, rfl, e1, e2, e3⟩ := ih h
        refine ⟨i :: p, i', q, rfl, e1, e2, fun j hj => ?_⟩
        rcases List.mem_cons.1 hj with rfl | hj
        · exact hc
        · exact e3 j hj

theorem search_none {x : ℕ → ℝ} {ndat : ℕ} {var : ℝ} {l : List ℕ} (h : search x ndat var l = none) : ∀ j ∈ l, ¬ cvm x ndat var (j * ndat / 10) < ccrit := by
  induction l with
  | nil => simp
  | cons i l ih =>
      simp only [search] at h
      split_ifs at h with hc
      intro j hj
      rcases List.mem_cons.1 hj with rfl | hj
      · exact hc
      · exact ih h j hj

/-- C173: when `odiag` reports success it has deleted the least of the fractions 0, 1/10, .., 1/2 of the series (rounded down) for which the Cramer-von Mises statistic of the remaining series is below 0.347, and the mean is that of the remaining series, at least half of the whole. The variance is th times that of the mean of the second half.

Missing: a result for every series (`C173_violated_constant`). -/
theorem C173_deleted_partial {spec : ℕ → (ℕ → ℝ) → ℝ} {ndat : ℕ} {x : ℕ → ℝ} {del ord : ℕ} {mean spsig arsig clen : ℝ}
    (h : odiag spec ndat x = some (.yes del mean spsig arsig ord clen)) :
    ∃ b, bestar (ndat / 2) (fun t => x (ndat - ndat / 2 + t) - meanOf x (ndat - ndat / 2) (ndat / 2)) = some b ∧
    ∃ i ≤ 5, del = i * ndat / 10 ∧ 2 * del ≤ ndat ∧ del < ndat ∧ mean = (∑ t ∈ Ico del ndat, x t) / (ndat - del : ℕ) ∧
      cramer x ndat (↑(ndat / 2) * b.var) del < 0.347 ∧ ∀ j < i, 0.347 ≤ cramer x ndat (↑(ndat / 2) * b.var) (j * ndat / 10) := by
  simp only [odiag] at h
  split at h
  · exact absurd h (by simp)
  · next b hb =>
    refine ⟨b, hb, ?_⟩
    have hvar : 0 ≤ (↑(ndat / 2) : ℝ) * b.var := by
      obtain ⟨s, -, -, -, -, hv⟩ := C172_variance hb
      exact mul_nonneg (Nat.cast_nonneg _) hv.le
    have hn2 : 2 ≤ ndat / 2 := by
      have := (C172_best_partial hb).2.2.1
      have := (C172_best_partial hb).1
      omega
    split at h
    · exact absurd h (by simp)
    · next d hd =>
      split at h
      · exact absurd h (by simp)
      · have hm := Diag.yes.inj (Option.some.inj h)
        obtain ⟨rfl, hmean, -⟩ := hm
        obtain ⟨p, i, q, hl, e1, e2, e3⟩ := search_some hd
        obtain ⟨rfl, hi⟩ := six hl
        have hdel : 2 * d ≤ ndat := by
          have : i * ndat ≤ 5 * ndat := Nat.mul_le_mul_right _ hi
          omega
        have hlt : d < ndat := by omega
        refine ⟨i, hi, e1, hdel, hlt, ?_, ?_, fun j hj => ?_⟩
        · rw [← hmean, meanOf_eq, Nat.add_sub_cancel' hlt.le]
        · rw [← cvm_eq x hvar hlt]; exact e2
        · have hj5 : j * ndat / 10 < ndat := by
            have : j * ndat ≤ 5 * ndat := Nat.mul_le_mul_right _ (by omega)
            omega
          rw [← cvm_eq x hvar hj5]
          exact not_lt.1 (e3 j (List.mem_range.2 hj))

/-- C173: when `odiag` reports failure, the statistic is at least 0.347 for each of the six fractions. -/
theorem C173_failed {spec : ℕ → (ℕ → ℝ) → ℝ} {ndat : ℕ} {x : ℕ → ℝ} {del : ℕ} (h : odiag spec ndat x = some (.no del)) :
    del = ndat ∧ ∃ b, bestar (ndat / 2) (fun t => x (ndat - ndat / 2 + t) - meanOf x (ndat - ndat / 2) (ndat / 2)) = some b ∧
    ∀ i ≤ 5, 0.347 ≤ cramer x ndat (↑(ndat / 2) * b.var) (i * ndat / 10) := by
  simp only [odiag] at h
  split at h
  · exact absurd h (by simp)
  · next b hb =>
    have hvar : 0 ≤ (↑(ndat / 2) : ℝ) * b.var := by
      obtain ⟨s, -, -, -, -, hv⟩ := C172_variance hb
      exact mul_nonneg (Nat.cast_nonneg _) hv.le
    have hn2 : 2 ≤ ndat / 2 := by
      have := (C172_best_partial hb).2.2.1
      have := (C172_best_partial hb).1
      omega
    split at h
    · next hd =>
      refine ⟨(Diag.no.inj (Option.some.inj h)).symm, b, hb, fun i hi => ?_⟩
      have hj5 : i * ndat / 10 < ndat := by
        have : i * ndat ≤ 5 * ndat := Nat.mul_le_mul_right _ (by omega)
        omega
      rw [← cvm_eq x hvar hj5]
      refine not_lt.1 (search_none hd i ?_)
      simp; omega
    · split at h
      · exact absurd h (by simp)
      · exact absurd h (by simp)

theorem meanOf_shift (x : ℕ → ℝ) (lo : ℕ) {n : ℕ} (hn : 0 < n) (a c : ℝ) : meanOf (fun t => c * x t + a) lo n = c * meanOf x lo n + a := by
  have : (n : ℝ) ≠ 0 := by exact_mod_cast hn.ne'
  simp only [meanOf, loopSum_eq, sum_add_distrib, sum_const, card_range, nsmul_eq_mul, ← mul_sum]
  field_simp

/-- Units of a result: deletion, order and correlation length stay. -/
def Diag.affine (a c : ℝ) : Diag → Diag
  | .no d => .no d
  | .yes d m sp ar o l => .yes d (c * m + a) (|c| * sp) (|c| * ar) o l

/-- C173: the result does not depend on the units: when the series is multiplied by `c` and shifted by `a`, so is the mean; the standard deviations are multiplied by |c|; deletion, order and correlation length stay, provided that the spectral variance has this property. -/
theorem C173_units {spec : ℕ → (ℕ → ℝ) → ℝ} {a c : ℝ} (hc : c ≠ 0) (hspec : ∀ n x, spec n (fun t => c * x t + a) = c ^ 2 * spec n x) (ndat : ℕ) (x : ℕ → ℝ) :
    odiag spec ndat (fun t => c * x t + a) = (odiag spec ndat x).map (Diag.affine a c) := by
  by_cases hn : ndat / 2 = 0
  · have e : ∀ y, bestar (ndat / 2) y = none := by intro y; simp [bestar, hn]
    simp only [odiag, e, Option.map_none]
  have h1 : (fun t => c * x (ndat - ndat / 2 + t) + a - meanOf (fun t => c * x t + a) (ndat - ndat / 2) (ndat / 2))
      = fun t => c * (x (ndat - ndat / 2 + t) - meanOf x (ndat - ndat / 2) (ndat / 2)) := by
    funext t; rw [meanOf_shift _ _ (by omega)]; ring
  have hcv : ∀ (var : ℝ) (del : ℕ), del < ndat → cvm (fun t => c * x t + a) ndat (c ^ 2 * var) del = cvm x ndat var del := by
    intro var del hd
    have hn' : 0 < ndat - del := by omega
    simp only [cvm, meanOf_shift _ _ hn', loopSum_eq]
    congr 1
    refine sum_congr rfl fun j _ => ?_
    rw [sum_add_distrib, sum_const, card_range, nsmul_eq_mul, ← mul_sum]
    have hc2 : c ^ 2 ≠ 0 := pow_ne_zero 2 hc
    rw [show c ^ 2 * var * ((ndat - del : ℕ) : ℝ) = c ^ 2 * (var * ((ndat - del : ℕ) : ℝ)) by ring, one_div, one_div, mul_inv]
    rw [show c * ∑ i ∈ range (j + 1), x (del + i) + ((j + 1 : ℕ) : ℝ) * a - ((j + 1 : ℕ) : ℝ) * (c * meanOf x del (ndat - del) + a)
      = c * (∑ i ∈ range (j + 1), x (del + i) - ((j + 1 : ℕ) : ℝ) * meanOf x del (ndat - del)) by ring, mul_pow]
    field_simp
  have hse : ∀ (var : ℝ) (l : List ℕ), (∀ i ∈ l, i ≤ 5) → search (fun t => c * x t + a) ndat (c ^ 2 * var) l = search x ndat var l := by
    intro var l
    induction l with
    | nil => intro _; rfl
    | cons i l ih =>
        intro hl
        have hi := hl i (by simp)
        have hj5 : i * ndat / 10 < ndat := by
          have : i * ndat ≤ 5 * ndat := Nat.mul_le_mul_right _ hi
          omega
        simp only [search]
        rw [hcv var _ hj5, ih fun i hi => hl i (by simp [hi])]
  simp only [odiag]
  rw [h1, C172_scale hc]
  rcases bestar (ndat / 2) (fun t => x (ndat - ndat / 2 + t) - meanOf x (ndat - ndat / 2) (ndat / 2)) with _ | b
  · rfl
  · simp only [Option.map_some]
    rw [show (↑(ndat / 2) : ℝ) * (c ^ 2 * b.var) = c ^ 2 * (↑(ndat / 2) * b.var) by ring, hse _ _ (by decide)]
    rcases hs : search x ndat (↑(ndat / 2) * b.var) [0, 1, 2, 3, 4, 5] with _ | del
    · rw [hs]; rfl
    · have hdel : del < ndat := by
        obtain ⟨p, i, q, hl, e1, -, -⟩ := search_some hs
        have hi : i ≤ 5 := by
          have : i ∈ ([0, 1, 2, 3, 4, 5] : List ℕ) := by rw [hl]; simp
          simp at this; omega
        have : i * ndat ≤ 5 * ndat := Nat.mul_le_mul_right _ hi
        omega
      have hn' : 0 < ndat - del := by omega
      have h2 : (fun t => c * x (t + del) + a - meanOf (fun t => c * x t + a) del (ndat - del)) = fun t => c * (x (t + del) - meanOf x del (ndat - del)) := by
        funext t; rw [meanOf_shift _ _ hn']; ring
      rw [hs]
      simp only [h2, C172_scale hc]
      rcases bestar (ndat - del) (fun t => x (t + del) - meanOf x del (ndat - del)) with _ | b2
      · rfl
      · simp only [Option.map_some, Diag.affine]
        rw [meanOf_shift _ _ hn', hspec, Real.sqrt_mul (sq_nonneg c), Real.sqrt_mul (sq_nonneg c), Real.sqrt_sq_eq_abs]

/-- C173 fails for a chain that does not move, surely stationary: the variance is zero divided by zero and no result is defined. -/
theorem C173_violated_constant (spec : ℕ → (ℕ → ℝ) → ℝ) (ndat : ℕ) (a : ℝ) : odiag spec ndat (fun _ => a) = none := by
  have h : bestar (ndat / 2) (fun t => (fun _ => a) (ndat - ndat / 2 + t) - meanOf (fun _ => a) (ndat - ndat / 2) (ndat / 2)) = none := by
    simp only [bestar]
    split_ifs with h0
    · rfl
    · have hz : ∀ t < ndat / 2, a - meanOf (fun _ => a) (ndat - ndat / 2) (ndat / 2) = 0 := by
        intro t ht
        have : ((ndat / 2 : ℕ) : ℝ) ≠ 0 := by exact_mod_cast (by omega : ndat / 2 ≠ 0)
        rw [meanOf_eq]
        simp only [sum_const, Nat.card_Ico, Nat.add_sub_cancel_left, nsmul_eq_mul]
        field_simp
        ring
      have hb := C171_violated_constant hz
      have : ∀ m, bestGo (ndat / 2) (fun _ => a - meanOf (fun _ => a) (ndat - ndat / 2) (ndat / 2)) m = none := by
        intro m
        induction m with
        | zero => rw [bestGo, hb]; rfl
        | succ m ih => simp only [bestGo, ih]
      rw [this]; rfl
  simp only [odiag] at *
  rw [h]

end Verif.Odiag
