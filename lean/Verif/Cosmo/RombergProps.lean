import Verif.Cosmo.QrombLemmas
import Mathlib.Analysis.SpecialFunctions.Trigonometric.Bounds

/-!
# Properties C154, C155, C156: Romberg integration
-/

set_option linter.unusedSectionVars false

namespace Verif.Romberg

open Finset Polynomial

/-! ## Specification -/

/-- Richardson's extrapolation: the value at zero of the polynomial through the points (4^-j, trapezoid rule with 2^j panels), j = i, ..., i + m. -/
noncomputable def richardson (f : ℝ → ℝ) (a b : ℝ) (m i : ℕ) : ℝ :=
  (Lagrange.interpolate (Icc i (i + m)) (fun j => ((1 / 4 : ℝ) ^ j)) (fun j => trapezoid f a b (2 ^ j))).eval 0

theorem extrap_eq (f : ℝ → ℝ) (a b : ℝ) (m i : ℕ) : extrap f a b m i = richardson f a b m i :=
  nev_eq 0 m i fun j _ k _ e => by by_contra h; exact quarter_inj j k h e

/-! ## C154 -/

/-- C154, the part that holds, for every integrand, limits (in any order) and tolerance, and whatever the saved variables held: equal limits give 0; otherwise the value is the extrapolation from the last five of at most 20 trapezoid rules, each with twice the panels of the one before; if there was no message, the value is zero or differs by less than the tolerance from the extrapolation from four of the five.  For polynomials of degree up to nine the value is the integral.  Missing: that the value is near the integral for other functions, see `C154_violated`. -/
theorem C154_qromb_partial (a b eps : ℝ) (h0 s0 : ℕ → ℝ) (it0 : ℕ) (ss0 dss0 : ℝ) :
    (∀ f : ℝ → ℝ, a = b → (qromb f a b eps h0 s0 it0 ss0 dss0).ss = 0) ∧
    (∀ f : ℝ → ℝ, a ≠ b → let r := qromb f a b eps h0 s0 it0 ss0 dss0
      5 ≤ r.stages ∧ r.stages ≤ 20 ∧ r.ss = richardson f a b 4 (r.stages - 5) ∧ (r.paused = true → r.stages = 20) ∧
      (r.paused = false → r.ss = 0 ∨ |r.ss - richardson f a b 3 (r.stages - 5)| < eps * |r.ss| ∨ |r.ss - richardson f a b 3 (r.stages - 4)| < eps * |r.ss|)) ∧
    ∀ p : ℝ[X], p.natDegree ≤ 9 → (qromb (fun x => p.eval x) a b eps h0 s0 it0 ss0 dss0).ss = ∫ x in a..b, p.eval x := by
  refine ⟨fun f h => by simp [qromb, h], fun f h => ?_, fun p hp => ?_⟩
  · have := qromb_spec f h eps h0 s0 it0 ss0 dss0
    simp only [← extrap_eq]
    exact ⟨this.ge, this.le, this.val, this.paused, this.conv⟩
  · by_cases h : a = b
    · subst h; simp [qromb]
    · rw [(qromb_spec _ h eps h0 s0 it0 ss0 dss0).val, extrap_exact p 4 (by omega)]

theorem nev_zero (xs ys : ℕ → ℝ) (x : ℝ) (m i : ℕ) (h : ∀ j ≤ m, ys (i + j) = 0) : nev xs ys x m i = 0 := by
  induction m generalizing i with
  | zero => exact h 0 le_rfl
  | succ m ih => rw [nev, ih i fun j hj => h j (by omega), ih (i + 1) fun j hj => by rw [show i + 1 + j = i + (j + 1) by ring]; exact h _ (by omega)]; simp

/-- A function that vanishes at the 17 points of the first five rules gets the integral 0 without any message, however large its integral is: here 1/2 times the scale. -/
theorem C154_violated (eps c : ℝ) (h0 s0 : ℕ → ℝ) (it0 : ℕ) (ss0 dss0 : ℝ) :
    let r := qromb (fun x => c * Real.sin (16 * Real.pi * x) ^ 2) 0 1 eps h0 s0 it0 ss0 dss0
    r.ss = 0 ∧ r.paused = false ∧ ∫ x in (0 : ℝ)..1, c * Real.sin (16 * Real.pi * x) ^ 2 = c / 2 := by
  intro r
  have hs := qromb_spec (fun x => c * Real.sin (16 * Real.pi * x) ^ 2) zero_ne_one eps h0 s0 it0 ss0 dss0
  have hf : ∀ j ≤ 4, trapezoid (fun x => c * Real.sin (16 * Real.pi * x) ^ 2) 0 1 (2 ^ (0 + j)) = 0 := by
    intro j hj
    rw [zero_add]
    have : ∀ k : ℕ, Real.sin (16 * Real.pi * (0 + k * ((1 - 0) / ((2 ^ j : ℕ) : ℝ)))) = 0 := by
      intro k
      have e : 16 * Real.pi * (0 + k * ((1 - 0) / ((2 ^ j : ℕ) : ℝ))) = ((k * 2 ^ (4 - j) : ℕ) : ℝ) * Real.pi := by
        have h2 : (2 : ℝ) ^ (4 - j) * 2 ^ j = 16 := by rw [← pow_add, Nat.sub_add_cancel hj]; norm_num
        push_cast
        rw [← h2]; field_simp; ring
      rw [e, Real.sin_nat_mul_pi]
    simp only [trapezoid]
    refine sum_eq_zero fun k _ => ?_
    simp only [this]; simp
  have hz : extrap (fun x => c * Real.sin (16 * Real.pi * x) ^ 2) 0 1 4 0 = 0 := nev_zero _ _ _ _ _ hf
  have h5 : r.stages = 5 := by
    by_contra hne
    exact hs.nonzero 5 le_rfl (by norm_num) (lt_of_le_of_ne hs.ge (Ne.symm hne)) hz
  refine ⟨by rw [hs.val, show (qromb (fun x => c * Real.sin (16 * Real.pi * x) ^ 2) 0 1 eps h0 s0 it0 ss0 dss0).stages = 5 from h5]; exact hz, ?_, ?_⟩
  · by_contra hp
    have := hs.paused (by simpa using hp)
    have h5' : (qromb (fun x => c * Real.sin (16 * Real.pi * x) ^ 2) 0 1 eps h0 s0 it0 ss0 dss0).stages = 5 := h5
    omega
  · rw [intervalIntegral.integral_const_mul]
    have h1 := intervalIntegral.integral_comp_mul_left (a := 0) (b := 1) (fun x => Real.sin x ^ 2) (c := 16 * Real.pi) (by positivity)
    rw [h1, integral_sin_sq]
    have : Real.sin (16 * Real.pi * 1) = 0 := by
      have := Real.sin_nat_mul_pi 16; push_cast at this; rw [mul_one, this]
    rw [this]
    have hp := Real.pi_ne_zero
    simp
    field_simp

/-! ## C155 -/

theorem extrap_zero (f : ℝ → ℝ) (a b : ℝ) (i : ℕ) : extrap f a b 0 i = trapezoid f a b (2 ^ i) := rfl

theorem extrap_succ (f : ℝ → ℝ) (a b : ℝ) (m i : ℕ) : extrap f a b (m + 1) i = extrap f a b m (i + 1) + (extrap f a b m (i + 1) - extrap f a b m i) / (4 ^ (m + 1) - 1) := by
  rw [extrap, nev]
  change ((0 - (1 / 4 : ℝ) ^ (i + m + 1)) * extrap f a b m i + ((1 / 4 : ℝ) ^ i - 0) * extrap f a b m (i + 1)) / ((1 / 4 : ℝ) ^ i - (1 / 4) ^ (i + m + 1)) = _
  have h4 : (1 : ℝ) < 4 ^ (m + 1) := one_lt_pow₀ (by norm_num) (by omega)
  have h4' : (4 : ℝ) ^ (m + 1) - 1 ≠ 0 := by linarith [h4] |> fun h : 0 < (4 : ℝ) ^ (m + 1) - 1 => h.ne'
  have e : (1 / 4 : ℝ) ^ (i + m + 1) = (1 / 4) ^ i / 4 ^ (m + 1) := by rw [show i + m + 1 = i + (m + 1) by ring, pow_add, div_pow 1 4 (m + 1), one_pow]; ring
  have hp : (1 / 4 : ℝ) ^ i ≠ 0 := by positivity
  have h40 : (4 : ℝ) ^ (m + 1) ≠ 0 := by positivity
  rw [e, show (1 / 4 : ℝ) ^ i - (1 / 4) ^ i / 4 ^ (m + 1) = (1 / 4) ^ i * (4 ^ (m + 1) - 1) / 4 ^ (m + 1) by field_simp]
  field_simp
  ring

theorem rowGo_spec (f : ℝ → ℝ) (a b : ℝ) (n : ℕ) (prev : ℕ → ℝ) (hprev : ∀ i < n, prev i = extrap f a b i (n - 1 - i)) (k m : ℕ) (hm : m + 1 + k = n + 1) :
    rowGo prev k (m + 1) (extrap f a b m (n - m)) = (List.range k).map fun t => extrap f a b (m + 1 + t) (n - (m + 1 + t)) := by
  induction k generalizing m with
  | zero => rfl
  | succ k ih =>
    have e : extrap f a b m (n - m) + (extrap f a b m (n - m) - prev (m + 1 - 1)) / (4 ^ (m + 1) - 1) = extrap f a b (m + 1) (n - (m + 1)) := by
      rw [Nat.add_sub_cancel, hprev m (by omega), extrap_succ, show n - (m + 1) + 1 = n - m by omega, show n - 1 - m = n - (m + 1) by omega]
    simp only [rowGo]
    rw [e, ih (m + 1) (by omega), List.range_succ_eq_map, List.map_cons, List.map_map]
    congr 1
    refine List.map_congr_left fun t _ => ?_
    simp only [Function.comp, Nat.succ_eq_add_one]
    rw [show m + 1 + 1 + t = m + 1 + (t + 1) by ring]

/-- The rows of the table. -/
noncomputable def tableRow (f : ℝ → ℝ) (a b : ℝ) (n : ℕ) : List ℝ := (List.range (n + 1)).map fun m => extrap f a b m (n - m)

theorem tableRow_get (f : ℝ → ℝ) (a b : ℝ) (n m : ℕ) (h : m ≤ n) : (tableRow f a b n).getD m 0 = extrap f a b m (n - m) := by
  rw [tableRow, List.getD_eq_getElem _ _ (by simp; omega)]; simp

theorem list_sum_range (g : ℕ → ℝ) (n : ℕ) : ((List.range n).map g).sum = ∑ k ∈ range n, g k := by
  induction n with
  | zero => simp
  | succ n ih => rw [List.range_succ, List.map_append, List.sum_append, ih, sum_range_succ]; simp

theorem row_spec (f : ℝ → ℝ) (a b : ℝ) (n : ℕ) : row f a b (n + 1) (tableRow f a b n) = tableRow f a b (n + 1) := by
  have h2 : ((2 ^ n : ℕ) : ℝ) ≠ 0 := by positivity
  have e0 : 1 / 2 * (tableRow f a b n).getD 0 0 + (b - a) / 2 ^ (n + 1) * ((List.range (2 ^ (n + 1 - 1))).map fun k : ℕ => f (a + (2 * ((k : ℝ) + 1) - 1) * ((b - a) / 2 ^ (n + 1)))).sum = extrap f a b 0 (n + 1) := by
    rw [tableRow_get _ _ _ _ _ (Nat.zero_le n), extrap_zero, extrap_zero, Nat.sub_zero, show 2 ^ (n + 1) = 2 * 2 ^ n from pow_succ' 2 n, trapezoid_double f a b (pow_pos (by norm_num) n).ne', Nat.add_sub_cancel]
    have : ((List.range (2 ^ n)).map fun k : ℕ => f (a + (2 * ((k : ℝ) + 1) - 1) * ((b - a) / 2 ^ (n + 1)))).sum = ∑ k ∈ range (2 ^ n), f (a + (k + 1 / 2) * ((b - a) / ((2 ^ n : ℕ) : ℝ))) := by
      rw [list_sum_range]
      refine sum_congr rfl fun k _ => ?_
      congr 1; push_cast; rw [pow_succ]; field_simp; ring
    rw [this]
    push_cast
    rw [pow_succ]
    field_simp
  simp only [row]
  rw [e0, show extrap f a b 0 (n + 1) = extrap f a b 0 (n + 1 - 0) from rfl,
    rowGo_spec f a b (n + 1) _ (fun i hi => by rw [tableRow_get _ _ _ _ _ (by omega), show n + 1 - 1 - i = n - i by omega]) (n + 1) 0 (by omega)]
  rw [tableRow, List.range_succ_eq_map (n := n + 1), List.map_cons, List.map_map]
  congr 1
  refine List.map_congr_left fun t _ => ?_
  simp only [Function.comp, Nat.succ_eq_add_one]
  rw [show 0 + 1 + t = t + 1 by ring]

theorem romLoop_spec (f : ℝ → ℝ) (a b eps : ℝ) (fuel n : ℕ) :
    (∀ v N, romLoop f a b eps fuel (n + 1) (tableRow f a b n) = some (v, N) →
      n + 1 ≤ N ∧ N ≤ n + fuel ∧ v = extrap f a b N 0 ∧ |extrap f a b (N - 1) 1 - extrap f a b N 0| < eps) ∧
    (∀ N, n + 1 ≤ N → N ≤ n + fuel → |extrap f a b (N - 1) 1 - extrap f a b N 0| < eps → ∃ v N', N' ≤ N ∧ romLoop f a b eps fuel (n + 1) (tableRow f a b n) = some (v, N')) := by
  induction fuel generalizing n with
  | zero => exact ⟨fun v N h => by simp [romLoop] at h, fun N h1 h2 => by omega⟩
  | succ fuel ih =>
    simp only [romLoop]
    rw [row_spec, tableRow_get _ _ _ _ _ (by omega), tableRow_get _ _ _ _ _ le_rfl, Nat.add_sub_cancel, show n + 1 - n = 1 by omega, Nat.sub_self]
    split_ifs with hc
    · refine ⟨fun v N h => ?_, fun N h1 _ _ => ⟨_, n + 1, h1, rfl⟩⟩
      simp only [Option.some.injEq, Prod.mk.injEq] at h
      obtain ⟨rfl, rfl⟩ := h
      exact ⟨le_rfl, by omega, rfl, by simpa using hc⟩
    · obtain ⟨i1, i2⟩ := ih (n + 1)
      refine ⟨fun v N h => ?_, fun N h1 h2 h3 => ?_⟩
      · obtain ⟨a1, a2, a3, a4⟩ := i1 v N h
        exact ⟨by omega, by omega, a3, a4⟩
      · rcases Nat.eq_or_lt_of_le h1 with e | e
        · exfalso; apply hc; rw [← e] at h3; simpa using h3
        · exact i2 N e (by omega) h3

theorem romberg_start (f : ℝ → ℝ) (a b eps : ℝ) (fuel : ℕ) : romberg f a b eps fuel = romLoop f a b eps fuel (0 + 1) (tableRow f a b 0) := by
  have : [1 / 2 * (b - a) * (f a + f b)] = tableRow f a b 0 := by
    simp [tableRow, extrap_zero, trapezoid]; ring
  rw [romberg, this]

/-- C155, the part that holds, `romberg(f, a, b, eps)`: what it returns is, for every function, limits in any order and accuracy, the extrapolation from the trapezoid rules with 1 to 2^n panels, for an n at which this differs by less than eps from the extrapolation without the first rule.  For polynomials and eps > 0 it always returns, after at most deg/2 + 1 rows, and the value is exact if the degree is at most 2 n + 1, hence for all polynomials of degree at most three.  Missing: that the error is below eps, see `C155_violated`. -/
theorem C155_romberg_partial (a b eps : ℝ) :
    (∀ (f : ℝ → ℝ) (fuel : ℕ) v n, romberg f a b eps fuel = some (v, n) → 1 ≤ n ∧ v = richardson f a b n 0 ∧ |richardson f a b (n - 1) 1 - v| < eps) ∧
    ∀ p : ℝ[X], 0 < eps → ∀ fuel, p.natDegree / 2 < fuel → ∃ v n, romberg (fun x => p.eval x) a b eps fuel = some (v, n) ∧ n ≤ p.natDegree / 2 + 1 ∧
      (p.natDegree ≤ 2 * n + 1 → v = ∫ x in a..b, p.eval x) ∧ (p.natDegree ≤ 3 → v = ∫ x in a..b, p.eval x) := by
  constructor
  · intro f fuel v n h
    rw [romberg_start] at h
    obtain ⟨h1, _, h2, h3⟩ := (romLoop_spec f a b eps fuel 0).1 v n h
    refine ⟨by omega, by rw [h2, extrap_eq], ?_⟩
    rw [← extrap_eq, h2]; exact h3
  · intro p he fuel hf
    obtain ⟨i1, i2⟩ := romLoop_spec (fun x => p.eval x) a b eps fuel 0
    obtain ⟨v, n, hn, h⟩ := i2 (p.natDegree / 2 + 1) (by omega) (by omega) (by
      rw [extrap_exact p _ (by omega), extrap_exact p _ (by omega)]; simpa using he)
    obtain ⟨h1, _, h2, _⟩ := i1 v n h
    exact ⟨v, n, by rw [romberg_start]; exact h, hn, fun hd => by rw [h2, extrap_exact p n hd], fun hd => by rw [h2, extrap_exact p n (by omega)]⟩

/-- The error is not below `eps`, nor below any bound: the first extrapolation is accepted if the function vanishes at the two limits and in the middle. -/
theorem C155_violated (eps c : ℝ) (he : 0 < eps) (fuel : ℕ) : romberg (fun x => c * (x * (1 - x) * (1 - 2 * x) ^ 2)) 0 1 eps (fuel + 1) = some (0, 1) ∧
    ∫ x in (0 : ℝ)..1, c * (x * (1 - x) * (1 - 2 * x) ^ 2) = c / 30 := by
  constructor
  · rw [romberg_start]
    simp only [romLoop]
    rw [row_spec, tableRow_get _ _ _ _ _ (by omega), tableRow_get _ _ _ _ _ le_rfl]
    have h1 : extrap (fun x => c * (x * (1 - x) * (1 - 2 * x) ^ 2)) 0 1 0 1 = 0 := by
      simp [extrap_zero, trapezoid, sum_range_succ]; norm_num
    have h0 : extrap (fun x => c * (x * (1 - x) * (1 - 2 * x) ^ 2)) 0 1 0 0 = 0 := by
      simp [extrap_zero, trapezoid]
    have h2 : extrap (fun x => c * (x * (1 - x) * (1 - 2 * x) ^ 2)) 0 1 1 0 = 0 := by
      rw [extrap_succ, h1, h0]; simp
    simp [h1, h2, he]
  · rw [intervalIntegral.integral_const_mul]
    have : ∀ x : ℝ, x * (1 - x) * (1 - 2 * x) ^ 2 = x - 5 * x ^ 2 + 8 * x ^ 3 - 4 * x ^ 4 := fun x => by ring
    simp only [this]
    rw [intervalIntegral.integral_sub, intervalIntegral.integral_add, intervalIntegral.integral_sub] <;>
      first | exact Continuous.intervalIntegrable (by fun_prop) _ _ | skip
    simp only [intervalIntegral.integral_const_mul, integral_pow, integral_id]
    norm_num; ring

/-! ## C156 -/

theorem absGo_spec (f : ℝ → ℝ) (upper o : ℝ) (n fuel : ℕ) (x s : ℝ) (h1 : ∀ i < n, x + i * o < upper) (h2 : upper ≤ x + n * o) (hn : n ≤ fuel) :
    absGo f upper o fuel x s = s + ∑ i ∈ range n, f (x + i * o) := by
  induction n generalizing fuel x s with
  | zero =>
    have : ¬x < upper := by simpa using h2
    cases fuel <;> simp [absGo, this]
  | succ n ih =>
    obtain ⟨F, rfl⟩ : ∃ F, fuel = F + 1 := ⟨fuel - 1, by omega⟩
    have hx : x < upper := by simpa using h1 0 (by omega)
    rw [absGo, if_pos hx, ih F (x + o) (s + f x) (fun i hi => by have := h1 (i + 1) (by omega); push_cast at this; linarith) (by push_cast at h2; linarith) (by omega), sum_range_succ']
    have : ∀ i ∈ range n, f (x + o + i * o) = f (x + ((i + 1 : ℕ) : ℝ) * o) := fun i _ => by congr 1; push_cast; ring
    rw [sum_congr rfl this]
    simp; ring

theorem extra_spec {rich : ℕ → ℝ} (f : ℝ → ℝ) (a b : ℝ) (K : ℕ) (hr : ∀ j < K, rich j = 1 / (4 ^ (j + 1) - 1)) (k j : ℕ) (hk : j + k = K) (dt : ℕ → ℝ) (delta : ℝ)
    (hdt : ∀ i, j ≤ i → i < K → dt i = extrap f a b i (K - 1 - i)) (hdt' : ∀ i < j, dt i = extrap f a b i (K - i)) :
    let r := extra rich k j dt (extrap f a b j (K - j)) delta
    (∀ i < K, r.1 i = extrap f a b i (K - i)) ∧ r.2.1 = extrap f a b K 0 ∧ (0 < k → r.2.2 = extrap f a b (K - 1) 1 - extrap f a b (K - 1) 0) := by
  induction k generalizing j dt delta with
  | zero =>
    have : j = K := by omega
    subst this
    simp only [extra]
    exact ⟨hdt', by rw [Nat.sub_self], fun h => by omega⟩
  | succ k ih =>
    have hd : dt j = extrap f a b j (K - 1 - j) := hdt j le_rfl (by omega)
    have e : extrap f a b j (K - j) + rich j * (extrap f a b j (K - j) - dt j) = extrap f a b (j + 1) (K - (j + 1)) := by
      rw [hd, hr j (by omega), extrap_succ, show K - (j + 1) + 1 = K - j by omega, show K - 1 - j = K - (j + 1) by omega]; ring
    simp only [extra]
    rw [e]
    obtain ⟨i1, i2, i3⟩ := ih (j + 1) (by omega) (Function.update dt j (extrap f a b j (K - j))) (extrap f a b j (K - j) - dt j)
      (fun i h1 h2 => by rw [Function.update_of_ne (by omega)]; exact hdt i (by omega) h2)
      (fun i h1 => by
        by_cases hi : i = j
        · rw [hi, Function.update_self]
        · rw [Function.update_of_ne hi]; exact hdt' i (by omega))
    refine ⟨i1, i2, fun _ => ?_⟩
    rcases Nat.eq_zero_or_pos k with rfl | hk'
    · have : j = K - 1 := by omega
      simp only [extra]
      rw [hd, this, show K - (K - 1) = 1 by omega, Nat.sub_self]
    · exact i3 hk'

theorem colGo_spec {rich : ℕ → ℝ} (f : ℝ → ℝ) (a H tol : ℝ) (hH : 0 < H) (left k : ℕ) (hk : 1 ≤ k) (hr : ∀ j, j + 1 < k + left → rich j = 1 / (4 ^ (j + 1) - 1)) (dt : ℕ → ℝ) (integral : ℝ)
    (hdt : ∀ i < k, dt i = extrap f a (a + H) i (k - 1 - i)) (hl : left = 0 → integral = extrap f a (a + H) (k - 1) 0 ∧ 2 ≤ k) :
    ∃ K, 1 ≤ K ∧ K < k + left ∧ k - 1 ≤ K ∧ (colGo rich f a (a + H) tol left k (H / 2 ^ (k - 1)) dt integral).1 = extrap f a (a + H) K 0 ∧
      ((colGo rich f a (a + H) tol left k (H / 2 ^ (k - 1)) dt integral).2 = 0 ∧ |extrap f a (a + H) (K - 1) 1 - extrap f a (a + H) (K - 1) 0| < tol ∨
       (colGo rich f a (a + H) tol left k (H / 2 ^ (k - 1)) dt integral).2 = -1 ∧ K + 1 = k + left ∧ (∀ J, k ≤ J → J ≤ K → ¬|extrap f a (a + H) (J - 1) 1 - extrap f a (a + H) (J - 1) 0| < tol)) := by
  induction left generalizing k dt integral with
  | zero =>
    obtain ⟨h1, h2⟩ := hl rfl
    refine ⟨k - 1, by omega, by omega, le_rfl, h1, Or.inr ⟨rfl, by omega, fun J _ _ => by omega⟩⟩
  | succ left ih =>
    have hp : H / 2 ^ (k - 1) * (1 / 2) = H / 2 ^ k := by
      rw [show k = k - 1 + 1 by omega, pow_succ, Nat.add_sub_cancel]; field_simp
    have h2k : (2 : ℝ) ^ k = 2 * 2 ^ (k - 1) := by rw [← pow_succ', Nat.sub_add_cancel hk]
    have h2n : (2 : ℕ) ^ k = 2 * 2 ^ (k - 1) := by rw [← pow_succ', Nat.sub_add_cancel hk]
    have hpos : 0 < H / 2 ^ k := by positivity
    have ho : H / 2 ^ (k - 1) = 2 * (H / 2 ^ k) := by rw [h2k]; field_simp
    have hT : H / 2 ^ k * absGo f (a + H) (H / 2 ^ (k - 1)) (2 ^ k) (a + H / 2 ^ k) 0 + 1 / 2 * dt 0 = extrap f a (a + H) 0 (k - 0) := by
      have hHk : H = 2 * 2 ^ (k - 1) * (H / 2 ^ k) := by rw [h2k]; field_simp
      rw [absGo_spec f (a + H) (H / 2 ^ (k - 1)) (2 ^ (k - 1)) (2 ^ k) (a + H / 2 ^ k) 0 (fun i hi => by
          have : (i : ℝ) + 1 ≤ 2 ^ (k - 1) := by exact_mod_cast hi
          rw [ho]; nlinarith) (by rw [ho]; push_cast; nlinarith) (Nat.pow_le_pow_right (by norm_num) (by omega)), zero_add, hdt 0 (by omega), extrap_zero, extrap_zero,
        Nat.sub_zero, Nat.sub_zero, h2n, trapezoid_double f a (a + H) (pow_pos (by norm_num) _).ne']
      have : ∀ i ∈ range (2 ^ (k - 1)), f (a + H / ((2 * 2 ^ (k - 1) : ℕ) : ℝ) + i * (H / 2 ^ (k - 1))) = f (a + (i + 1 / 2) * ((a + H - a) / ((2 ^ (k - 1) : ℕ) : ℝ))) := fun i _ => by
        congr 1; push_cast; field_simp; ring
      push_cast at this ⊢
      rw [h2k, sum_congr rfl this, show a + H - a = H by ring]
      field_simp
      ring
    obtain ⟨e1, e2, e3⟩ := extra_spec f a (a + H) k (fun j hj => hr j (by omega)) k 0 (by omega) dt 0 (fun i _ hi => hdt i hi) (fun i hi => by omega)
    have e3 := e3 hk
    simp only [colGo]
    rw [hp, hT]
    set r := extra rich k 0 dt (extrap f a (a + H) 0 (k - 0)) 0
    split_ifs with hc
    · refine ⟨k, hk, by omega, by omega, e2, Or.inl ⟨rfl, by rw [← e3]; exact hc⟩⟩
    · obtain ⟨K, b1, b2, b3, b4, b5⟩ := ih (k + 1) (by omega) (fun j hj => hr j (by omega)) (Function.update r.1 k r.2.1) r.2.1 (fun i hi => by
        by_cases h : i = k
        · rw [h, Function.update_self, e2, show k + 1 - 1 - k = 0 by omega]
        · rw [Function.update_of_ne h, e1 i (by omega), show k + 1 - 1 - i = k - i by omega]) (fun _ => ⟨by rw [e2, Nat.add_sub_cancel], by omega⟩)
      rw [Nat.add_sub_cancel] at b4 b5
      refine ⟨K, b1, by omega, by omega, b4, ?_⟩
      rcases b5 with ⟨c1, c2⟩ | ⟨c1, c2, c3⟩
      · exact Or.inl ⟨c1, c2⟩
      · refine Or.inr ⟨c1, by omega, fun J h1 h2 => ?_⟩
        rcases Nat.eq_or_lt_of_le h1 with e | e
        · rw [← e, ← e3]; exact hc
        · exact c3 J e h2

/-- C156, the part that holds, `Rombergs_Integration_Method(a, h, tolerance, max_cols, f, err)` with h > 0 and two columns or more, with the exact factors of the extrapolation in place of the 19 digits of the table: the value is the extrapolation from the trapezoid rules with 1 to 2^n panels, n at most max_cols - 1 and 26; `err` is 0 exactly if the last change was below the tolerance, and -1 if it was not although all columns were used.  For polynomials the value is exact if the degree is at most 2 n + 1, hence for degree three always, and then `err` is 0 if there are three columns or more.  The table agrees with the exact factors to 19 digits.
Missing: a single column (`C156_violated_columns`). -/
theorem C156_method_partial (rich : ℕ → ℝ) (hr : ∀ j < 26, rich j = 1 / (4 ^ (j + 1) - 1)) (a h tol : ℝ) (hh : 0 < h) (maxCols : Int) (hm : 2 ≤ maxCols) (dt0 : ℕ → ℝ) :
    (∀ f : ℝ → ℝ, ∃ n : ℕ, 1 ≤ n ∧ (n : Int) < maxCols ∧ n ≤ 26 ∧ (rombergC rich f a h tol maxCols dt0).1 = richardson f a (a + h) n 0 ∧
      ((rombergC rich f a h tol maxCols dt0).2 = 0 ∧ |richardson f a (a + h) (n - 1) 1 - richardson f a (a + h) (n - 1) 0| < tol ∨
       (rombergC rich f a h tol maxCols dt0).2 = -1 ∧ (n : Int) + 1 = min maxCols 27 ∧ ¬|richardson f a (a + h) (n - 1) 1 - richardson f a (a + h) (n - 1) 0| < tol)) ∧
    (∀ p : ℝ[X], p.natDegree ≤ 3 → (rombergC rich (fun x => p.eval x) a h tol maxCols dt0).1 = ∫ x in a..(a + h), p.eval x) ∧
    (∀ p : ℝ[X], p.natDegree ≤ 3 → 0 < tol → 3 ≤ maxCols → (rombergC rich (fun x => p.eval x) a h tol maxCols dt0).2 = 0) := by
  have key : ∀ f : ℝ → ℝ, ∃ K, 1 ≤ K ∧ K < (min (max maxCols 0) 27).toNat ∧ (rombergC rich f a h tol maxCols dt0).1 = extrap f a (a + h) K 0 ∧
      ((rombergC rich f a h tol maxCols dt0).2 = 0 ∧ |extrap f a (a + h) (K - 1) 1 - extrap f a (a + h) (K - 1) 0| < tol ∨
       (rombergC rich f a h tol maxCols dt0).2 = -1 ∧ K + 1 = (min (max maxCols 0) 27).toNat ∧ (∀ J, 1 ≤ J → J ≤ K → ¬|extrap f a (a + h) (J - 1) 1 - extrap f a (a + h) (J - 1) 0| < tol)) := by
    intro f
    obtain ⟨K, h1, h2, _, h3, h4⟩ := colGo_spec (rich := rich) f a h tol hh ((min (max maxCols 0) 27).toNat - 1) 1 le_rfl (fun j hj => hr j (by omega)) (Function.update dt0 0 (1 / 2 * h * (f a + f (a + h)))) (1 / 2 * (f a + f (a + h)))
      (fun i hi => by
        have : i = 0 := by omega
        subst this
        rw [Function.update_self, extrap_zero]; simp [trapezoid]; ring) (fun h0 => by omega)
    rw [Nat.sub_self, pow_zero, div_one] at h3 h4
    refine ⟨K, h1, by omega, h3, ?_⟩
    rcases h4 with h4 | ⟨c1, c2, c3⟩
    · exact Or.inl h4
    · exact Or.inr ⟨c1, by omega, c3⟩
  refine ⟨fun f => ?_, fun p hp => ?_, fun p hp ht h3 => ?_⟩
  · obtain ⟨K, h1, h2, h3, h4⟩ := key f
    refine ⟨K, h1, by omega, by omega, by rw [h3, extrap_eq], ?_⟩
    simp only [← extrap_eq]
    rcases h4 with h4 | ⟨c1, c2, c3⟩
    · exact Or.inl h4
    · exact Or.inr ⟨c1, by omega, c3 K h1 le_rfl⟩
  · obtain ⟨K, h1, h2, h3, _⟩ := key fun x => p.eval x
    rw [h3, extrap_exact p K (by omega)]
  · obtain ⟨K, h1, h2, _, h4⟩ := key fun x => p.eval x
    rcases h4 with h4 | ⟨c1, c2, c3⟩
    · exact h4.1
    · exfalso
      refine c3 2 (by norm_num) (by omega) ?_
      rw [show (2 : ℕ) - 1 = 1 from rfl, extrap_exact p 1 (by omega), extrap_exact p 1 (by omega)]
      simpa using ht

/-- The table of the factors 1/(4^(i+1) - 1) is right to one unit of the 19th digit: in units of 1e-36, where the first digit of the factor has the place 36 - d. -/
theorem C156_table : richTable.length = 26 ∧ ∀ i < 26, ∃ d ≤ 18, ((richTable.getD i 0 : ℤ) * (4 ^ (i + 1) - 1) - 10 ^ 36).natAbs ≤ 10 ^ (18 - d) * (4 ^ (i + 1) - 1) ∧ 4 ^ (i + 1) - 1 ≤ 10 ^ d := by
  refine ⟨rfl, fun i hi => ⟨[1, 2, 2, 3, 4, 4, 5, 5, 6, 7, 7, 8, 8, 9, 10, 10, 11, 11, 12, 13, 13, 14, 14, 15, 16, 16].getD i 0, ?_⟩⟩
  revert i
  decide +kernel

/-- With one column or none the value is half the sum of the values at the limits, without the factor h: neither the integral nor the trapezoid rule, even for a constant. -/
theorem C156_violated_columns (rich : ℕ → ℝ) (c a h tol : ℝ) (maxCols : Int) (hm : maxCols ≤ 1) (dt0 : ℕ → ℝ) :
    rombergC rich (fun _ => c) a h tol maxCols dt0 = (c, -1) ∧ ∫ _ in a..(a + h), c = h * c := by
  constructor
  · have : (min (max maxCols 0) 27).toNat - 1 = 0 := by omega
    simp only [rombergC, this, colGo]
    ring_nf
  · simp

/-- Non-vacuous: a cubic whose integral from 1 to 3 is 20. -/
example : (∫ x in (1 : ℝ)..3, (X ^ 3 : ℝ[X]).eval x) = 20 := by
  simp only [eval_pow, eval_X, integral_pow]; norm_num

end Verif.Romberg
