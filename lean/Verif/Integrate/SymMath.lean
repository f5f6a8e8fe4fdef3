import Mathlib.LinearAlgebra.Lagrange
import Mathlib.Analysis.SpecialFunctions.Integrals.Basic
import Mathlib.Algebra.Polynomial.Expand
import Mathlib.Topology.Algebra.Polynomial
import Mathlib.Algebra.BigOperators.NatAntidiagonal

/-!
# Symmetric rules: the mathematics

In one dimension: Newton's form of interpolation in the square of the variable, at the squares of the generators.
-/

set_option linter.unusedSectionVars false

namespace Verif.SymRl

open Polynomial Finset

/-- The integral over `[-1, 1]` of a polynomial in the square of the variable. -/
noncomputable def E (p : ℝ[X]) : ℝ := ∫ x in (-1 : ℝ)..1, p.eval (x ^ 2)

theorem E_int (p : ℝ[X]) : IntervalIntegrable (fun x : ℝ => p.eval (x ^ 2)) MeasureTheory.volume (-1) 1 :=
  Continuous.intervalIntegrable (p.continuous.comp (continuous_pow 2)) _ _

theorem E_add (p q : ℝ[X]) : E (p + q) = E p + E q := by
  unfold E
  rw [← intervalIntegral.integral_add (E_int p) (E_int q)]
  simp

theorem E_C_mul (a : ℝ) (p : ℝ[X]) : E (C a * p) = a * E p := by
  unfold E
  rw [← intervalIntegral.integral_const_mul]
  simp

theorem E_sub (p q : ℝ[X]) : E (p - q) = E p - E q := by
  have h : p - q = p + C (-1) * q := by simp [sub_eq_add_neg]
  rw [h, E_add, E_C_mul]; ring

theorem E_X_pow (k : ℕ) : E (X ^ k) = 2 / ((2 * k + 1 : ℕ) : ℝ) := by
  unfold E
  have h : ∀ x : ℝ, (X ^ k : ℝ[X]).eval (x ^ 2) = x ^ (2 * k) := fun x => by simp [pow_mul]
  simp only [h]
  rw [integral_pow]
  have h2 : (-1 : ℝ) ^ (2 * k + 1) = -1 := by rw [pow_succ, pow_mul]; simp
  rw [h2]
  push_cast
  norm_num

/-- The polynomial with the first `q` squares as its roots. -/
noncomputable def nod (u : ℕ → ℝ) (q : ℕ) : ℝ[X] := Lagrange.nodal (range q) u

theorem nod_succ (u : ℕ → ℝ) (q : ℕ) : nod u (q + 1) = (X - C (u q)) * nod u q := by
  unfold nod
  rw [range_add_one, Lagrange.nodal_insert_eq_nodal (by simp)]

/-- Divided difference of a function of the squares. -/
noncomputable def dd (u : ℕ → ℝ) (q : ℕ) (φ : ℝ → ℝ) : ℝ := ∑ p ∈ range (q + 1), φ (u p) / ∏ j ∈ (range (q + 1)).erase p, (u p - u j)

theorem dd_add (u : ℕ → ℝ) (q : ℕ) (φ ψ : ℝ → ℝ) : dd u q (fun x => φ x + ψ x) = dd u q φ + dd u q ψ := by
  unfold dd
  rw [← sum_add_distrib]
  exact sum_congr rfl fun p _ => by ring

theorem dd_mul (u : ℕ → ℝ) (q : ℕ) (a : ℝ) (φ : ℝ → ℝ) : dd u q (fun x => a * φ x) = a * dd u q φ := by
  unfold dd
  rw [mul_sum]
  exact sum_congr rfl fun p _ => by ring

theorem dd_coeff {u : ℕ → ℝ} {q : ℕ} (hu : Set.InjOn u (Set.Iic q)) {p : ℝ[X]} (hp : p.natDegree ≤ q) : dd u q (fun x => p.eval x) = p.coeff q := by
  have h := Lagrange.coeff_eq_sum (s := range (q + 1)) (v := u) (P := p)
    (fun a ha b hb hab => hu (by simpa [Nat.lt_succ_iff] using ha) (by simpa [Nat.lt_succ_iff] using hb) hab)
    (by rw [card_range]; exact lt_of_le_of_lt degree_le_natDegree (by exact_mod_cast Nat.lt_succ_of_le hp))
  rw [card_range, Nat.add_sub_cancel] at h
  exact h.symm

/-- Differences beyond the degree vanish. -/
theorem dd_zero {u : ℕ → ℝ} {q : ℕ} (hu : Set.InjOn u (Set.Iic q)) {p : ℝ[X]} (hp : p.natDegree < q) : dd u q (fun x => p.eval x) = 0 := by
  rw [dd_coeff hu hp.le]
  exact coeff_eq_zero_of_natDegree_lt hp

/-- Newton's form of interpolation, integrated. -/
theorem newton (u : ℕ → ℝ) : ∀ (N : ℕ) (_ : Set.InjOn u (Set.Iic N)) (p : ℝ[X]) (_ : p.natDegree ≤ N),
    ∑ q ∈ range (N + 1), E (nod u q) * dd u q (fun x => p.eval x) = E p := by
  intro N
  induction N with
  | zero =>
    intro hu p hp
    have h := eq_C_of_natDegree_le_zero hp
    rw [h]
    simp only [zero_add, range_one, sum_singleton, eval_C]
    have h1 : dd u 0 (fun _ => p.coeff 0) = p.coeff 0 := by simp [dd]
    rw [h1]
    have h2 : nod u 0 = 1 := by simp [nod]
    have h3 : (C (p.coeff 0) : ℝ[X]) = C (p.coeff 0) * 1 := by simp
    rw [h2, h3, E_C_mul]; ring
  | succ N ih =>
    intro hu p hp
    set a := p.coeff (N + 1) with ha
    set p' := p - C a * nod u (N + 1) with hp'
    have hn : (nod u (N + 1)).natDegree = N + 1 := by unfold nod; rw [Lagrange.natDegree_nodal, card_range]
    have hm : (nod u (N + 1)).coeff (N + 1) = 1 := by
      have := (Lagrange.nodal_monic (s := range (N + 1)) (v := u)).coeff_natDegree
      rw [Lagrange.natDegree_nodal, card_range] at this
      exact this
    have hdeg : p'.natDegree ≤ N := by
      have h1 : p'.natDegree ≤ N + 1 := by
        refine (natDegree_sub_le _ _).trans (max_le hp ?_)
        exact (natDegree_C_mul_le _ _).trans hn.le
      have h2 : p'.coeff (N + 1) = 0 := by rw [hp', coeff_sub, coeff_C_mul, hm, ha]; ring
      by_contra hc
      have h3 : p'.natDegree = N + 1 := by omega
      have h4 : p'.leadingCoeff = 0 := by rw [leadingCoeff, h3, h2]
      rw [leadingCoeff_eq_zero] at h4
      rw [h4] at h3; simp at h3
    have hpe : p = p' + C a * nod u (N + 1) := by rw [hp']; ring
    have hnod : ∀ q ∈ range (N + 1), dd u q (fun x => (nod u (N + 1)).eval x) = 0 := by
      intro q hq
      unfold dd
      refine sum_eq_zero fun i hi => ?_
      have : (nod u (N + 1)).eval (u i) = 0 := Lagrange.eval_nodal_at_node (by simp at hi hq ⊢; omega)
      dsimp only
      rw [this, zero_div]
    have hddq : ∀ q, dd u q (fun x => p.eval x) = dd u q (fun x => p'.eval x) + a * dd u q (fun x => (nod u (N + 1)).eval x) := by
      intro q
      rw [← dd_mul, ← dd_add]
      conv_lhs => rw [hpe]
      simp
    rw [sum_range_succ]
    have h1 : ∑ q ∈ range (N + 1), E (nod u q) * dd u q (fun x => p.eval x) = E p' := by
      rw [← ih (hu.mono (Set.Iic_subset_Iic.2 (by omega))) p' hdeg]
      refine sum_congr rfl fun q hq => ?_
      rw [hddq, hnod q hq]; ring
    have h2 : dd u (N + 1) (fun x => p.eval x) = a := by rw [dd_coeff hu hp]
    rw [h1, h2]
    conv_rhs => rw [hpe]
    rw [E_add, E_C_mul]; ring

/-- The even part of a polynomial about a point, as a polynomial in the square of the distance in units of `h`, times `h`. -/
noncomputable def evenPart (φ : ℝ[X]) (c h : ℝ) : ℝ[X] := C h * contract 2 (φ.comp (C c + C h * X))

theorem contract_eval (η : ℝ[X]) (t : ℝ) : (contract 2 η).eval (t ^ 2) = (η.eval t + η.eval (-t)) / 2 := by
  induction η using Polynomial.induction_on' with
  | add p q hp hq =>
    have : contract 2 (p + q) = contract 2 p + contract 2 q := by
      ext n; simp [coeff_contract (by norm_num : (2 : ℕ) ≠ 0)]
    rw [this, eval_add, hp, hq, eval_add, eval_add]; ring
  | monomial n a =>
    have hc : contract 2 (monomial n a : ℝ[X]) = if Even n then monomial (n / 2) a else 0 := by
      ext k
      rw [coeff_contract (by norm_num : (2 : ℕ) ≠ 0), coeff_monomial]
      by_cases hn : Even n
      · rw [if_pos hn, coeff_monomial]
        obtain ⟨m, rfl⟩ := hn
        have : (m + m = k * 2) ↔ ((m + m) / 2 = k) := by omega
        by_cases hk : m + m = k * 2
        · rw [if_pos hk, if_pos (this.1 hk)]
        · rw [if_neg hk, if_neg (fun h => hk (this.2 h))]
      · rw [if_neg hn, coeff_zero, if_neg]
        rintro h
        exact hn ⟨k, by omega⟩
    rw [hc]
    by_cases hn : Even n
    · rw [if_pos hn, eval_monomial, eval_monomial, eval_monomial, ← pow_mul, Nat.mul_div_cancel' hn.two_dvd, hn.neg_pow]; ring
    · rw [if_neg hn, eval_zero, eval_monomial, eval_monomial, (Nat.not_even_iff_odd.1 hn).neg_pow]; ring

theorem evenPart_eval (φ : ℝ[X]) (c h t : ℝ) : (evenPart φ c h).eval (t ^ 2) = h * ((φ.eval (c + t * h) + φ.eval (c - t * h)) / 2) := by
  unfold evenPart
  rw [eval_mul, eval_C, contract_eval, eval_comp, eval_comp]
  congr 3
  · simp; ring_nf
  · simp; ring_nf

theorem evenPart_degree {φ : ℝ[X]} {b : ℕ} (hφ : φ.natDegree ≤ 2 * b + 1) (c h : ℝ) : (evenPart φ c h).natDegree ≤ b := by
  refine (natDegree_C_mul_le _ _).trans ?_
  rw [natDegree_le_iff_coeff_eq_zero]
  intro N hN
  rw [coeff_contract (by norm_num : (2 : ℕ) ≠ 0)]
  refine coeff_eq_zero_of_natDegree_lt ?_
  have h1 : (C c + C h * X : ℝ[X]).natDegree ≤ 1 := by
    refine (natDegree_add_le _ _).trans ?_
    rw [natDegree_C]
    exact max_le (by omega) ((natDegree_C_mul_le _ _).trans natDegree_X.le)
  calc _ ≤ φ.natDegree * (C c + C h * X : ℝ[X]).natDegree := natDegree_comp_le
    _ ≤ φ.natDegree * 1 := Nat.mul_le_mul_left _ h1
    _ < N * 2 := by omega

theorem evenPart_E (φ : ℝ[X]) (c h : ℝ) : E (evenPart φ c h) = ∫ x in (c - h)..(c + h), φ.eval x := by
  unfold E
  simp only [evenPart_eval]
  have hc : Continuous fun x : ℝ => φ.eval x := φ.continuous
  have h1 : IntervalIntegrable (fun t : ℝ => h * (φ.eval (c + t * h) / 2)) MeasureTheory.volume (-1) 1 := Continuous.intervalIntegrable (by fun_prop) _ _
  have h2 : IntervalIntegrable (fun t : ℝ => h * (φ.eval (c - t * h) / 2)) MeasureTheory.volume (-1) 1 := Continuous.intervalIntegrable (by fun_prop) _ _
  have h3 : ∀ t : ℝ, h * ((φ.eval (c + t * h) + φ.eval (c - t * h)) / 2) = h * (φ.eval (c + t * h) / 2) + h * (φ.eval (c - t * h) / 2) := fun t => by ring
  simp only [h3]
  rw [intervalIntegral.integral_add h1 h2]
  have h4 : ∫ t in (-1 : ℝ)..1, h * (φ.eval (c + t * h) / 2) = 1 / 2 * ∫ x in (c - h)..(c + h), φ.eval x := by
    have e : ∀ t : ℝ, h * (φ.eval (c + t * h) / 2) = 1 / 2 * (h * φ.eval (h * t + c)) := fun t => by rw [show c + t * h = h * t + c by ring]; ring
    simp only [e]
    rw [intervalIntegral.integral_const_mul, intervalIntegral.integral_const_mul, intervalIntegral.mul_integral_comp_mul_add (f := fun x => φ.eval x)]
    congr 2 <;> ring
  have h5 : ∫ t in (-1 : ℝ)..1, h * (φ.eval (c - t * h) / 2) = 1 / 2 * ∫ x in (c - h)..(c + h), φ.eval x := by
    have e : ∀ t : ℝ, h * (φ.eval (c - t * h) / 2) = 1 / 2 * (h * φ.eval (c - h * t)) := fun t => by rw [show c - t * h = c - h * t by ring]; ring
    simp only [e]
    rw [intervalIntegral.integral_const_mul, intervalIntegral.integral_const_mul, intervalIntegral.mul_integral_comp_sub_mul (f := fun x => φ.eval x)]
    congr 2 <;> ring
  rw [h4, h5]; ring

/-- The weights of one axis: `MOMPRD`. -/
noncomputable def wt (u : ℕ → ℝ) (p q : ℕ) : ℝ := E (nod u q) / ∏ j ∈ (range (q + 1)).erase p, (u p - u j)

/-- The mean of a function over the two points of a generator, times the half width. -/
noncomputable def A (φ : ℝ → ℝ) (c h g : ℝ) : ℝ := h * ((φ (c + g * h) + φ (c - g * h)) / 2)

/-- The part of order `q` of the rule for one axis. -/
noncomputable def Dl (g : ℕ → ℝ) (φ : ℝ → ℝ) (c h : ℝ) (q : ℕ) : ℝ := ∑ p ∈ range (q + 1), wt (fun i => g i ^ 2) p q * A φ c h (g p)

theorem Dl_eq (g : ℕ → ℝ) (φ : ℝ[X]) (c h : ℝ) (q : ℕ) :
    Dl g (fun x => φ.eval x) c h q = E (nod (fun i => g i ^ 2) q) * dd (fun i => g i ^ 2) q (fun x => (evenPart φ c h).eval x) := by
  unfold Dl dd wt A
  rw [mul_sum]
  refine sum_congr rfl fun p _ => ?_
  rw [← evenPart_eval]; ring

theorem Dl_zero {g : ℕ → ℝ} {q : ℕ} (hg : Set.InjOn (fun i => g i ^ 2) (Set.Iic q)) {φ : ℝ[X]} {b : ℕ} (hφ : φ.natDegree ≤ 2 * b + 1) (c h : ℝ) (hb : b < q) :
    Dl g (fun x => φ.eval x) c h q = 0 := by
  rw [Dl_eq, dd_zero hg (lt_of_le_of_lt (evenPart_degree hφ c h) hb), mul_zero]

theorem Dl_sum {g : ℕ → ℝ} {b : ℕ} (hg : Set.InjOn (fun i => g i ^ 2) (Set.Iic b)) {φ : ℝ[X]} (hφ : φ.natDegree ≤ 2 * b + 1) (c h : ℝ) :
    ∑ q ∈ range (b + 1), Dl g (fun x => φ.eval x) c h q = ∫ x in (c - h)..(c + h), φ.eval x := by
  simp only [Dl_eq]
  rw [newton _ b hg _ (evenPart_degree hφ c h), evenPart_E]

end Verif.SymRl
