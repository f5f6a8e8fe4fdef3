import Verif.Integrate.DrlExact
import Verif.Integrate.DrlProps
import Verif.Integrate.SymProps

/-!
# The basic rules of DCUHRE: from monomials to polynomials, and to the integrator
-/

set_option linter.unusedSectionVars false

namespace Verif.Drl

open Finset
open Verif.Adapt (put Box halves)
open Verif.Dcuhre (Out ruleLen keyf Good Call)
open Verif.SymRl (boxInt)

/-! ## One dimension -/

theorem I1_eq (k : ℕ) : I1 k = ∫ u in (-1 : ℝ)..1, u ^ k := by
  rw [integral_pow, I1]
  split_ifs with h
  · rw [Even.neg_one_pow (by exact h.add_one)]; simp
  · rw [Nat.not_odd_iff_even] at h
    rw [Odd.neg_one_pow (h.add_one)]; norm_num

theorem line (m : ℕ) (c h : ℝ) : h * ∑ j ∈ range (m + 1), h ^ j * c ^ (m - j) * (m.choose j) * I1 j = ∫ x in (c - h)..(c + h), x ^ m := by
  have e := intervalIntegral.mul_integral_comp_mul_add (f := fun x : ℝ => x ^ m) (a := -1) (b := 1) h c
  rw [show h * -1 + c = c - h by ring, show h * 1 + c = c + h by ring] at e
  rw [← e]
  congr 1
  simp only [add_pow]
  rw [intervalIntegral.integral_finsetSum]
  · refine sum_congr rfl fun j _ => ?_
    rw [I1_eq, ← intervalIntegral.integral_const_mul]
    refine intervalIntegral.integral_congr fun u _ => ?_
    rw [mul_pow]; ring
  · intro j _
    exact Continuous.intervalIntegrable (by fun_prop) _ _

/-! ## Polynomials -/

theorem mono_ofFn : ∀ {n : ℕ} (κ : Fin n → ℕ) (y : List ℝ), y.length = n → mono (List.ofFn κ) y = ∏ i : Fin n, y.getD i 0 ^ κ i
  | 0, κ, y, hy => by simp [mono]
  | n + 1, κ, [], hy => by simp at hy
  | n + 1, κ, a :: y, hy => by
    rw [List.ofFn_succ, mono, mono_ofFn _ y (by simpa using hy), Fin.prod_univ_succ]
    simp

theorem total_congr {t : Tab ℝ} {n : ℕ} (ht : Fit t n) (k : ℕ) {F G : List ℝ → ℝ} (h : ∀ y, y.length = n → F y = G y) : total t k F = total t k G := by
  unfold total
  refine sum_congr rfl fun i hi => ?_
  rw [mem_Icc] at hi
  obtain ⟨a1, -, a3⟩ := ht.all i hi.1 hi.2
  congr 1
  refine sum_congr rfl fun y hy => h y ?_
  have := ((mem_orb a3).1 hy).length_eq
  rw [List.length_map] at this
  exact this.trans a1

theorem total_sum (t : Tab ℝ) (k : ℕ) {ι : Type*} (s : Finset ι) (q : ι → ℝ) (F : ι → List ℝ → ℝ) : total t k (fun y => ∑ m ∈ s, q m * F m y) = ∑ m ∈ s, q m * total t k (F m) := by
  unfold total
  simp only [mul_sum]
  rw [sum_comm (s := s)]
  refine sum_congr rfl fun i _ => ?_
  rw [sum_comm]
  exact sum_congr rfl fun m _ => sum_congr rfl fun y _ => by ring

/-- A monomial in the coordinates of a point. -/
theorem expand {n : ℕ} (c h : Fin n → ℝ) (m : Fin n → ℕ) (y : List ℝ) (hy : y.length = n) : ∏ i : Fin n, (pt (List.ofFn c) (List.ofFn h) y).getD i 0 ^ m i =
    ∑ j ∈ Fintype.piFinset fun i => range (m i + 1), (∏ i, h i ^ j i * c i ^ (m i - j i) * ((m i).choose (j i))) * mono (List.ofFn j) y := by
  have : ∀ i : Fin n, (pt (List.ofFn c) (List.ofFn h) y).getD i 0 ^ m i = ∑ j ∈ range (m i + 1), (h i ^ j * c i ^ (m i - j) * ((m i).choose j)) * y.getD i 0 ^ j := by
    intro i
    rw [pt_getD (by simp [hy]) (by simp [hy]) _ (by rw [hy]; exact i.2), List.getD_eq_getElem _ _ (by simp), List.getD_eq_getElem (List.ofFn h) _ (by simp), List.getElem_ofFn, List.getElem_ofFn, add_comm, add_pow]
    exact sum_congr rfl fun j _ => by rw [mul_pow]; ring
  simp only [this]
  rw [prod_univ_sum]
  refine sum_congr rfl fun j _ => ?_
  rw [mono_ofFn j y hy, prod_mul_distrib]

/-- The weighted sums of a polynomial. -/
theorem total_poly {t : Tab ℝ} {n : ℕ} (ht : Fit t n) {k D : ℕ} {θ : ℝ} (hM : Moments t n k D θ) (p : MvPolynomial (Fin n) ℝ) (hp : p.totalDegree ≤ D) (c h : Fin n → ℝ) :
    (List.ofFn h).prod * total t k (fun y => MvPolynomial.eval (fun i : Fin n => (pt (List.ofFn c) (List.ofFn h) y).getD i 0) p) = θ * boxInt p c h := by
  unfold boxInt
  simp only [MvPolynomial.eval_eq']
  rw [total_sum, mul_sum, mul_sum]
  refine sum_congr rfl fun m hm => ?_
  have hdeg : ∑ i, m i ≤ D := by
    refine le_trans ?_ hp
    have := MvPolynomial.le_totalDegree hm
    rwa [Finsupp.sum_fintype _ _ (fun _ => rfl)] at this
  have e1 : total t k (fun y => ∏ i : Fin n, (pt (List.ofFn c) (List.ofFn h) y).getD i 0 ^ m i) =
      total t k (fun y => ∑ j ∈ Fintype.piFinset fun i => range (m i + 1), (∏ i, h i ^ j i * c i ^ (m i - j i) * ((m i).choose (j i))) * mono (List.ofFn j) y) := by
    exact total_congr ht k fun y hy => expand c h m y hy
  have e2 : ∀ j ∈ Fintype.piFinset fun i => range (m i + 1), (∏ i, h i ^ j i * c i ^ (m i - j i) * ((m i).choose (j i) : ℝ)) * total t k (mono (List.ofFn j)) = θ * ∏ i, h i ^ j i * c i ^ (m i - j i) * ((m i).choose (j i)) * I1 (j i) := by
    intro j hj
    rw [Fintype.mem_piFinset] at hj
    rw [hM _ (by simp) (by
      rw [List.sum_ofFn]
      exact (sum_le_sum fun i _ => by have := hj i; rw [mem_range] at this; omega).trans hdeg), List.map_ofFn, List.prod_ofFn, prod_mul_distrib (g := fun i => I1 (j i))]
    simp only [Function.comp]
    ring
  rw [e1, total_sum, sum_congr rfl e2, ← mul_sum, ← prod_univ_sum (t := fun i => range (m i + 1)) (f := fun i j => h i ^ j * c i ^ (m i - j) * ((m i).choose j) * I1 j)]
  rw [List.prod_ofFn]
  have : ∏ i, ∫ x in (c i - h i)..(c i + h i), x ^ m i = (∏ i, h i) * ∏ i, ∑ j ∈ range (m i + 1), h i ^ j * c i ^ (m i - j) * ((m i).choose j) * I1 j := by
    rw [← prod_mul_distrib]
    exact prod_congr rfl fun i _ => (line _ _ _).symm
  rw [this]
  ring

end Verif.Drl
