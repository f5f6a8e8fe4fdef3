import Verif.Integrate.DrlPoly

/-!
# The tabulated rules of DCUHRE: residuals of the moments
-/

set_option linter.unusedSectionVars false

namespace Verif.Drl

open Finset
open Verif.SymRl (boxInt)

/-- The lists of `n` numbers with a sum up to `d`. -/
def exps : ℕ → ℕ → List (List ℕ)
  | 0, _ => [[]]
  | n + 1, d => (List.range (d + 1)).flatMap fun a => (exps n (d - a)).map (a :: ·)

theorem mem_exps : ∀ {n d : ℕ} {as : List ℕ}, as.length = n → as.sum ≤ d → as ∈ exps n d
  | 0, d, as, h, _ => by rw [List.length_eq_zero_iff.1 h]; simp [exps]
  | n + 1, d, [], h, _ => by simp at h
  | n + 1, d, a :: as, h, hs => by
    rw [List.sum_cons] at hs
    rw [exps, List.mem_flatMap]
    exact ⟨a, by simp; omega, List.mem_map.2 ⟨as, mem_exps (by simpa using h) (by omega), rfl⟩⟩

/-- The weighted sum of a monomial, for tables with decimals. -/
def momC (q : Tab ℚ) (k : ℕ) (κ : List ℕ) : ℚ := ((List.range q.wtleng).map fun i => q.w k (i + 1) * ((q.g (i + 1)).permutations'.dedup.map (taus κ)).sum).sum

/-- Residuals of moments. -/
def Resid (q : Tab ℚ) (n : ℕ) (θ : ℚ) (ε : ℚ) (k d : ℕ) : Prop := ∀ as ∈ exps n d, |momC q k (as.map (2 * ·)) - θ * (as.map fun a : ℕ => 2 / (2 * (a : ℚ) + 1)).prod| ≤ ε

instance (q : Tab ℚ) (n : ℕ) (θ : ℚ) (ε : ℚ) (k d : ℕ) : Decidable (Resid q n θ ε k d) := by unfold Resid; infer_instance

/-- What is computed for a table: the residuals of the rule up to degree `2 * d`, of the null rules, and the size of the numbers in the error estimate. -/
structure Computed (q : Tab ℚ) (n d d' : ℕ) : Prop where
  rule : Resid q n 1 (3 / 10 ^ 15) 1 d
  null : ∀ k ∈ [2, 3, 4, 5], Resid q n 0 (3 / 10 ^ 15) k d'
  size : ∀ k ∈ [1, 2, 3], ∀ i ∈ List.range q.wtleng, 0 ≤ norms q n k (i + 1) ∧ (1 + |scales q k (i + 1)|) * norms q n k (i + 1) ≤ 47
  coef : 0 ≤ q.errcof 3 ∧ q.errcof 3 ≤ 5 ∧ 0 ≤ q.errcof 4 ∧ q.errcof 4 ≤ 5

theorem computed132 : Computed d132 2 6 3 := ⟨by decide +kernel, by decide +kernel, by decide +kernel, by decide +kernel⟩

theorem computed113 : Computed d113 3 5 2 := ⟨by decide +kernel, by decide +kernel, by decide +kernel, by decide +kernel⟩

/-! ## To the reals -/

theorem taus_up : ∀ (κ : List ℕ) (p : List ℚ), taus κ (up p) = ((taus κ p : ℚ) : ℝ)
  | [], p => by cases p <;> simp [taus]
  | k :: κ, [] => by simp [taus, up]
  | k :: κ, v :: p => by
    rw [show up (v :: p) = (v : ℝ) :: up p from rfl, taus, taus, taus_up κ p]
    push_cast
    congr 1
    unfold tau
    rw [apply_ite (Rat.cast : ℚ → ℝ)]
    simp

theorem PS_up (g : List ℚ) (κ : List ℕ) : PS (up g) κ = (((g.permutations'.dedup.map (taus κ)).sum : ℚ) : ℝ) := by
  unfold PS
  rw [Pm_up, sum_image fun a _ b _ h => up_inj h]
  have : Pm g = g.permutations'.dedup.toFinset := by
    ext p
    simp [mem_Pm]
  rw [this, ← List.sum_toFinset _ (List.nodup_dedup _)]
  push_cast
  exact sum_congr rfl fun p _ => taus_up κ p

theorem sum_Icc_list (F : ℕ → ℝ) (n : ℕ) : ∑ i ∈ Icc 1 n, F i = ((List.range n).map fun i => F (i + 1)).sum := by
  rw [show Icc 1 n = Ico 1 (n + 1) from rfl, sum_Ico_eq_sum_range, Nat.add_sub_cancel]
  simp only [add_comm 1]
  rw [← List.sum_toFinset _ List.nodup_range, List.toFinset_range]

theorem total_up {t : Tab ℝ} {q : Tab ℚ} (hc : Casts t q) {n : ℕ} (ht : Fit t n) (k : ℕ) {κ : List ℕ} (hκ : κ.length = n) : total t k (mono κ) = ((momC q k κ : ℚ) : ℝ) := by
  unfold total momC
  rw [← hc.wtleng]
  have e : ∑ i ∈ Icc 1 t.wtleng, t.w k i * ∑ y ∈ orb (t.g i), mono κ y = ∑ i ∈ Icc 1 t.wtleng, ((q.w k i * ((q.g i).permutations'.dedup.map (taus κ)).sum : ℚ) : ℝ) := by
    refine sum_congr rfl fun i hi => ?_
    rw [mem_Icc] at hi
    obtain ⟨a1, -, a3⟩ := ht.all i hi.1 hi.2
    rw [sum_orb_mono a3 (hκ.trans a1.symm), hc.w, hc.g, PS_up]
    push_cast
    rfl
  rw [e, sum_Icc_list, Rat.cast_list_sum, List.map_map]
  rfl

/-- The weighted sum of a monomial is close to its integral over the cube times `θ`, up to a degree. -/
def Near (t : Tab ℝ) (n k D : ℕ) (θ ε : ℝ) : Prop := ∀ κ : List ℕ, κ.length = n → κ.sum ≤ D → |total t k (mono κ) - θ * (κ.map I1).prod| ≤ ε

theorem near_of {t : Tab ℝ} {q : Tab ℚ} (hc : Casts t q) {n : ℕ} (ht : Fit t n) {k d : ℕ} {θ ε : ℚ} (hε : 0 ≤ ε) (h : Resid q n θ ε k d) : Near t n k (2 * d + 1) θ ε := by
  intro κ hκ hs
  by_cases ho : ∃ k ∈ κ, Odd k
  · have h0 : total t k (mono κ) = 0 := by
      unfold total
      refine sum_eq_zero fun i hi => ?_
      rw [mem_Icc] at hi
      obtain ⟨a1, -, a3⟩ := ht.all i hi.1 hi.2
      rw [sum_orb_mono a3 (hκ.trans a1.symm), PS_odd (hκ.trans a1.symm) ho, mul_zero]
    rw [h0, prod_odd ho, mul_zero, sub_zero, abs_zero]
    exact_mod_cast hε
  · obtain ⟨as, rfl⟩ := even_list κ ho
    rw [sum_even] at hs
    have h1 := h as (mem_exps (by simpa using hκ) (by omega))
    have h2 : ((as.map (2 * ·)).map I1).prod = (((as.map fun a : ℕ => 2 / (2 * (a : ℚ) + 1)).prod : ℚ) : ℝ) := by
      rw [Rat.cast_list_prod, List.map_map, List.map_map]
      congr 1
      refine List.map_congr_left fun a _ => ?_
      simp only [Function.comp, I1]
      rw [if_neg (by simp)]
      push_cast; rfl
    rw [total_up hc ht k hκ, h2]
    exact_mod_cast h1

/-! ## Polynomials -/

/-- A bound for the size of a polynomial: the sum of the sizes of its terms where every coordinate has the size `R`. -/
noncomputable def big {n : ℕ} (p : MvPolynomial (Fin n) ℝ) (R : Fin n → ℝ) : ℝ := ∑ m ∈ p.support, |p.coeff m| * ∏ i, R i ^ m i

theorem big_nonneg {n : ℕ} (p : MvPolynomial (Fin n) ℝ) {R : Fin n → ℝ} (h : ∀ i, 0 ≤ R i) : 0 ≤ big p R :=
  sum_nonneg fun _ _ => mul_nonneg (abs_nonneg _) (prod_nonneg fun i _ => pow_nonneg (h i) _)

theorem big_mono {n : ℕ} (p : MvPolynomial (Fin n) ℝ) {R R' : Fin n → ℝ} (h : ∀ i, 0 ≤ R i) (h' : ∀ i, R i ≤ R' i) : big p R ≤ big p R' :=
  sum_le_sum fun _ _ => mul_le_mul_of_nonneg_left (prod_le_prod (fun i _ => pow_nonneg (h i) _) fun i _ => pow_le_pow_left₀ (h i) (h' i) _) (abs_nonneg _)

/-- The weighted sums of a polynomial. -/
theorem total_near {t : Tab ℝ} {n : ℕ} (ht : Fit t n) {k D : ℕ} {θ ε : ℝ} (hM : Near t n k D θ ε) (p : MvPolynomial (Fin n) ℝ) (hp : p.totalDegree ≤ D) (c h : Fin n → ℝ) :
    |(List.ofFn h).prod * total t k (fun y => MvPolynomial.eval (fun i : Fin n => (pt (List.ofFn c) (List.ofFn h) y).getD i 0) p) - θ * boxInt p c h| ≤ |(List.ofFn h).prod| * ε * big p (fun i => |c i| + |h i|) := by
  unfold boxInt big
  simp only [MvPolynomial.eval_eq']
  rw [total_sum, mul_sum, mul_sum, mul_sum, ← sum_sub_distrib]
  refine (abs_sum_le_sum_abs _ _).trans (sum_le_sum fun m hm => ?_)
  have hdeg : ∑ i, m i ≤ D := by
    refine le_trans ?_ hp
    have := MvPolynomial.le_totalDegree hm
    rwa [Finsupp.sum_fintype _ _ (fun _ => rfl)] at this
  have e1 : total t k (fun y => ∏ i : Fin n, (pt (List.ofFn c) (List.ofFn h) y).getD i 0 ^ m i) =
      ∑ j ∈ Fintype.piFinset fun i => range (m i + 1), (∏ i, h i ^ j i * c i ^ (m i - j i) * ((m i).choose (j i))) * total t k (mono (List.ofFn j)) := by
    rw [← total_sum]
    exact total_congr ht k fun y hy => expand c h m y hy
  have e2 : ∏ i, ∫ x in (c i - h i)..(c i + h i), x ^ m i = (List.ofFn h).prod * ∑ j ∈ Fintype.piFinset fun i => range (m i + 1), (∏ i, h i ^ j i * c i ^ (m i - j i) * ((m i).choose (j i))) * ((List.ofFn j).map I1).prod := by
    have : ∏ i, ∫ x in (c i - h i)..(c i + h i), x ^ m i = (∏ i, h i) * ∏ i, ∑ j ∈ range (m i + 1), h i ^ j * c i ^ (m i - j) * ((m i).choose j) * I1 j := by
      rw [← prod_mul_distrib]
      exact prod_congr rfl fun i _ => (line _ _ _).symm
    rw [this, List.prod_ofFn, prod_univ_sum]
    congr 1
    refine sum_congr rfl fun j _ => ?_
    rw [List.map_ofFn, List.prod_ofFn, prod_mul_distrib]
    rfl
  have e3 : (List.ofFn h).prod * (MvPolynomial.coeff m p * total t k (fun y => ∏ i : Fin n, (pt (List.ofFn c) (List.ofFn h) y).getD i 0 ^ m i)) - θ * (MvPolynomial.coeff m p * ∏ i, ∫ x in (c i - h i)..(c i + h i), x ^ m i) =
      (List.ofFn h).prod * MvPolynomial.coeff m p * ∑ j ∈ Fintype.piFinset fun i => range (m i + 1), (∏ i, h i ^ j i * c i ^ (m i - j i) * ((m i).choose (j i))) * (total t k (mono (List.ofFn j)) - θ * ((List.ofFn j).map I1).prod) := by
    rw [e1, e2]
    simp only [mul_sub, sum_sub_distrib, mul_sum]
    congr 1
    · exact sum_congr rfl fun j _ => by ring
    · exact sum_congr rfl fun j _ => by ring
  rw [e3, abs_mul, abs_mul]
  have e4 : |∑ j ∈ Fintype.piFinset fun i => range (m i + 1), (∏ i, h i ^ j i * c i ^ (m i - j i) * ((m i).choose (j i) : ℝ)) * (total t k (mono (List.ofFn j)) - θ * ((List.ofFn j).map I1).prod)| ≤ ε * ∏ i, (|c i| + |h i|) ^ m i := by
    have e5 : ∏ i, (|c i| + |h i|) ^ m i = ∑ j ∈ Fintype.piFinset fun i => range (m i + 1), |∏ i, h i ^ j i * c i ^ (m i - j i) * ((m i).choose (j i) : ℝ)| := by
      have : ∀ i, (|c i| + |h i|) ^ m i = ∑ j ∈ range (m i + 1), |h i ^ j * c i ^ (m i - j) * ((m i).choose j : ℝ)| := by
        intro i
        rw [add_comm, add_pow]
        exact sum_congr rfl fun j _ => by rw [abs_mul, abs_mul, abs_pow, abs_pow, Nat.abs_cast]
      simp only [this]
      rw [prod_univ_sum]
      exact sum_congr rfl fun j _ => (abs_prod _ _).symm
    rw [e5, mul_sum]
    refine (abs_sum_le_sum_abs _ _).trans (sum_le_sum fun j hj => ?_)
    rw [Fintype.mem_piFinset] at hj
    rw [abs_mul, mul_comm]
    refine mul_le_mul_of_nonneg_right (hM _ (by simp) ?_) (abs_nonneg _)
    rw [List.sum_ofFn]
    exact (sum_le_sum fun i _ => by have := hj i; rw [mem_range] at this; omega).trans hdeg
  calc _ ≤ |(List.ofFn h).prod| * |MvPolynomial.coeff m p| * (ε * ∏ i, (|c i| + |h i|) ^ m i) := mul_le_mul_of_nonneg_left e4 (by positivity)
    _ = _ := by ring

end Verif.Drl
