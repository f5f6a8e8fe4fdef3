import Verif.Integrate.SymMath

/-!
# Symmetric rules: several dimensions

Sums over the lists of `s` numbers with sum `n`, weights, sums over points, and the exactness of the whole.
-/

set_option linter.unusedSectionVars false

namespace Verif.SymRl

open Finset

section Lists

/-- The lists of `s` natural numbers with sum `n`. -/
def Ls : ℕ → ℕ → Finset (List ℕ)
  | 0, n => if n = 0 then {[]} else ∅
  | s + 1, n => (antidiagonal n).biUnion fun ab => (Ls s ab.2).map ⟨List.cons ab.1, List.cons_injective⟩

theorem mem_Ls {s n : ℕ} {l : List ℕ} : l ∈ Ls s n ↔ l.length = s ∧ l.sum = n := by
  induction s generalizing n l with
  | zero =>
    unfold Ls
    by_cases h : n = 0
    · subst h
      rw [if_pos rfl, mem_singleton]
      constructor
      · rintro rfl; simp
      · rintro ⟨h, -⟩; exact List.length_eq_zero_iff.1 h
    · rw [if_neg h]
      constructor
      · simp
      · rintro ⟨h1, h2⟩
        rw [List.length_eq_zero_iff.1 h1] at h2
        exact absurd h2.symm h
  | succ s ih =>
    unfold Ls
    simp only [mem_biUnion, mem_antidiagonal, mem_map, ih]
    constructor
    · rintro ⟨⟨a, b⟩, hab, l', ⟨h1, h2⟩, rfl⟩
      simp only [Function.Embedding.coeFn_mk, List.length_cons, List.sum_cons] at *
      exact ⟨by omega, by omega⟩
    · rintro ⟨h1, h2⟩
      cases l with
      | nil => simp at h1
      | cons a l =>
        simp only [List.length_cons, List.sum_cons] at *
        exact ⟨(a, l.sum), h2, l, ⟨by omega, rfl⟩, rfl⟩

theorem sum_Ls_zero {M : Type*} [AddCommMonoid M] (n : ℕ) (F : List ℕ → M) : ∑ l ∈ Ls 0 n, F l = if n = 0 then F [] else 0 := by
  unfold Ls
  split_ifs <;> simp

theorem sum_Ls_succ {M : Type*} [AddCommMonoid M] (s n : ℕ) (F : List ℕ → M) :
    ∑ l ∈ Ls (s + 1) n, F l = ∑ ab ∈ antidiagonal n, ∑ l ∈ Ls s ab.2, F (ab.1 :: l) := by
  rw [Ls, sum_biUnion]
  · refine sum_congr rfl fun ab _ => ?_
    rw [sum_map]; rfl
  · rintro ⟨a, b⟩ hab ⟨a', b'⟩ hab' hne
    rw [Function.onFun, disjoint_left]
    rintro l h1 h2
    simp only [mem_map, Function.Embedding.coeFn_mk] at h1 h2
    obtain ⟨l1, -, rfl⟩ := h1
    obtain ⟨l2, -, h⟩ := h2
    rw [mem_coe, mem_antidiagonal] at hab hab'
    dsimp only at hab hab'
    have : a' = a := (List.cons.inj h).1
    exact hne (by rw [Prod.mk.injEq]; omega)

end Lists

section Field

variable {K : Type*} [Field K]

/-- The weight of a list of generators, for the remaining order `r`: a sum over all ways to raise the orders of the axes by `r` in total. -/
def whtS (P : ℕ → ℕ → K) : List ℕ → ℕ → K
  | [], r => if r = 0 then 1 else 0
  | m :: M, r => ∑ kr ∈ antidiagonal r, P m (kr.1 + m) * whtS P M kr.2

theorem whtS_swap (P : ℕ → ℕ → K) (a b : ℕ) (M : List ℕ) (r : ℕ) : whtS P (a :: b :: M) r = whtS P (b :: a :: M) r := by
  simp only [whtS, mul_sum]
  rw [sum_sigma', sum_sigma']
  refine sum_nbij' (fun x => ⟨(x.2.1, x.1.1 + x.2.2), (x.1.1, x.2.2)⟩) (fun x => ⟨(x.2.1, x.1.1 + x.2.2), (x.1.1, x.2.2)⟩) ?_ ?_ ?_ ?_ ?_
  · rintro ⟨⟨k, r1⟩, ⟨k', r2⟩⟩ h
    simp only [mem_sigma, mem_antidiagonal] at *
    exact ⟨by omega, trivial⟩
  · rintro ⟨⟨k, r1⟩, ⟨k', r2⟩⟩ h
    simp only [mem_sigma, mem_antidiagonal] at *
    exact ⟨by omega, trivial⟩
  · rintro ⟨⟨k, r1⟩, ⟨k', r2⟩⟩ h
    simp only [mem_sigma, mem_antidiagonal] at *
    rw [h.2]
  · rintro ⟨⟨k, r1⟩, ⟨k', r2⟩⟩ h
    simp only [mem_sigma, mem_antidiagonal] at *
    rw [h.2]
  · rintro ⟨⟨k, r1⟩, ⟨k', r2⟩⟩ h
    dsimp only
    ring

theorem whtS_perm (P : ℕ → ℕ → K) {M M' : List ℕ} (h : M.Perm M') (r : ℕ) : whtS P M r = whtS P M' r := by
  induction h generalizing r with
  | nil => rfl
  | cons a _ ih => simp only [whtS, ih]
  | swap a b l => exact whtS_swap P b a l r
  | trans _ _ ih1 ih2 => exact (ih1 r).trans (ih2 r)

/-- The sum over the points of a list of generators, one for each axis, with the weights of the half widths. -/
def T (g : ℕ → K) : List K → List K → List ℕ → (List K → K) → K
  | c :: cs, h :: hs, m :: ms, f => h * ((T g cs hs ms (fun x => f ((c + g m * h) :: x)) + T g cs hs ms (fun x => f ((c - g m * h) :: x))) / 2)
  | _, _, _, f => f []

theorem T_add (g : ℕ → K) (cs hs : List K) (ms : List ℕ) (f f' : List K → K) : T g cs hs ms (fun x => f x + f' x) = T g cs hs ms f + T g cs hs ms f' := by
  induction cs generalizing hs ms f f' with
  | nil => simp [T]
  | cons c cs ih =>
    cases hs with
    | nil => simp [T]
    | cons h hs =>
      cases ms with
      | nil => simp [T]
      | cons m ms =>
        simp only [T]
        rw [ih hs ms (fun x => f ((c + g m * h) :: x)) (fun x => f' ((c + g m * h) :: x)), ih hs ms (fun x => f ((c - g m * h) :: x)) (fun x => f' ((c - g m * h) :: x))]
        ring

theorem T_mul (g : ℕ → K) (cs hs : List K) (ms : List ℕ) (a : K) (f : List K → K) : T g cs hs ms (fun x => a * f x) = a * T g cs hs ms f := by
  induction cs generalizing hs ms f with
  | nil => simp [T]
  | cons c cs ih =>
    cases hs with
    | nil => simp [T]
    | cons h hs =>
      cases ms with
      | nil => simp [T]
      | cons m ms =>
        simp only [T]
        rw [ih hs ms (fun x => f ((c + g m * h) :: x)), ih hs ms (fun x => f ((c - g m * h) :: x))]
        ring

/-- The rule: what is computed for a function of the points. -/
def V (P : ℕ → ℕ → K) (g : ℕ → K) (cs hs : List K) (D : ℕ) (f : List K → K) : K :=
  ∑ d ∈ range (D + 1), ∑ nr ∈ antidiagonal d, ∑ l ∈ Ls cs.length nr.1, whtS P l nr.2 * T g cs hs l f

theorem V_add (P : ℕ → ℕ → K) (g : ℕ → K) (cs hs : List K) (D : ℕ) (f f' : List K → K) : V P g cs hs D (fun x => f x + f' x) = V P g cs hs D f + V P g cs hs D f' := by
  unfold V
  simp only [T_add, mul_add, sum_add_distrib]

theorem V_mul (P : ℕ → ℕ → K) (g : ℕ → K) (cs hs : List K) (D : ℕ) (a : K) (f : List K → K) : V P g cs hs D (fun x => a * f x) = a * V P g cs hs D f := by
  unfold V
  simp only [T_mul, mul_sum]
  refine sum_congr rfl fun d _ => sum_congr rfl fun nr _ => sum_congr rfl fun l _ => by ring

theorem V_sum {ι : Type*} (P : ℕ → ℕ → K) (g : ℕ → K) (cs hs : List K) (D : ℕ) (s : Finset ι) (f : ι → List K → K) :
    V P g cs hs D (fun x => ∑ i ∈ s, f i x) = ∑ i ∈ s, V P g cs hs D (f i) := by
  classical
  induction s using Finset.induction_on with
  | empty =>
    have h := V_mul P g cs hs D 0 (fun _ => 0)
    simp only [sum_empty]
    simpa using h
  | insert a s ha ih =>
    simp only [sum_insert ha]
    rw [V_add, ih]

end Field

open Polynomial

/-- One axis: a polynomial, the centre and the half width. -/
structure Ax where
  φ : ℝ[X]
  c : ℝ
  h : ℝ

/-- A product of functions of the coordinates. -/
noncomputable def prodF : List Ax → List ℝ → ℝ
  | a :: as, x :: xs => a.φ.eval x * prodF as xs
  | _, _ => 1

/-- The product of the means. -/
noncomputable def prodA (g : ℕ → ℝ) : List Ax → List ℕ → ℝ
  | a :: as, m :: ms => A (fun x => a.φ.eval x) a.c a.h (g m) * prodA g as ms
  | _, _ => 1

theorem T_prod (g : ℕ → ℝ) : ∀ (as : List Ax) (ms : List ℕ), as.length = ms.length → T g (as.map (·.c)) (as.map (·.h)) ms (prodF as) = prodA g as ms
  | [], [], _ => by simp [T, prodF, prodA]
  | [], _ :: _, h => by simp at h
  | _ :: _, [], h => by simp at h
  | a :: as, m :: ms, h => by
    simp only [List.map_cons, T, prodF, prodA]
    rw [T_mul, T_mul, T_prod g as ms (by simpa using h)]
    unfold A
    ring

/-- The parts of order `q` of the axes combined, with total order `d`. -/
noncomputable def U (g : ℕ → ℝ) : List Ax → ℕ → ℝ
  | [], d => if d = 0 then 1 else 0
  | a :: as, d => ∑ qe ∈ antidiagonal d, Dl g (fun x => a.φ.eval x) a.c a.h qe.1 * U g as qe.2

theorem H_eq_U (g : ℕ → ℝ) : ∀ (as : List Ax) (d : ℕ),
    ∑ nr ∈ antidiagonal d, ∑ l ∈ Ls as.length nr.1, whtS (wt fun i => g i ^ 2) l nr.2 * prodA g as l = U g as d
  | [], d => by
    simp only [List.length_nil, sum_Ls_zero, U, whtS, prodA]
    rw [sum_eq_single (0, d)]
    · simp
    · rintro ⟨n, r⟩ h hne
      simp only [mem_antidiagonal] at h
      rw [if_neg]
      rintro h0
      simp only at h0
      exact hne (by rw [Prod.mk.injEq]; omega)
    · simp
  | a :: as, d => by
    simp only [List.length_cons, sum_Ls_succ, U, whtS, prodA, ← H_eq_U g as]
    simp only [Dl, sum_mul, mul_sum]
    simp only [sum_sigma']
    refine sum_nbij'
      (fun x => ⟨(x.2.1.1 + x.2.2.2.1, x.2.1.2 + x.2.2.2.2), ⟨(x.2.1.2, x.2.2.2.2), ⟨x.2.2.1, x.2.1.1⟩⟩⟩)
      (fun x => ⟨(x.2.2.2 + x.2.1.1, x.1.1 - x.2.2.2 + x.2.1.2), ⟨(x.2.2.2, x.2.1.1), ⟨x.2.2.1, (x.1.1 - x.2.2.2, x.2.1.2)⟩⟩⟩) ?_ ?_ ?_ ?_ ?_
    · rintro ⟨⟨n, r⟩, ⟨p, n'⟩, l, ⟨k, r'⟩⟩ h
      simp only [mem_sigma, mem_antidiagonal, mem_range] at *
      obtain ⟨h1, h2, h4, h3⟩ := h
      exact ⟨by omega, trivial, h4, by omega⟩
    · rintro ⟨⟨q, e⟩, ⟨n', r'⟩, l, p⟩ h
      simp only [mem_sigma, mem_antidiagonal, mem_range] at *
      obtain ⟨h1, h2, h4, h3⟩ := h
      exact ⟨by omega, trivial, h4, trivial⟩
    · rintro ⟨⟨n, r⟩, ⟨p, n'⟩, l, ⟨k, r'⟩⟩ h
      simp only [mem_sigma, mem_antidiagonal, mem_range] at *
      obtain ⟨h1, h2, h4, h3⟩ := h
      rw [Nat.add_sub_cancel_left, h2, h3]
    · rintro ⟨⟨q, e⟩, ⟨n', r'⟩, l, p⟩ h
      simp only [mem_sigma, mem_antidiagonal, mem_range] at *
      obtain ⟨h1, h2, h4, h3⟩ := h
      rw [Nat.add_sub_cancel' (by omega : p ≤ q), h2]
    · rintro ⟨⟨n, r⟩, ⟨p, n'⟩, l, ⟨k, r'⟩⟩ h
      dsimp only
      rw [Nat.add_comm p k]
      ring

theorem U_zero {g : ℕ → ℝ} {D : ℕ} (hg : Set.InjOn (fun i => g i ^ 2) (Set.Iic D)) : ∀ (as : List (Ax × ℕ)), (∀ a ∈ as, a.1.φ.natDegree ≤ 2 * a.2 + 1) →
    ∀ d ≤ D, (as.map (·.2)).sum < d → U g (as.map (·.1)) d = 0
  | [], _, d, hd, h => by
    simp only [List.map_nil, List.sum_nil] at h
    simp [U, h.ne']
  | (a, b) :: as, ha, d, hd, h => by
    simp only [List.map_cons, List.sum_cons, U] at *
    refine sum_eq_zero ?_
    rintro ⟨q, e⟩ hqe
    simp only [mem_antidiagonal] at hqe
    by_cases hq : b < q
    · dsimp only
      rw [Dl_zero (hg.mono (Set.Iic_subset_Iic.2 (by omega))) (ha (a, b) (by simp)) _ _ hq, zero_mul]
    · dsimp only
      rw [U_zero hg as (fun x hx => ha x (by simp [hx])) e (by omega) (by omega), mul_zero]

theorem U_sum {g : ℕ → ℝ} {D : ℕ} (hg : Set.InjOn (fun i => g i ^ 2) (Set.Iic D)) : ∀ (as : List (Ax × ℕ)), (∀ a ∈ as, a.1.φ.natDegree ≤ 2 * a.2 + 1) → (as.map (·.2)).sum ≤ D →
    ∑ d ∈ range (D + 1), U g (as.map (·.1)) d = ((as.map (·.1)).map fun a => ∫ x in (a.c - a.h)..(a.c + a.h), a.φ.eval x).prod
  | [], _, _ => by simp [U, sum_ite_eq']
  | (a, b) :: as, ha, hD => by
    simp only [List.map_cons, List.sum_cons, List.prod_cons] at hD ⊢
    have ha' : ∀ x ∈ as, x.1.φ.natDegree ≤ 2 * x.2 + 1 := fun x hx => ha x (by simp [hx])
    rw [← Dl_sum (hg.mono (Set.Iic_subset_Iic.2 (by omega : b ≤ D))) (ha (a, b) (by simp)), ← U_sum hg as ha' (by omega)]
    set B := (as.map (·.2)).sum with hB
    have hU : ∑ d ∈ range (D + 1), U g (as.map (·.1)) d = ∑ d ∈ range (B + 1), U g (as.map (·.1)) d := by
      symm
      refine sum_subset (fun x hx => by simp at hx ⊢; omega) fun x hx hx' => ?_
      simp only [mem_range, not_lt] at hx hx'
      exact U_zero hg as ha' x (by omega) (by omega)
    rw [hU, sum_mul_sum, ← sum_product']
    rw [← sum_fiberwise_of_maps_to (s := range (b + 1) ×ˢ range (B + 1)) (t := range (D + 1)) (g := fun x => x.1 + x.2)
      (fun x hx => by simp at hx ⊢; omega)]
    refine sum_congr rfl fun d hd => ?_
    simp only [mem_range] at hd
    rw [U]
    symm
    refine sum_subset (fun x hx => by simp at hx ⊢; omega) ?_
    rintro ⟨q, e⟩ hx hx'
    simp only [mem_antidiagonal] at hx
    simp only [mem_filter, mem_product, mem_range, not_and] at hx'
    by_cases hq : b < q
    · dsimp only
      rw [Dl_zero (hg.mono (Set.Iic_subset_Iic.2 (by omega))) (ha (a, b) (by simp)) _ _ hq, zero_mul]
    · have he : B < e := by
        by_contra hc
        exact hx' (by omega) (by omega)
      dsimp only
      rw [U_zero hg as ha' e (by omega) (by omega), mul_zero]

/-- The rule of order `D` is exact for products of polynomials with degrees up to `2 * b + 1`, where the sum of the `b` is at most `D`. -/
theorem V_exact {g : ℕ → ℝ} {D : ℕ} (hg : Set.InjOn (fun i => g i ^ 2) (Set.Iic D)) (as : List (Ax × ℕ)) (ha : ∀ a ∈ as, a.1.φ.natDegree ≤ 2 * a.2 + 1)
    (hD : (as.map (·.2)).sum ≤ D) :
    V (wt fun i => g i ^ 2) g (as.map (·.1.c)) (as.map (·.1.h)) D (prodF (as.map (·.1))) = (as.map fun a => ∫ x in (a.1.c - a.1.h)..(a.1.c + a.1.h), a.1.φ.eval x).prod := by
  have h := U_sum hg as ha hD
  rw [List.map_map] at h
  rw [show (as.map fun a => ∫ x in (a.1.c - a.1.h)..(a.1.c + a.1.h), a.1.φ.eval x) = as.map ((fun a : Ax => ∫ x in (a.c - a.h)..(a.c + a.h), a.φ.eval x) ∘ (·.1)) from rfl, ← h]
  unfold V
  refine sum_congr rfl fun d _ => ?_
  rw [← H_eq_U]
  refine sum_congr rfl fun nr _ => ?_
  simp only [List.length_map]
  refine sum_congr rfl fun l hl => ?_
  have := T_prod g (as.map (·.1)) l (by rw [List.length_map, (mem_Ls.1 hl).1])
  rw [← this, List.map_map, List.map_map]
  rfl

end Verif.SymRl
