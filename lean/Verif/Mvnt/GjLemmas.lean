import Verif.Mvnt.CholLemmas
import Mathlib.Algebra.BigOperators.Field

/-!
# Lemmas about the inversion

The code exchanges, pass by pass, an argument and a value of the linear map of the matrix.  It keeps the lower triangle only and moves the rows and columns by one in every pass.
-/

set_option linter.unusedSectionVars false

namespace Verif.Mvnt

open Finset Matrix

/-! ## One pass -/

theorem gjInner_eq {i : ℕ} (hi : 1 ≤ i) (q : ℝ) (h : Arr) (js : List ℕ) (hj : ∀ j ∈ js, 1 ≤ j) (S : Arr2) (a b : ℕ) :
    gjInner i q h js S a b = if a + 1 = i ∧ b + 1 ∈ js then S i (b + 1) + q * h (b + 1) else S a b := by
  induction js generalizing S with
  | nil => simp [gjInner]
  | cons j js ih =>
    have hj1 := hj j (by simp)
    rw [gjInner, ih fun j hj' => hj j (by simp [hj'])]
    have h1 : ∀ c, set2 S (i - 1) (j - 1) (S i j + q * h j) i c = S i c := fun c => by
      unfold set2; rw [if_neg (by omega)]
    rw [h1]
    have h2 : set2 S (i - 1) (j - 1) (S i j + q * h j) a b = if a + 1 = i ∧ b + 1 = j then S i j + q * h j else S a b := by
      unfold set2
      by_cases hc : a + 1 = i ∧ b + 1 = j
      · rw [if_pos hc, if_pos (by omega)]
      · rw [if_neg hc, if_neg (by omega)]
    rw [h2]
    by_cases hbj : b + 1 = j
    · subst hbj; split_ifs <;> grind
    · split_ifs <;> grind

/-- What is written to the work array. -/
noncomputable def hval (k : ℕ) (p q : ℝ) (i : ℕ) : ℝ := if i < k then -(q / p) else q / p

theorem gjOuter_eq (k : ℕ) (p : ℝ) (m i : ℕ) (hi : 1 ≤ i) (S : Arr2) (h : Arr) :
    (∀ a, (gjOuter k p (List.range' i m) (S, h)).2 a = if i ≤ a ∧ a < i + m then hval k p (S a 0) a else h a) ∧
    ∀ a b, (gjOuter k p (List.range' i m) (S, h)).1 a b =
      if i ≤ a + 1 ∧ a + 1 < i + m ∧ b ≤ a then S (a + 1) (b + 1) + S (a + 1) 0 * (gjOuter k p (List.range' i m) (S, h)).2 (b + 1) else S a b := by
  induction m generalizing i S h with
  | zero =>
    refine ⟨fun a => ?_, fun a b => ?_⟩
    · rw [if_neg (by omega)]; rfl
    · rw [if_neg (by omega)]; rfl
  | succ m ih =>
    rw [List.range'_succ, gjOuter]
    set h1 := set1 h i (if i < k then -(S i 0 / p) else S i 0 / p) with hh1
    have hin := gjInner_eq hi (S i 0) h1 (List.range' 1 i) (fun j hj => (List.mem_range'_1.1 hj).1) S
    set S1 := gjInner i (S i 0) h1 (List.range' 1 i) S with hS1
    have hin' : ∀ a b, S1 a b = if a + 1 = i ∧ b < i then S i (b + 1) + S i 0 * h1 (b + 1) else S a b := by
      intro a b
      rw [hin]
      by_cases hc : a + 1 = i ∧ b < i
      · rw [if_pos hc, if_pos ⟨hc.1, by rw [List.mem_range'_1]; omega⟩]
      · rw [if_neg hc, if_neg (by rw [List.mem_range'_1]; omega)]
    have hrow : ∀ a b, i ≤ a → S1 a b = S a b := fun a b ha => by rw [hin', if_neg (by omega)]
    obtain ⟨e1, e2⟩ := ih (i + 1) (by omega) S1 h1
    refine ⟨fun a => ?_, fun a b => ?_⟩
    · rw [e1]
      rcases lt_trichotomy a i with ha | ha | ha
      · rw [if_neg (by omega), if_neg (by omega), hh1]; simp [set1, ha.ne]
      · subst ha
        rw [if_neg (by omega), if_pos (by omega), hh1]; simp [set1, hval]
      · by_cases hc : a < i + 1 + m
        · rw [if_pos (by omega), if_pos (by omega), hrow a 0 ha.le]
        · rw [if_neg (by omega), if_neg (by omega), hh1]; simp [set1, ha.ne']
    · rw [e2]
      rcases lt_trichotomy (a + 1) i with ha | ha | ha
      · rw [if_neg (by omega), if_neg (by omega), hin', if_neg (by omega)]
      · rw [if_neg (by omega), hin']
        by_cases hb : b ≤ a
        · rw [if_pos (by omega), if_pos (by omega), e1, if_neg (by omega), ha]
        · rw [if_neg (by omega), if_neg (by omega)]
      · by_cases hc : a + 1 < i + 1 + m ∧ b ≤ a
        · rw [if_pos (by omega), if_pos (by omega), hrow _ _ ha.le, hrow _ _ ha.le]
        · rw [if_neg (by omega), if_neg (by omega), hin', if_neg (by omega)]

theorem foldl_row (r : ℕ) (h : Arr) (js : List ℕ) (hj : ∀ j ∈ js, 1 ≤ j) (S : Arr2) (a b : ℕ) :
    js.foldl (fun S i => set2 S r (i - 1) (h i)) S a b = if a = r ∧ b + 1 ∈ js then h (b + 1) else S a b := by
  induction js generalizing S with
  | nil => simp
  | cons j js ih =>
    have hj1 := hj j (by simp)
    rw [List.foldl_cons, ih fun j hj' => hj j (by simp [hj'])]
    have h2 : set2 S r (j - 1) (h j) a b = if a = r ∧ b + 1 = j then h j else S a b := by
      unfold set2
      by_cases hc : a = r ∧ b + 1 = j
      · rw [if_pos hc, if_pos (by omega)]
      · rw [if_neg hc, if_neg (by omega)]
    rw [h2]
    by_cases hbj : b + 1 = j
    · subst hbj; split_ifs <;> grind
    · split_ifs <;> grind

/-- The entries after one pass. -/
theorem gjStep_eq {N k : ℕ} {S : Arr2} {h : Arr} (hp : 0 < S 0 0) :
    ∃ S' h', gjStep (N + 1) k S h = some (S', h') ∧
      (∀ a b, b ≤ a → a < N → S' a b = S (a + 1) (b + 1) + S (a + 1) 0 * hval k (S 0 0) (S (b + 1) 0) (b + 1)) ∧
      (∀ b, b < N → S' N b = hval k (S 0 0) (S (b + 1) 0) (b + 1)) ∧ S' N N = 1 / S 0 0 := by
  rw [gjStep]
  simp only [not_le.2 hp, if_false, Nat.add_sub_cancel]
  obtain ⟨e1, e2⟩ := gjOuter_eq k (S 0 0) N 1 le_rfl S h
  set st := gjOuter k (S 0 0) (List.range' 1 N) (S, h) with hst
  have hfold := foldl_row N st.2 (List.range' 1 N) (fun j hj => (List.mem_range'_1.1 hj).1) (set2 st.1 N N (1 / S 0 0))
  refine ⟨_, _, rfl, fun a b hb ha => ?_, fun b hb => ?_, ?_⟩
  · rw [hfold, if_neg (by omega)]
    unfold set2
    rw [if_neg (by omega), e2, if_pos (by omega), e1, if_pos (by omega)]
  · rw [hfold, if_pos ⟨rfl, by rw [List.mem_range'_1]; omega⟩, e1, if_pos (by omega)]
  · rw [hfold, if_neg (by rw [List.mem_range'_1]; omega)]
    simp [set2]

/-! ## The exchange -/

/-- The whole matrix a lower triangle stands for, when the last indices from `k` on are exchanged. -/
def full (k : ℕ) (S : Arr2) : Arr2 := fun a b => if b ≤ a then S a b else if (a < k ↔ b < k) then S b a else -S b a

/-- The arguments and the values after the exchanges. -/
def uarr (n k : ℕ) (x y : Arr) : Arr := fun a => if a < k then x (n - k + a) else y (a - k)

/-- `v` is `M` times `u`. -/
def Lin (n : ℕ) (M : Arr2) (u v : Arr) : Prop := ∀ a < n, v a = ∑ b ∈ range n, M a b * u b

/-- Exchanging the first argument and value. -/
theorem exchange {N : ℕ} {M M' : Arr2} {p : ℝ} (hp : p ≠ 0) (hM : M 0 0 = p)
    (h1 : ∀ a < N, ∀ b < N, M' a b = M (a + 1) (b + 1) - M (a + 1) 0 * M 0 (b + 1) / p)
    (h2 : ∀ a < N, M' a N = M (a + 1) 0 / p) (h3 : ∀ b < N, M' N b = -(M 0 (b + 1) / p)) (h4 : M' N N = 1 / p)
    {u v u' v' : Arr} (hu : ∀ a < N, u' a = u (a + 1)) (huN : u' N = v 0) (hv : ∀ a < N, v' a = v (a + 1)) (hvN : v' N = u 0) :
    Lin (N + 1) M u v ↔ Lin (N + 1) M' u' v' := by
  set s0 := ∑ b ∈ range N, M 0 (b + 1) * u (b + 1) with hs0
  have hs : ∀ a, ∑ b ∈ range (N + 1), M a b * u b = ∑ b ∈ range N, M a (b + 1) * u (b + 1) + M a 0 * u 0 := fun a => sum_range_succ' _ _
  have hN : ∑ b ∈ range (N + 1), M' N b * u' b = -(s0 / p) + v 0 / p := by
    rw [sum_range_succ, huN, h4, hs0, sum_div, ← sum_neg_distrib]
    congr 1
    · refine sum_congr rfl fun b hb => ?_
      rw [h3 b (mem_range.1 hb), hu b (mem_range.1 hb)]; ring
    · ring
  have ha : ∀ a < N, ∑ b ∈ range (N + 1), M' a b * u' b = ∑ b ∈ range N, M (a + 1) (b + 1) * u (b + 1) - M (a + 1) 0 * s0 / p + M (a + 1) 0 / p * v 0 := by
    intro a ha
    rw [sum_range_succ, huN, h2 a ha, hs0, mul_sum, sum_div, ← sum_sub_distrib]
    congr 1
    refine sum_congr rfl fun b hb => ?_
    rw [h1 a ha b (mem_range.1 hb), hu b (mem_range.1 hb)]; ring
  constructor
  · intro h a hlt
    have h0 := h 0 (by omega)
    rw [hs, ← hs0, hM] at h0
    rcases Nat.lt_succ_iff_lt_or_eq.1 hlt with hlt' | rfl
    · rw [hv a hlt', ha a hlt', h (a + 1) (by omega), hs, h0]
      field_simp; ring
    · rw [hvN, hN, h0]; field_simp; ring
  · intro h a hlt
    have h0 := h N (by omega)
    rw [hvN, hN] at h0
    have hv0 : v 0 = s0 + p * u 0 := by rw [h0]; field_simp; ring
    rcases Nat.eq_zero_or_pos a with rfl | hpos
    · rw [hs, ← hs0, hM, hv0]
    · obtain ⟨c, rfl⟩ : ∃ c, a = c + 1 := ⟨a - 1, by omega⟩
      have hc := h c (by omega)
      rw [hv c (by omega), ha c (by omega)] at hc
      rw [hc, hs, hv0]; field_simp; ring

theorem full_step {N k : ℕ} {S S' : Arr2} (hk : k ≤ N)
    (h1 : ∀ a b, b ≤ a → a < N → S' a b = S (a + 1) (b + 1) + S (a + 1) 0 * hval (k + 1) (S 0 0) (S (b + 1) 0) (b + 1))
    (h2 : ∀ b, b < N → S' N b = hval (k + 1) (S 0 0) (S (b + 1) 0) (b + 1)) (h3 : S' N N = 1 / S 0 0) :
    (∀ a < N, ∀ b < N, full k S' a b = full (k + 1) S (a + 1) (b + 1) - full (k + 1) S (a + 1) 0 * full (k + 1) S 0 (b + 1) / S 0 0) ∧
    (∀ a < N, full k S' a N = full (k + 1) S (a + 1) 0 / S 0 0) ∧
    (∀ b < N, full k S' N b = -(full (k + 1) S 0 (b + 1) / S 0 0)) ∧ full k S' N N = 1 / S 0 0 := by
  have hcol : ∀ a, full (k + 1) S (a + 1) 0 = S (a + 1) 0 := fun a => by simp [full]
  have hrow : ∀ b, full (k + 1) S 0 (b + 1) = if b < k then S (b + 1) 0 else -S (b + 1) 0 := fun b => by
    unfold full
    rw [if_neg (by omega)]
    by_cases hb : b < k
    · rw [if_pos hb, if_pos (by omega)]
    · rw [if_neg hb, if_neg (by omega)]
  refine ⟨fun a ha b hb => ?_, fun a ha => ?_, fun b hb => ?_, ?_⟩
  · rw [hcol, hrow]
    by_cases hab : b ≤ a
    · unfold full
      rw [if_pos hab, if_pos (by omega), h1 a b hab ha, hval]
      by_cases hbk : b < k
      · rw [if_pos (by omega), if_pos hbk]; ring
      · rw [if_neg (by omega), if_neg hbk]; ring
    · unfold full
      rw [if_neg hab, if_neg (show ¬b + 1 ≤ a + 1 by omega), h1 b a (by omega) hb, hval]
      by_cases hbk : b < k
      · rw [if_pos (show (a < k ↔ b < k) by omega), if_pos (show (a + 1 < k + 1 ↔ b + 1 < k + 1) by omega), if_pos (show a + 1 < k + 1 by omega), if_pos hbk]; ring
      · by_cases hak : a < k
        · rw [if_neg (show ¬(a < k ↔ b < k) by omega), if_neg (show ¬(a + 1 < k + 1 ↔ b + 1 < k + 1) by omega), if_pos (show a + 1 < k + 1 by omega), if_neg hbk]; ring
        · rw [if_pos (show (a < k ↔ b < k) by omega), if_pos (show (a + 1 < k + 1 ↔ b + 1 < k + 1) by omega), if_neg (show ¬a + 1 < k + 1 by omega), if_neg hbk]; ring
  · rw [hcol]
    unfold full
    rw [if_neg (by omega), h2 a ha, hval]
    by_cases hak : a < k
    · rw [if_neg (show ¬(a < k ↔ N < k) by omega), if_pos (by omega)]; ring
    · rw [if_pos (show (a < k ↔ N < k) by omega), if_neg (by omega)]
  · rw [hrow]
    unfold full
    rw [if_pos (by omega), h2 b hb, hval]
    by_cases hbk : b < k
    · rw [if_pos (by omega), if_pos hbk]
    · rw [if_neg (by omega), if_neg hbk]; ring
  · unfold full; rw [if_pos le_rfl, h3]

/-- What is kept by the passes. -/
def Rel (n k : ℕ) (A S : Arr2) : Prop := ∀ x y, Lin n A x y ↔ Lin n (full k S) (uarr n k x y) (uarr n k y x)

theorem Rel.step {N k : ℕ} {A S : Arr2} {h : Arr} (hk : k ≤ N) (hr : Rel (N + 1) (k + 1) A S) (hp : 0 < S 0 0) :
    ∃ S' h', gjStep (N + 1) (k + 1) S h = some (S', h') ∧ Rel (N + 1) k A S' := by
  obtain ⟨S', h', e, h1, h2, h3⟩ := gjStep_eq (N := N) (k := k + 1) (h := h) hp
  refine ⟨S', h', e, fun x y => ?_⟩
  obtain ⟨f1, f2, f3, f4⟩ := full_step hk h1 h2 h3
  rw [hr x y]
  refine exchange hp.ne' (by simp [full]) f1 f2 f3 f4 ?_ ?_ ?_ ?_
  all_goals first
    | (intro a ha
       unfold uarr
       by_cases hc : a < k
       · rw [if_pos hc, if_pos (by omega)]; congr 1; omega
       · rw [if_neg hc, if_neg (by omega)]; congr 1; omega)
    | (unfold uarr
       rw [if_neg (by omega), if_pos (by omega)]; congr 1; omega)

/-- The pivots of a positive definite matrix are positive. -/
theorem Rel.pivot {N k : ℕ} {A S : Arr2} (hk : k ≤ N) (hr : Rel (N + 1) (k + 1) A S) (hpd : PD (mat (N + 1) A)) : 0 < S 0 0 := by
  set M := full (k + 1) S with hM
  set u : Arr := fun a => if a = 0 then 1 else 0 with hu
  set v : Arr := fun a => ∑ b ∈ range (N + 1), M a b * u b with hv
  have hv0 : v 0 = S 0 0 := by
    simp only [hv, hu]
    rw [sum_eq_single 0 (fun b _ hb => by simp [hb]) (fun h => absurd (mem_range.2 (by omega)) h)]
    simp [hM, full]
  set x : Arr := fun i => if N - k ≤ i then u (i - (N - k)) else v (i + (k + 1)) with hx
  set y : Arr := fun i => if N - k ≤ i then v (i - (N - k)) else u (i + (k + 1)) with hy
  have hux : ∀ a < N + 1, uarr (N + 1) (k + 1) x y a = u a := by
    intro a ha
    unfold uarr
    by_cases hc : a < k + 1
    · rw [if_pos hc, hx]; simp only []; rw [if_pos (by omega)]; congr 1; omega
    · rw [if_neg hc, hy]; simp only []; rw [if_neg (by omega)]; congr 1; omega
  have hvy : ∀ a < N + 1, uarr (N + 1) (k + 1) y x a = v a := by
    intro a ha
    unfold uarr
    by_cases hc : a < k + 1
    · rw [if_pos hc, hy]; simp only []; rw [if_pos (by omega)]; congr 1; omega
    · rw [if_neg hc, hx]; simp only []; rw [if_neg (by omega)]; congr 1; omega
  have hlin : Lin (N + 1) A x y := by
    rw [hr x y]
    intro a ha
    rw [hvy a ha, hv]
    exact sum_congr rfl fun b hb => by rw [hux b (mem_range.1 hb)]
  have hxk : x (N - k) = 1 := by simp only [hx]; rw [if_pos le_rfl, Nat.sub_self]; simp [hu]
  have hq := hpd.2 (vec (N + 1) x) (by
    intro h0
    have := congrFun h0 ⟨N - k, by omega⟩
    simp only [vec, hxk, Pi.zero_apply] at this
    norm_num at this)
  have hmv : mat (N + 1) A *ᵥ vec (N + 1) x = vec (N + 1) y := by
    ext i
    change ∑ j : Fin (N + 1), A i j * x j = y i
    rw [Fin.sum_univ_eq_sum_range (fun j => A i j * x j) (N + 1), hlin i i.2]
  rw [hmv] at hq
  have : vec (N + 1) x ⬝ᵥ vec (N + 1) y = S 0 0 := by
    change ∑ i : Fin (N + 1), x i * y i = _
    rw [Fin.sum_univ_eq_sum_range (fun i => x i * y i) (N + 1), sum_eq_single (N - k)]
    · rw [hxk, one_mul, ← hv0]; simp only [hy]; rw [if_pos le_rfl, Nat.sub_self]
    · intro i hi hne
      by_cases hc : N - k ≤ i
      · have : x i = 0 := by simp only [hx]; rw [if_pos hc]; simp only [hu]; rw [if_neg (by omega)]
        rw [this, zero_mul]
      · have : y i = 0 := by simp only [hy]; rw [if_neg hc]; simp only [hu]; rw [if_neg (by omega)]
        rw [this, mul_zero]
    · intro h; exact absurd (mem_range.2 (by omega)) h
  rw [← this]; exact hq

theorem gjLoop_run {N : ℕ} {A : Arr2} (k : ℕ) (hk : k ≤ N + 1) {S : Arr2} {h : Arr} (hr : Rel (N + 1) k A S) :
    (∀ S', gjLoop (N + 1) k S h = some S' → Rel (N + 1) 0 A S') ∧ (PD (mat (N + 1) A) → ∃ S', gjLoop (N + 1) k S h = some S') := by
  induction k generalizing S h with
  | zero =>
    refine ⟨fun S' e => ?_, fun _ => ⟨S, rfl⟩⟩
    simp only [gjLoop, Option.some.injEq] at e
    rw [← e]; exact hr
  | succ k ih =>
    by_cases hp : 0 < S 0 0
    · obtain ⟨S1, h1, e, hr1⟩ := hr.step (h := h) (by omega) hp
      rw [gjLoop, e]
      exact ih (by omega) hr1
    · refine ⟨fun S' e => ?_, fun hpd => absurd (hr.pivot (by omega) hpd) hp⟩
      rw [gjLoop, gjStep] at e
      simp only [not_lt.1 hp, if_true] at e
      cases e

/-- The inversion: what it returns is the inverse, and it does return for positive definite matrices. -/
theorem invert_spec {n : ℕ} {S : Arr2} {h : Arr} (hsym : (mat n S)ᵀ = mat n S) :
    (∀ T, invert n S h = some T → IsUnit (mat n S).det ∧ mat n T = (mat n S)⁻¹) ∧ (PD (mat n S) → ∃ T, invert n S h = some T) := by
  rcases n with _ | N
  · refine ⟨fun T _ => ⟨by simp, Subsingleton.elim _ _⟩, fun _ => ⟨_, rfl⟩⟩
  have hs : ∀ a b, a < N + 1 → b < N + 1 → S a b = S b a := fun a b ha hb => (congrFun (congrFun hsym ⟨b, hb⟩) ⟨a, ha⟩)
  have h0 : Rel (N + 1) (N + 1) S S := by
    intro x y
    have e : ∀ x y a, a < N + 1 → uarr (N + 1) (N + 1) x y a = x a := fun x y a ha => by simp [uarr, ha]
    have hf : ∀ a < N + 1, ∀ b < N + 1, full (N + 1) S a b = S a b := fun a ha b hb => by
      unfold full
      by_cases hab : b ≤ a
      · rw [if_pos hab]
      · rw [if_neg hab, if_pos (by omega), hs b a hb ha]
    have key : ∀ a < N + 1, (y a = ∑ b ∈ range (N + 1), S a b * x b) ↔
        (uarr (N + 1) (N + 1) y x a = ∑ b ∈ range (N + 1), full (N + 1) S a b * uarr (N + 1) (N + 1) x y b) := by
      intro a ha
      have hsum : ∑ b ∈ range (N + 1), full (N + 1) S a b * uarr (N + 1) (N + 1) x y b = ∑ b ∈ range (N + 1), S a b * x b :=
        sum_congr rfl fun b hb => by rw [hf a ha b (mem_range.1 hb), e x y b (mem_range.1 hb)]
      rw [e y x a ha, hsum]
    exact forall₂_congr key
  obtain ⟨h1, h2⟩ := gjLoop_run (N + 1) le_rfl (h := h) h0
  refine ⟨fun T hT => ?_, fun hpd => ?_⟩
  · rcases hg : gjLoop (N + 1) (N + 1) S h with _ | S'
    · simp [invert, hg] at hT
    · simp only [invert, hg, Option.some.injEq] at hT
      have hr := h1 S' hg
      have hTS : ∀ a b, full 0 S' a b = T a b := fun a b => by
        rw [← hT]; unfold full; beta_reduce
        by_cases hab : b ≤ a
        · rw [if_pos hab, if_neg (by omega)]
        · rw [if_neg hab, if_pos (by omega), if_pos (by omega)]
      have hmul : mat (N + 1) T * mat (N + 1) S = 1 := by
        apply Matrix.toLin'.injective
        ext1 i
        ext1
        ext j
        simp only [Matrix.toLin'_mul, LinearMap.comp_apply, Matrix.toLin'_apply, Matrix.toLin'_one, LinearMap.id_apply, LinearMap.single_apply]
        set w : Fin (N + 1) → ℝ := Pi.single i 1 with hw
        set x : Arr := fun a => if h : a < N + 1 then w ⟨a, h⟩ else 0 with hx
        set y : Arr := fun a => ∑ b ∈ range (N + 1), S a b * x b with hy
        have hvx : vec (N + 1) x = w := by ext a; simp only [vec, hx]; rw [dif_pos a.2]
        have hvy : vec (N + 1) y = mat (N + 1) S *ᵥ w := by
          ext a
          rw [← hvx]
          change ∑ b ∈ range (N + 1), S a b * x b = ∑ b : Fin (N + 1), S a b * x b
          rw [Fin.sum_univ_eq_sum_range (fun b => S a b * x b) (N + 1)]
        have hl := (hr x y).1 (fun a _ => rfl) j j.2
        rw [← hvy, ← hvx]
        change ∑ b : Fin (N + 1), T j b * y b = x j
        rw [Fin.sum_univ_eq_sum_range (fun b => T j b * y b) (N + 1)]
        simp only [uarr, Nat.not_lt_zero, if_false, Nat.sub_zero] at hl
        rw [hl]
        exact sum_congr rfl fun b _ => by rw [hTS]
      have hu : IsUnit (mat (N + 1) S).det := by
        have := congrArg Matrix.det hmul
        rw [Matrix.det_mul, Matrix.det_one] at this
        exact IsUnit.of_mul_eq_one _ (by rw [mul_comm]; exact this)
      exact ⟨hu, (Matrix.inv_eq_left_inv hmul).symm⟩
  · obtain ⟨S', hS'⟩ := h2 hpd
    exact ⟨_, by simp only [invert, hS']; rfl⟩

end Verif.Mvnt
