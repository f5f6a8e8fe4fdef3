import Verif.Integrate.SymOrder

/-!
# Symmetric rules: moments and their products
-/

set_option linter.unusedSectionVars false

namespace Verif.SymRl

open Finset Polynomial

/-- Moments for the first `l` generators. -/
noncomputable def mom (g : ℕ → ℝ) (l k : ℕ) : ℝ := E (X ^ k * nod (fun i => g i ^ 2) l)

theorem mom_succ (g : ℕ → ℝ) (l k : ℕ) : mom g (l + 1) k = mom g l (k + 1) - g l ^ 2 * mom g l k := by
  unfold mom
  rw [nod_succ, ← E_C_mul, ← E_sub]
  congr 1
  ring

theorem sweep_spec (g : ℕ → ℝ) (l : ℕ) : ∀ cnt k, sweep (g l ^ 2) (mom g l k) ((List.range' (k + 1) cnt).map (mom g l)) = (List.range' k cnt).map (mom g (l + 1)) := by
  intro cnt
  induction cnt with
  | zero => intro k; rfl
  | succ cnt ih =>
    intro k
    rw [List.range'_succ, List.range'_succ, List.map_cons, List.map_cons, sweep, ih, mom_succ]

theorem modify_spec (g : ℕ → ℝ) (cut : ℝ) {N : ℕ} (htol : ∀ q < N, E (nod (fun i => g i ^ 2) q) ^ 2 < cut ^ 2 → E (nod (fun i => g i ^ 2) q) = 0) :
    ∀ cnt l, l + cnt < N → modify g cut cnt l (mom g l 0) ((List.range' 1 cnt).map (mom g l)) = (List.range' (l + 1) cnt).map fun q => mom g q 0 := by
  intro cnt
  induction cnt with
  | zero => intro l _; rfl
  | succ cnt ih =>
    intro l hl
    rw [modify, sweep_spec g l (cnt + 1) 0, List.range'_succ, List.map_cons]
    have h0 : mom g (l + 1) 0 = E (nod (fun i => g i ^ 2) (l + 1)) := by unfold mom; rw [pow_zero, one_mul]
    have h : (if mom g (l + 1) 0 ^ 2 < cut ^ 2 then 0 else mom g (l + 1) 0) = mom g (l + 1) 0 := by
      split_ifs with hc
      · rw [h0] at hc ⊢
        exact (htol (l + 1) (by omega) hc).symm
      · rfl
    dsimp only
    rw [h, ih (l + 1) (by omega), List.range'_succ, List.map_cons]

/-- The moments that are computed. -/
theorem moments_spec (g : ℕ → ℝ) (tol : ℝ) {N : ℕ} (htol : ∀ q < N, E (nod (fun i => g i ^ 2) q) ^ 2 < (tol * 2) ^ 2 → E (nod (fun i => g i ^ 2) q) = 0) :
    moments g tol N = (List.range N).map fun q => E (nod (fun i => g i ^ 2) q) := by
  cases N with
  | zero => rfl
  | succ N =>
    have h0 : ∀ l, (2 / ((2 * l + 1 : ℕ) : ℝ)) = mom g 0 l := by
      intro l
      rw [← E_X_pow]
      unfold mom nod
      simp
    unfold moments
    simp only [h0]
    rw [List.range_eq_range', List.range'_succ, List.map_cons]
    dsimp only
    rw [Nat.add_sub_cancel, ← h0 0, show (2 / ((2 * 0 + 1 : ℕ) : ℝ)) = 2 by norm_num]
    have := modify_spec g (tol * 2) htol N 0 (by omega)
    rw [← h0 0, show (2 / ((2 * 0 + 1 : ℕ) : ℝ)) = 2 by norm_num] at this
    rw [List.map_cons, Nat.zero_add, this]
    have hm : ∀ q, mom g q 0 = E (nod (fun i => g i ^ 2) q) := fun q => by unfold mom; rw [pow_zero, one_mul]
    simp only [hm]
    congr 1
    rw [← hm 0, ← h0]; norm_num

/-! ## Products -/

/-- The index of the generator that is used for the difference. -/
def other (l i : ℕ) : ℕ := if i ≤ l then i - 1 else i

/-- The product of the differences up to `i`. -/
noncomputable def nd (g : ℕ → ℝ) (l i : ℕ) : ℝ := ∏ k ∈ range i, (g l ^ 2 - g (other l (k + 1)) ^ 2)

theorem other_ne (l i : ℕ) (hi : 1 ≤ i) : other l i ≠ l := by
  unfold other
  split_ifs <;> omega

theorem row_spec {g : ℕ → ℝ} {N l : ℕ} (hg : Set.InjOn (fun i => g i ^ 2) (Set.Iio N)) (hl : l < N) : ∀ (ms : List ℝ) (i : ℕ), 1 ≤ i → i + ms.length ≤ N →
    row g l i (1 / nd g l (i - 1)) ms = some (List.zipWith (fun k m => 1 / nd g l k * m) (List.range' i ms.length) ms)
  | [], i, _, _ => rfl
  | m :: ms, i, hi, hN => by
    simp only [List.length_cons] at hN
    rw [row]
    have hgi : (if i ≤ l then g (i - 1) else g i) = g (other l i) := by
      unfold other; split_ifs <;> rfl
    simp only [hgi]
    have hne : g l ^ 2 ≠ g (other l i) ^ 2 := by
      intro h
      refine other_ne l i hi (hg ?_ (Set.mem_Iio.2 hl) h.symm)
      unfold other
      rw [Set.mem_Iio]
      split_ifs <;> omega
    rw [if_neg hne]
    have hnd : 1 / nd g l (i - 1) / (g l ^ 2 - g (other l i) ^ 2) = 1 / nd g l i := by
      conv_rhs => rw [show i = i - 1 + 1 by omega]
      unfold nd
      rw [prod_range_succ, show i - 1 + 1 = i by omega, div_div]
    rw [hnd]
    have := row_spec hg hl ms (i + 1) (by omega) (by omega)
    rw [Nat.add_sub_cancel] at this
    rw [this, List.length_cons, List.range'_succ, List.zipWith_cons_cons]
    rfl

theorem nd_below (g : ℕ → ℝ) (l : ℕ) : ∀ i ≤ l, nd g l i = ∏ j ∈ range i, (g l ^ 2 - g j ^ 2) := by
  intro i hi
  unfold nd
  refine prod_congr rfl fun k hk => ?_
  rw [mem_range] at hk
  unfold other
  rw [if_pos (by omega), Nat.add_sub_cancel]

theorem nd_eq (g : ℕ → ℝ) (l i : ℕ) (h : l ≤ i) : nd g l i = ∏ j ∈ (range (i + 1)).erase l, (g l ^ 2 - g j ^ 2) := by
  induction i, h using Nat.le_induction with
  | base =>
    rw [nd_below g l l le_rfl, range_add_one, erase_insert (by simp)]
  | succ i hi ih =>
    have : nd g l (i + 1) = nd g l i * (g l ^ 2 - g (i + 1) ^ 2) := by
      unfold nd
      rw [prod_range_succ]
      unfold other
      rw [if_neg (by omega : ¬ i + 1 ≤ l)]
    rw [this, ih, range_add_one (n := i + 1), erase_insert_of_ne (by omega), prod_insert (by simp), mul_comm]

theorem rows_succ (g : ℕ → ℝ) (m : ℝ) (ms : List ℝ) (cnt l : ℕ) :
    rows g (m :: ms) (cnt + 1) l = if g l < 0 then none else match row g l 1 1 ms with
      | none => none
      | some r => (rows g (m :: ms) cnt (l + 1)).map ((m :: r) :: ·) := by
  rw [rows]
  cases row g l 1 1 ms <;> rfl

/-- The products of the moments that are computed are the weights. -/
theorem rows_spec {g : ℕ → ℝ} {tol : ℝ} {N : ℕ} (hg : Set.InjOn (fun i => g i ^ 2) (Set.Iio N)) (hpos : ∀ i < N, 0 ≤ g i)
    (htol : ∀ q < N, E (nod (fun i => g i ^ 2) q) ^ 2 < (tol * 2) ^ 2 → E (nod (fun i => g i ^ 2) q) = 0) :
    ∃ R, rows g (moments g tol N) N 0 = some R ∧ ∀ l i, l ≤ i → i < N → prd R l i = wt (fun i => g i ^ 2) l i := by
  set ms := moments g tol N with hms
  rw [moments_spec g tol htol] at hms
  have hlen : ms.length = N := by rw [hms]; simp
  have key : ∀ cnt l, l + cnt ≤ N → ∃ R, rows g ms cnt l = some R ∧ R.length = cnt ∧ ∀ j i (_ : j < cnt), l + j ≤ i → i < N → (R.getD j []).getD i 0 = wt (fun i => g i ^ 2) (l + j) i := by
    intro cnt
    induction cnt with
    | zero =>
      intro l _
      exact ⟨[], rfl, rfl, fun j i hj => absurd hj (by omega)⟩
    | succ cnt ih =>
      intro l hl
      obtain ⟨R, h1, h2, h3⟩ := ih (l + 1) (by omega)
      obtain ⟨N', rfl⟩ : ∃ N', N = N' + 1 := ⟨N - 1, by omega⟩
      have hms' : ms = E (nod (fun i => g i ^ 2) 0) :: (List.range' 1 N').map fun q => E (nod (fun i => g i ^ 2) q) := by
        rw [hms, List.range_eq_range', List.range'_succ, List.map_cons]
      have hrow := row_spec hg (l := l) (by omega) ((List.range' 1 N').map fun q => E (nod (fun i => g i ^ 2) q)) 1 le_rfl (by simp; omega)
      have hnd0 : (1 : ℝ) / nd g l (1 - 1) = 1 := by simp [nd]
      rw [hnd0, List.length_map, List.length_range'] at hrow
      refine ⟨(E (nod (fun i => g i ^ 2) 0) :: List.zipWith (fun k m => 1 / nd g l k * m) (List.range' 1 N') ((List.range' 1 N').map fun q => E (nod (fun i => g i ^ 2) q))) :: R, ?_, ?_, ?_⟩
      · rw [hms'] at h1 ⊢
        rw [rows_succ, if_neg (not_lt.2 (hpos l (by omega))), hrow, h1]
        rfl
      · simp [h2]
      · intro j i hj hji hi
        cases j with
        | zero =>
          rw [List.getD_cons_zero, Nat.add_zero]
          cases i with
          | zero =>
            have hl0 : l = 0 := by omega
            subst hl0
            rw [List.getD_cons_zero]
            unfold wt
            simp
          | succ i =>
            rw [List.getD_cons_succ, List.getD_eq_getElem _ _ (by simp; omega), List.getElem_zipWith, List.getElem_map, List.getElem_range']
            unfold wt
            rw [one_mul, Nat.add_comm 1 i, nd_eq g l (i + 1) (by omega)]
            ring
        | succ j =>
          rw [List.getD_cons_succ, h3 j i (by omega) (by omega) hi, show l + 1 + j = l + (j + 1) by omega]
  obtain ⟨R, h1, h2, h3⟩ := key N 0 (by omega)
  refine ⟨R, h1, fun l i hl hi => ?_⟩
  have := h3 l i (by omega) (by omega) hi
  rw [Nat.zero_add] at this
  exact this

theorem whtS_congr {K : Type*} [Field K] {P P' : ℕ → ℕ → K} {N : ℕ} (h : ∀ l i, l ≤ i → i < N → P l i = P' l i) : ∀ (M : List ℕ) (r : ℕ), M.sum + r < N → whtS P M r = whtS P' M r
  | [], _, _ => rfl
  | m :: M, r, hN => by
    simp only [List.sum_cons] at hN
    simp only [whtS]
    refine sum_congr rfl ?_
    rintro ⟨k, r'⟩ hk
    rw [mem_antidiagonal] at hk
    dsimp only at hk ⊢
    rw [h m (k + m) (by omega) (by omega), whtS_congr h M r' (by omega)]

theorem V_congr {K : Type*} [Field K] {P P' : ℕ → ℕ → K} {N : ℕ} (h : ∀ l i, l ≤ i → i < N → P l i = P' l i) (g : ℕ → K) (cs hs : List K) {D : ℕ} (hD : D < N) (f : List K → K) :
    V P g cs hs D f = V P' g cs hs D f := by
  unfold V
  refine sum_congr rfl fun d hd => sum_congr rfl fun nr hnr => sum_congr rfl fun l hl => ?_
  rw [mem_range] at hd
  rw [mem_antidiagonal] at hnr
  rw [whtS_congr h l nr.2 (by rw [(mem_Ls.1 hl).2]; omega)]

end Verif.SymRl
