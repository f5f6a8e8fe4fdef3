import Verif.Integrate.DrlExact9
import Mathlib.Analysis.SpecialFunctions.Integrals.Basic
import Mathlib.Algebra.MvPolynomial.Degrees

/-!
# The basic rules of DCUHRE: the moments of the rules of degree seven and nine
-/

set_option linter.unusedSectionVars false

namespace Verif.Drl

open Finset

/-- The integral of a power from -1 to 1. -/
noncomputable def I1 (k : ℕ) : ℝ := if Odd k then 0 else 2 / (k + 1)

/-- What `DRLHRE` sums for a monomial: its integral over the cube times `θ`, up to a degree. -/
def Moments (t : Tab ℝ) (n k D : ℕ) (θ : ℝ) : Prop := ∀ κ : List ℕ, κ.length = n → κ.sum ≤ D → total t k (mono κ) = θ * (κ.map I1).prod

theorem prod_I1 : ∀ as : List ℕ, ((as.map (2 * ·)).map I1).prod = 2 ^ as.length * J (nzs as)
  | [] => by simp [J, nzs]
  | a :: as => by
    rw [List.map_cons, List.map_cons, List.prod_cons, prod_I1 as]
    have h : I1 (2 * a) = 2 * (1 / (2 * (a : ℝ) + 1)) := by
      unfold I1
      rw [if_neg (by simp)]
      push_cast; ring
    rw [h, List.length_cons, pow_succ]
    by_cases ha : a = 0
    · subst ha; rw [nzs_zero]; simp; ring
    · rw [nzs_pos ha, J, J, List.map_cons, List.prod_cons]; ring

theorem prod_odd {κ : List ℕ} (h : ∃ k ∈ κ, Odd k) : (κ.map I1).prod = 0 := by
  obtain ⟨k, hk, ho⟩ := h
  exact List.prod_eq_zero (List.mem_map.2 ⟨k, hk, by simp [I1, ho]⟩)

theorem even_list : ∀ κ : List ℕ, (¬ ∃ k ∈ κ, Odd k) → ∃ as : List ℕ, κ = as.map (2 * ·)
  | [], _ => ⟨[], rfl⟩
  | k :: κ, h => by
    push Not at h
    obtain ⟨as, e⟩ := even_list κ (by push Not; exact fun k' hk' => h k' (List.mem_cons_of_mem _ hk'))
    obtain ⟨a, ha⟩ := Nat.not_odd_iff_even.1 (h k List.mem_cons_self)
    exact ⟨a :: as, by rw [List.map_cons, ← e, ha, two_mul]⟩

theorem sum_even (as : List ℕ) : (as.map (2 * ·)).sum = 2 * as.sum := by
  rw [List.sum_map_mul_left]; simp

theorem nzs_sum : ∀ as : List ℕ, (nzs as).sum = as.sum
  | [] => rfl
  | a :: as => by
    by_cases ha : a = 0
    · subst ha; rw [nzs_zero, nzs_sum as]; simp
    · rw [nzs_pos ha, List.sum_cons, List.sum_cons, nzs_sum as]

theorem nzs_ne {as : List ℕ} : ∀ a ∈ nzs as, a ≠ 0 := by
  intro a ha
  simpa using (List.mem_filter.1 ha).2

/-! ## The final weights -/

theorem final_fold (z : ℝ) (u : ℕ → ℝ) (n : ℕ) : (List.range n).foldl (fun z j => z - u j) z = z - ∑ j ∈ range n, u j := by
  induction n with
  | zero => simp
  | succ n ih => rw [List.range_succ, List.foldl_append, ih, List.foldl_cons, List.foldl_nil, sum_range_succ]; ring

theorem sum_shift (u : ℕ → ℝ) {wt : ℕ} (h : 1 ≤ wt) : ∑ i ∈ Icc 2 wt, u i = ∑ j ∈ range (wt - 1), u (j + 2) := by
  rw [show Icc 2 wt = Ico 2 (wt + 1) from rfl, Finset.sum_Ico_eq_sum_range]
  rw [show wt + 1 - 2 = wt - 1 by omega]
  exact sum_congr rfl fun j _ => by rw [add_comm]

/-- A rule with such weights. -/
theorem final_sum {T : ℝ} {wt : ℕ} (hw : 1 ≤ wt) {rp : ℕ → ℝ} {raw : ℕ → ℕ → ℝ} {S : ℕ → ℝ} (k : ℕ) :
    ((∀ i, 2 ≤ i → i ≤ wt → S i = rp i) → S 1 = 1 → ∑ i ∈ Icc 1 wt, final T wt rp raw k i * S i = if k = 1 then T else 0) ∧
    (S 1 = 0 → ∑ i ∈ Icc 1 wt, final T wt rp raw k i * S i = if k = 1 then T * ∑ i ∈ Icc 2 wt, raw 1 i * S i else ∑ i ∈ Icc 2 wt, raw k i * S i - ∑ i ∈ Icc 2 wt, raw 1 i * S i) := by
  have h1 : ∑ i ∈ Icc 1 wt, final T wt rp raw k i * S i = final T wt rp raw k 1 * S 1 + ∑ i ∈ Icc 2 wt, (if k = 1 then T * raw 1 i else raw k i - raw 1 i) * S i := by
    rw [← Finset.add_sum_Ioc_eq_sum_Icc hw]
    congr 1
    refine sum_congr rfl fun i hi => ?_
    rw [mem_Icc] at hi
    simp only [final]
    rw [if_neg (by omega)]
  constructor
  · intro hS hS1
    rw [h1, hS1]
    simp only [final, if_true]
    rw [final_fold, ← sum_shift (fun i => rp i * if k = 1 then T * raw 1 i else raw k i - raw 1 i) hw, mul_one, sub_add_eq_add_sub, add_sub_assoc]
    have : ∑ i ∈ Icc 2 wt, (if k = 1 then T * raw 1 i else raw k i - raw 1 i) * S i = ∑ i ∈ Icc 2 wt, (rp i * if k = 1 then T * raw 1 i else raw k i - raw 1 i) := by
      refine sum_congr rfl fun i hi => ?_
      rw [mem_Icc] at hi
      rw [hS i hi.1 hi.2, mul_comm]
    rw [this, sub_self, add_zero]
  · intro hS
    rw [h1, hS, mul_zero, zero_add]
    split_ifs with hk
    · rw [mul_sum]; exact sum_congr rfl fun i _ => by ring
    · rw [← sum_sub_distrib]; exact sum_congr rfl fun i _ => by ring

/-- From the moments with the weights before the final values to those of the rule. -/
theorem moments_of {t : Tab ℝ} {n : ℕ} (ht : Fit t n) {raw : ℕ → ℕ → ℝ} (hw : t.w = final (2 ^ n) t.wtleng t.rulpts raw) (hr : ∀ i, 1 ≤ i → i ≤ t.wtleng → ((orb (t.g i)).card : ℝ) = t.rulpts i)
    (hone : t.rulpts 1 = 1) {k D : ℕ} (h1 : ∀ as : List ℕ, as.length = n → nzs as ≠ [] → 2 * as.sum ≤ D → ∑ i ∈ Icc 2 t.wtleng, raw 1 i * PS (t.g i) (as.map (2 * ·)) = J (nzs as))
    (hk : ∀ as : List ℕ, as.length = n → nzs as ≠ [] → 2 * as.sum ≤ D → ∑ i ∈ Icc 2 t.wtleng, raw k i * PS (t.g i) (as.map (2 * ·)) = J (nzs as)) : Moments t n k D (if k = 1 then 1 else 0) := by
  intro κ hκ hs
  have hS : total t k (mono κ) = ∑ i ∈ Icc 1 t.wtleng, t.w k i * PS (t.g i) κ := by
    unfold total
    refine sum_congr rfl fun i hi => ?_
    rw [mem_Icc] at hi
    obtain ⟨a1, -, a3⟩ := ht.all i hi.1 hi.2
    rw [sum_orb_mono a3 (hκ.trans a1.symm)]
  by_cases ho : ∃ k ∈ κ, Odd k
  · rw [hS, prod_odd ho, mul_zero]
    refine sum_eq_zero fun i hi => ?_
    rw [mem_Icc] at hi
    rw [PS_odd (hκ.trans (ht.all i hi.1 hi.2).1.symm) ho, mul_zero]
  · obtain ⟨as, rfl⟩ := even_list κ ho
    have hl : as.length = n := by simpa using hκ
    rw [sum_even] at hs
    rw [hS, prod_I1, hw, hl]
    have hlen := ht.len
    have hS1 : PS (t.g 1) (as.map (2 * ·)) = if nzs as = [] then 1 else 0 := by
      rw [ht.one, ← hl]; exact PS_zeros as
    by_cases hz : nzs as = []
    · rw [(final_sum (by omega) k).1]
      · rw [hz]; split_ifs <;> simp [J]
      · intro i i1 i2
        rw [← hr i (by omega) i2, card_orb (ht.all i (by omega) i2).2.2, (ht.all i (by omega) i2).1]
        congr 1
        have : as = List.replicate n 0 := by
          rw [List.eq_replicate_iff]
          refine ⟨hl, fun a ha => ?_⟩
          by_contra h0
          have : a ∈ nzs as := List.mem_filter.2 ⟨ha, by simpa using h0⟩
          rw [hz] at this; simp at this
        rw [this]
      · rw [hS1, if_pos hz]
    · rw [(final_sum (by omega) k).2 (by rw [hS1, if_neg hz]), h1 as hl hz hs, hk as hl hz hs]
      split_ifs <;> simp

/-! ## The rule of degree seven -/

theorem sum7 {n : ℕ} (hn : 2 ≤ n) {l0 : ℝ} (h : Ok l0) (k : ℕ) {as : List ℕ} (hl : as.length = n) :
    ∑ i ∈ Icc 2 (d07 n l0).wtleng, raw7 (2 ^ n : ℝ) (n : ℝ) l0 k i * PS ((d07 n l0).g i) (as.map (2 * ·)) = M7 (2 ^ n) n l0 k (nzs as) := by
  obtain ⟨r1, r2, r3, r4, r5, r6, r7⟩ := h.roots
  obtain ⟨q1, q2, q3, q4, q5, q6⟩ := h
  have one : ∀ v : ℝ, 0 ≤ v → 0 < √v → PS (gen n [√v]) (as.map (2 * ·)) = F1 n v (nzs as) := by
    intro v h0 hv
    rw [← F1_eq hn, ← hl]
    unfold gen
    rw [show ([√v] : List ℝ) ++ List.replicate (as.length - [√v].length) 0 = √v :: List.replicate (as.length - 1) 0 from rfl, PS_one1 hv.ne' as _ (by omega), Real.sq_sqrt h0]
  have two : ∀ v : ℝ, 0 ≤ v → 0 < √v → PS (gen n [√v, √v]) (as.map (2 * ·)) = F2 n v (nzs as) := by
    intro v h0 hv
    rw [← F2_eq hn, ← hl]
    unfold gen
    rw [show ([√v, √v] : List ℝ) ++ List.replicate (as.length - [√v, √v].length) 0 = List.replicate 2 √v ++ List.replicate (as.length - 2) 0 from rfl, PS_one hv.ne' as 2 _ (by omega), Real.sq_sqrt h0]
  have full : PS (gen n (List.replicate n √l0)) (as.map (2 * ·)) = 2 ^ n * l0 ^ (nzs as).sum := by
    rw [gen_full, ← FA_eq l0 (by rw [← hl]; exact nzs_le as), ← hl]
    have := PS_one (show √l0 ≠ 0 by linarith) as as.length 0 (by omega)
    rw [List.replicate_zero, List.append_nil, Real.sq_sqrt (by linarith)] at this
    exact this
  have hw : (d07 n l0).wtleng = 6 := rfl
  rw [hw]
  unfold M7
  rw [← one (lam2 l0) (by linarith) (by linarith), ← one (lam1 l0) (by linarith) (by linarith), ← one (5625 / 10000) (by norm_num) (by linarith), ← two (lam1 l0) (by linarith) (by linarith), ← full]
  rw [show Icc 2 6 = {2, 3, 4, 5, 6} from rfl]
  rw [sum_insert (by decide), sum_insert (by decide), sum_insert (by decide), sum_insert (by decide), sum_singleton]
  simp only [← add_assoc]
  rfl

theorem moments7 {n : ℕ} (hn : 2 ≤ n) {l0 : ℝ} (hl : Lit l0) : Moments (d07 n l0) n 1 7 1 ∧ Moments (d07 n l0) n 2 5 0 ∧ Moments (d07 n l0) n 3 5 0 ∧ Moments (d07 n l0) n 4 3 0 ∧ Moments (d07 n l0) n 5 1 0 := by
  have h := ok_lit hl
  have hT : (2 : ℝ) ^ n ≠ 0 := by positivity
  have hr : ∀ i, 1 ≤ i → i ≤ (d07 n l0).wtleng → ((orb ((d07 n l0).g i)).card : ℝ) = (d07 n l0).rulpts i := fun i => rulpts7 hn h
  have key : ∀ k D, (∀ nz : List ℕ, nz ≠ [] → (∀ a ∈ nz, a ≠ 0) → 2 * nz.sum ≤ D → M7 (2 ^ n) n l0 k nz = J nz) → D ≤ 7 → Moments (d07 n l0) n k D (if k = 1 then 1 else 0) := by
    intro k D hk hD
    refine moments_of (fit7 hn h) rfl hr rfl ?_ ?_
    · intro as hl' hz hs
      rw [sum7 hn h 1 hl']
      exact M7_one hT hl hz nzs_ne (by rw [nzs_sum]; omega)
    · intro as hl' hz hs
      rw [sum7 hn h k hl']
      exact hk _ hz nzs_ne (by rw [nzs_sum]; exact hs)
  refine ⟨?_, ?_, ?_, ?_, ?_⟩
  · simpa using key 1 7 (fun nz h0 hp hs => M7_one hT hl h0 hp (by omega)) (by omega)
  · simpa using key 2 5 (fun nz h0 hp hs => M7_two hT hl h0 hp (by omega)) (by omega)
  · simpa using key 3 5 (fun nz h0 hp hs => M7_three hT hl h0 hp (by omega)) (by omega)
  · simpa using key 4 3 (fun nz h0 hp hs => M7_four hT hl h0 hp (by omega)) (by omega)
  · simpa using key 5 1 (fun nz h0 hp hs => by
      exfalso
      rcases nz with _ | ⟨a, r⟩
      · exact h0 rfl
      · simp at hp hs; omega) (by omega)

/-! ## The rule of degree nine -/

theorem sum9 {n : ℕ} (hn : 2 ≤ n) {l0 : ℝ} (h : Ok l0) (k : ℕ) {as : List ℕ} (hl : as.length = n) :
    ∑ i ∈ Icc 2 (d09 n l0).wtleng, raw9 (2 < n) (2 ^ n : ℝ) (n : ℝ) l0 k i * PS ((d09 n l0).g i) (as.map (2 * ·)) = if 2 < n then M9 (2 ^ n) n l0 k (nzs as) else M92 l0 k (nzs as) := by
  obtain ⟨r1, r2, r3, r4, r5, r6, r7⟩ := h.roots
  obtain ⟨q1, q2, q3, q4, q5, q6⟩ := h
  have one : ∀ v : ℝ, 0 ≤ v → 0 < √v → PS (gen n [√v]) (as.map (2 * ·)) = F1 n v (nzs as) := by
    intro v h0 hv
    rw [← F1_eq hn, ← hl]
    unfold gen
    rw [show ([√v] : List ℝ) ++ List.replicate (as.length - [√v].length) 0 = √v :: List.replicate (as.length - 1) 0 from rfl, PS_one1 hv.ne' as _ (by omega), Real.sq_sqrt h0]
  have two : ∀ v : ℝ, 0 ≤ v → 0 < √v → PS (gen n [√v, √v]) (as.map (2 * ·)) = F2 n v (nzs as) := by
    intro v h0 hv
    rw [← F2_eq hn, ← hl]
    unfold gen
    rw [show ([√v, √v] : List ℝ) ++ List.replicate (as.length - [√v, √v].length) 0 = List.replicate 2 √v ++ List.replicate (as.length - 2) 0 from rfl, PS_one hv.ne' as 2 _ (by omega), Real.sq_sqrt h0]
  have three : 2 < n → ∀ v : ℝ, 0 ≤ v → 0 < √v → PS (gen n [√v, √v, √v]) (as.map (2 * ·)) = F3 n v (nzs as) := by
    intro hb v h0 hv
    rw [← F3_eq hb, ← hl]
    unfold gen
    rw [show ([√v, √v, √v] : List ℝ) ++ List.replicate (as.length - [√v, √v, √v].length) 0 = List.replicate 3 √v ++ List.replicate (as.length - 3) 0 from rfl, PS_one hv.ne' as 3 _ (by omega), Real.sq_sqrt h0]
  have pair : PS (gen n [√(lam1 l0), √(lam2 l0)]) (as.map (2 * ·)) = F12 n (lam1 l0) (lam2 l0) (nzs as) := by
    rw [← F12_eq, ← hl]
    unfold gen
    rw [show ([√(lam1 l0), √(lam2 l0)] : List ℝ) ++ List.replicate (as.length - [√(lam1 l0), √(lam2 l0)].length) 0 = √(lam1 l0) :: √(lam2 l0) :: List.replicate (as.length - 2) 0 from rfl,
      PS_two (by linarith) (by linarith) (by linarith) as _ (by omega), Real.sq_sqrt (by linarith), Real.sq_sqrt (by linarith)]
  have full : PS (gen n (List.replicate n √l0)) (as.map (2 * ·)) = 2 ^ n * l0 ^ (nzs as).sum := by
    rw [gen_full, ← FA_eq l0 (by rw [← hl]; exact nzs_le as), ← hl]
    have := PS_one (show √l0 ≠ 0 by linarith) as as.length 0 (by omega)
    rw [List.replicate_zero, List.append_nil, Real.sq_sqrt (by linarith)] at this
    exact this
  by_cases hb : 2 < n
  · have hw : (d09 n l0).wtleng = 9 := by simp only [d09]; rw [if_neg (by omega)]
    have hd : decide (2 < n) = true := by simpa using hb
    have h8 : (d09 n l0).g 8 = gen n [√(lam1 l0), √(lam1 l0), √(lam1 l0)] := by
      show gen n (if _ then _ else _) = _
      rw [if_pos hb]
    rw [hw, if_pos hb, hd]
    unfold M9
    rw [← one (lam1 l0) (by linarith) (by linarith), ← one (lam2 l0) (by linarith) (by linarith), ← one (lam3 l0) (by linarith) (by linarith), ← one (625 / 10000) (by norm_num) (by linarith),
      ← two (lam1 l0) (by linarith) (by linarith), ← pair, ← three hb (lam1 l0) (by linarith) (by linarith), ← full, ← h8]
    rw [show Icc 2 9 = {2, 3, 4, 5, 6, 7, 8, 9} from rfl]
    rw [sum_insert (by decide), sum_insert (by decide), sum_insert (by decide), sum_insert (by decide), sum_insert (by decide), sum_insert (by decide), sum_insert (by decide), sum_singleton]
    simp only [← add_assoc]
    rfl
  · obtain rfl : n = 2 := by omega
    have hw : (d09 2 l0).wtleng = 8 := rfl
    have h8 : (d09 2 l0).g 8 = gen 2 (List.replicate 2 √l0) := by
      show gen 2 (if _ then _ else _) = _
      rw [if_neg hb]
    rw [hw, if_neg hb]
    unfold M92
    have e4 : (4 : ℝ) * l0 ^ (nzs as).sum = 2 ^ 2 * l0 ^ (nzs as).sum := by norm_num
    have e2 : ((2 : ℕ) : ℝ) = 2 := by norm_num
    rw [e2] at one two pair
    rw [e4, ← one (lam1 l0) (by linarith) (by linarith), ← one (lam2 l0) (by linarith) (by linarith), ← one (lam3 l0) (by linarith) (by linarith), ← one (625 / 10000) (by norm_num) (by linarith),
      ← two (lam1 l0) (by linarith) (by linarith), ← pair, ← full, ← h8]
    rw [show Icc 2 8 = {2, 3, 4, 5, 6, 7, 8} from rfl]
    rw [sum_insert (by decide), sum_insert (by decide), sum_insert (by decide), sum_insert (by decide), sum_insert (by decide), sum_insert (by decide), sum_singleton]
    simp only [← add_assoc]
    rw [show (decide (2 < 2)) = false from rfl, show (2 : ℝ) ^ 2 = 4 by norm_num, e2]
    rfl

theorem moments9 {n : ℕ} (hn : 2 ≤ n) {l0 : ℝ} (hl : Lit l0) : Moments (d09 n l0) n 1 9 1 ∧ Moments (d09 n l0) n 2 7 0 ∧ Moments (d09 n l0) n 3 7 0 ∧ Moments (d09 n l0) n 4 5 0 ∧ Moments (d09 n l0) n 5 3 0 := by
  have h := ok_lit hl
  have hT : (2 : ℝ) ^ n ≠ 0 := by positivity
  have hr : ∀ i, 1 ≤ i → i ≤ (d09 n l0).wtleng → ((orb ((d09 n l0).g i)).card : ℝ) = (d09 n l0).rulpts i := fun i => rulpts9 hn h
  have eq : ∀ {w : W9} {k D}, (∀ big {T : ℝ}, T ≠ 0 → ∀ m, Made w big T m l0 k) → Eqs w l0 D → D ≤ 4 → ∀ as : List ℕ, as.length = n → nzs as ≠ [] → as.sum ≤ D →
      ∑ i ∈ Icc 2 (d09 n l0).wtleng, raw9 (2 < n) (2 ^ n : ℝ) (n : ℝ) l0 k i * PS ((d09 n l0).g i) (as.map (2 * ·)) = J (nzs as) := by
    intro w k D hm he hD as hl' hz hs
    rw [sum9 hn h k hl']
    split_ifs with hb
    · exact M9_eq hT (hm true hT _) he hD hz nzs_ne (by rw [nzs_sum]; exact hs)
    · exact M92_eq (hm false (by norm_num) _) he hz (by have := nzs_le as; omega) nzs_ne (by rw [nzs_sum]; exact hs)
  have one := eq (w := w91 l0) (k := 1) (fun big _ hT m => made91 big hT m l0) (eqs91 hl) (by omega)
  refine ⟨?_, ?_, ?_, ?_, ?_⟩
  · simpa using moments_of (fit9 hn h) rfl hr rfl (k := 1) (D := 9) (fun as a b c => one as a b (by omega)) (fun as a b c => one as a b (by omega))
  · simpa using moments_of (fit9 hn h) rfl hr rfl (k := 2) (D := 7) (fun as a b c => one as a b (by omega)) (fun as a b c => eq (fun big _ hT m => made92 big hT m l0) (eqs92 hl) (by omega) as a b (by omega))
  · simpa using moments_of (fit9 hn h) rfl hr rfl (k := 3) (D := 7) (fun as a b c => one as a b (by omega)) (fun as a b c => eq (fun big _ hT m => made93 big hT m l0) (eqs93 hl) (by omega) as a b (by omega))
  · simpa using moments_of (fit9 hn h) rfl hr rfl (k := 4) (D := 5) (fun as a b c => one as a b (by omega)) (fun as a b c => eq (fun big _ hT m => made94 big hT m l0) (eqs94 hl) (by omega) as a b (by omega))
  · simpa using moments_of (fit9 hn h) rfl hr rfl (k := 5) (D := 3) (fun as a b c => one as a b (by omega)) (fun as a b c => eq (fun big _ hT m => made95 big hT m l0) (eqs95 hl) (by omega) as a b (by omega))

end Verif.Drl
