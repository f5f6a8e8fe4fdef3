import Verif.Integrate.DrlLemmas
import Verif.Integrate.DrlTabs
import Mathlib.Data.Nat.Choose.Basic
import Mathlib.Data.Nat.Choose.Cast
import Mathlib.Tactic.LinearCombination

/-!
# The basic rules of DCUHRE: sums of monomials over orbits
-/

set_option linter.unusedSectionVars false

namespace Verif.Drl

open Finset
open Verif.Adapt (put Box)

variable {K : Type*} [Field K] [LinearOrder K] [IsStrictOrderedRing K]

/-- A monomial. -/
def mono : List ℕ → List K → K
  | k :: ks, y :: ys => y ^ k * mono ks ys
  | _, _ => 1

/-- The sum of a power over the signs of a coordinate. -/
def tau (v : K) (k : ℕ) : K := if v = 0 then v ^ k else v ^ k + (-v) ^ k

/-- The product of these sums. -/
def taus : List ℕ → List K → K
  | k :: ks, v :: vs => tau v k * taus ks vs
  | _, _ => 1

theorem sum_sgn : ∀ (κ : List ℕ) (p : List K), κ.length = p.length → ((sgn p).map (mono κ)).sum = taus κ p
  | [], [], _ => by simp [sgn, mono, taus]
  | k :: κ, v :: p, h => by
    rw [taus, ← sum_sgn κ p (by simpa using h), sgn]
    generalize sgn p = L
    induction L with
    | nil => simp
    | cons y L ih =>
      rw [List.flatMap_cons, List.map_append, List.sum_append, ih, List.map_cons, List.sum_cons, mul_add]
      congr 1
      unfold tau
      split_ifs with h0
      · simp [mono]
      · simp [mono]; ring
  | [], _ :: _, h => by simp at h
  | _ :: _, [], h => by simp at h

/-- The sum over the permutations of a list. -/
def PS (M : List K) (κ : List ℕ) : K := ∑ p ∈ Pm M, taus κ p

theorem sum_orb_mono {g : List K} (hg : ∀ m ∈ g, 0 ≤ m) {κ : List ℕ} (hκ : κ.length = g.length) : ∑ y ∈ orb g, mono κ y = PS g κ := by
  unfold orb PS
  rw [sum_biUnion]
  · refine sum_congr rfl fun p hp => ?_
    rw [← sum_sgn κ p (hκ.trans (mem_Pm.1 hp).length_eq.symm), List.sum_toFinset _ nodup_sgn]
  · intro p hp q hq hpq
    rw [Function.onFun, Finset.disjoint_left]
    intro y h1 h2
    have hp' := mem_Pm.1 (mem_coe.1 hp)
    have hq' := mem_Pm.1 (mem_coe.1 hq)
    rw [List.mem_toFinset, mem_sgn fun m hm => hg m (hp'.subset hm)] at h1
    rw [List.mem_toFinset, mem_sgn fun m hm => hg m (hq'.subset hm)] at h2
    exact hpq (h1.symm.trans h2)

theorem PS_perm {M M' : List K} (h : M.Perm M') (κ : List ℕ) : PS M κ = PS M' κ := by
  unfold PS
  refine sum_congr ?_ fun _ _ => rfl
  ext p
  rw [mem_Pm, mem_Pm]
  exact ⟨fun h' => h'.trans h, fun h' => h'.trans h.symm⟩

/-- The first coordinate is one of the values. -/
theorem PS_cons (M : List K) (k : ℕ) (κ : List ℕ) (hM : M ≠ []) : PS M (k :: κ) = ∑ v ∈ M.toFinset, tau v k * PS (M.erase v) κ := by
  unfold PS
  have h : Pm M = M.toFinset.biUnion fun v => (Pm (M.erase v)).image (v :: ·) := by
    ext p
    simp only [mem_Pm, mem_biUnion, List.mem_toFinset, mem_image]
    constructor
    · intro h
      cases p with
      | nil => exact absurd (List.nil_perm.1 h) hM
      | cons v p =>
        have hv : v ∈ M := h.subset List.mem_cons_self
        exact ⟨v, hv, p, List.Perm.cons_inv (h.trans (List.perm_cons_erase hv)), rfl⟩
    · rintro ⟨v, hv, q, hq, rfl⟩
      exact (hq.cons v).trans (List.perm_cons_erase hv).symm
  rw [h, sum_biUnion]
  · refine sum_congr rfl fun v _ => ?_
    rw [sum_image fun a _ b _ hab => (List.cons.inj hab).2, mul_sum]
    rfl
  · intro v _ w _ hvw
    rw [Function.onFun, Finset.disjoint_left]
    intro y h1 h2
    obtain ⟨a, -, rfl⟩ := mem_image.1 h1
    obtain ⟨b, -, hb⟩ := mem_image.1 h2
    exact hvw (List.cons.inj hb).1.symm

theorem tau_odd {v : K} {k : ℕ} (hk : Odd k) : tau v k = 0 := by
  unfold tau
  split_ifs with h
  · rw [h, zero_pow hk.pos.ne']
  · rw [hk.neg_pow]; ring

theorem tau_even (v : K) (a : ℕ) : tau v (2 * a) = if v = 0 then (if a = 0 then 1 else 0) else 2 * (v ^ 2) ^ a := by
  unfold tau
  split_ifs with h ha
  · rw [ha]; simp
  · rw [h, zero_pow (by omega)]
  · rw [pow_mul, pow_mul, neg_sq]; ring

theorem taus_odd : ∀ {κ : List ℕ} {p : List K}, κ.length = p.length → (∃ k ∈ κ, Odd k) → taus κ p = 0
  | [], _, _, ⟨k, hk, _⟩ => by simp at hk
  | k :: κ, [], h, _ => by simp at h
  | k :: κ, v :: p, h, ⟨k', hk', ho⟩ => by
    rw [taus]
    rcases List.mem_cons.1 hk' with rfl | hk'
    · rw [tau_odd ho, zero_mul]
    · rw [taus_odd (by simpa using h) ⟨k', hk', ho⟩, mul_zero]

theorem PS_odd {M : List K} {κ : List ℕ} (h : κ.length = M.length) (ho : ∃ k ∈ κ, Odd k) : PS M κ = 0 :=
  sum_eq_zero fun _ hp => taus_odd (h.trans (mem_Pm.1 hp).length_eq.symm) ho

/-! ## Orbits with one value -/

/-- The exponents that are not zero. -/
def nzs (as : List ℕ) : List ℕ := as.filter (· ≠ 0)

theorem nzs_zero (as : List ℕ) : nzs (0 :: as) = nzs as := by simp [nzs]

theorem nzs_pos {a : ℕ} (ha : a ≠ 0) (as : List ℕ) : nzs (a :: as) = a :: nzs as := by simp [nzs, ha]

theorem nzs_le (as : List ℕ) : (nzs as).length ≤ as.length := List.length_filter_le _ _

/-- The sum of a monomial over the orbit of a generator with `j` times the value with the square `μ`, in `n` dimensions; `nz` are half the exponents that are not zero. -/
def oneForm (j : ℕ) (μ : K) (n : ℕ) (nz : List ℕ) : K := if nz.length ≤ j then 2 ^ j * μ ^ nz.sum * ((n - nz.length).choose (j - nz.length) : ℕ) else 0

theorem PS_zeros (as : List ℕ) : PS (List.replicate as.length (0 : K)) (as.map (2 * ·)) = if nzs as = [] then 1 else 0 := by
  unfold PS
  have : Pm (List.replicate as.length (0 : K)) = {List.replicate as.length 0} := by
    ext p; rw [mem_Pm, mem_singleton, List.perm_replicate]
  rw [this, sum_singleton]
  clear this
  induction as with
  | nil => simp [taus, nzs]
  | cons a as ih =>
    rw [List.map_cons, List.length_cons, List.replicate_succ, taus, ih, tau_even, if_pos rfl]
    by_cases ha : a = 0
    · subst ha; rw [nzs_zero]; simp
    · rw [nzs_pos ha, if_neg ha]; simp

theorem PS_one {v : K} (hv : v ≠ 0) : ∀ (as : List ℕ) (j m : ℕ), as.length = j + m → PS (List.replicate j v ++ List.replicate m 0) (as.map (2 * ·)) = oneForm j (v ^ 2) as.length (nzs as)
  | as, 0, m, h => by
    rw [Nat.zero_add] at h
    rw [List.replicate_zero, List.nil_append, ← h, PS_zeros]
    unfold oneForm
    by_cases hn : nzs as = []
    · simp [hn]
    · rw [if_neg hn, if_neg]
      simpa using hn
  | [], j + 1, m, h => by simp at h; omega
  | a :: as, j + 1, 0, h => by
    have hl : as.length = j := by simpa using h
    rw [List.map_cons, PS_cons _ _ _ (by simp), List.replicate_zero, List.append_nil]
    have : (List.replicate (j + 1) v).toFinset = {v} := by ext; simp
    rw [this, sum_singleton, List.replicate_succ, List.erase_cons_head, tau_even, if_neg hv]
    have ih := PS_one hv as j 0 (by omega)
    rw [List.replicate_zero, List.append_nil] at ih
    rw [ih]
    unfold oneForm
    by_cases ha : a = 0
    · subst ha
      rw [nzs_zero]
      have hn := nzs_le as
      rw [if_pos (by omega), if_pos (by omega), List.length_cons, hl, Nat.choose_self, Nat.choose_self]
      ring
    · rw [nzs_pos ha]
      have hn := nzs_le as
      rw [if_pos (by omega), if_pos (by simp; omega), List.length_cons, List.length_cons, hl, Nat.add_sub_add_right, Nat.choose_self, List.sum_cons]
      ring
  | a :: as, j + 1, m + 1, h => by
    have hl : as.length = j + 1 + m := by simp at h; omega
    rw [List.map_cons, PS_cons _ _ _ (by simp)]
    have : (List.replicate (j + 1) v ++ List.replicate (m + 1) 0).toFinset = {v, 0} := by
      ext x; simp [List.mem_append]
    have e1 : (List.replicate (j + 1) v ++ List.replicate (m + 1) 0).erase v = List.replicate j v ++ List.replicate (m + 1) 0 := by
      rw [List.replicate_succ, List.cons_append, List.erase_cons_head]
    have e2 : (List.replicate (j + 1) v ++ List.replicate (m + 1) 0).erase 0 = List.replicate (j + 1) v ++ List.replicate m 0 := by
      rw [List.erase_append_right _ (by simp [hv.symm]), List.replicate_succ (n := m), List.erase_cons_head]
    rw [this, sum_pair hv, e1, e2, tau_even, tau_even, if_neg hv, if_pos rfl, PS_one hv as j (m + 1) (by omega), PS_one hv as (j + 1) m hl]
    unfold oneForm
    by_cases ha : a = 0
    · subst ha
      rw [nzs_zero, if_pos rfl, pow_zero, List.length_cons]
      set s := (nzs as).length with hs
      have hn : s ≤ as.length := nzs_le as
      by_cases h1 : s ≤ j
      · rw [if_pos h1, if_pos (by omega), if_pos (by omega), show as.length + 1 - s = as.length - s + 1 by omega, show j + 1 - s = j - s + 1 by omega, Nat.choose_succ_succ]
        push_cast
        ring
      · by_cases h2 : s ≤ j + 1
        · rw [if_neg h1, if_pos h2, if_pos h2, show j + 1 - s = 0 by omega, Nat.choose_zero_right, Nat.choose_zero_right]
          ring
        · rw [if_neg h1, if_neg h2, if_neg h2]; ring
    · rw [nzs_pos ha, if_neg ha, List.length_cons, List.length_cons, List.sum_cons, Nat.add_sub_add_right, Nat.add_sub_add_right]
      by_cases h1 : (nzs as).length ≤ j
      · rw [if_pos h1, if_pos (show (nzs as).length + 1 ≤ j + 1 by omega)]; ring
      · rw [if_neg h1, if_neg (show ¬(nzs as).length + 1 ≤ j + 1 by omega)]; ring

/-! ## Orbits with two values -/

/-- The same, for a generator with two different values. -/
def twoForm (μ ν : K) (n : ℕ) : List ℕ → K
  | [] => 4 * n * (n - 1)
  | [a] => 4 * (n - 1) * (μ ^ a + ν ^ a)
  | [a, b] => 4 * (μ ^ a * ν ^ b + ν ^ a * μ ^ b)
  | _ => 0

theorem PS_one1 {v : K} (hv : v ≠ 0) (as : List ℕ) (m : ℕ) (h : as.length = m + 1) : PS (v :: List.replicate m 0) (as.map (2 * ·)) = oneForm 1 (v ^ 2) as.length (nzs as) := by
  have := PS_one hv as 1 m (by omega)
  simpa using this

theorem PS_two {v w : K} (hv : v ≠ 0) (hw : w ≠ 0) (hvw : v ≠ w) : ∀ (as : List ℕ) (m : ℕ), as.length = m + 2 → PS (v :: w :: List.replicate m 0) (as.map (2 * ·)) = twoForm (v ^ 2) (w ^ 2) as.length (nzs as)
  | [], m, h => by simp at h
  | a :: as, 0, h => by
    have hl : as.length = 0 + 1 := by simpa using h
    rw [List.map_cons, PS_cons _ _ _ (by simp), List.replicate_zero]
    have : [v, w].toFinset = {v, w} := by ext; simp
    have e1 : [v, w].erase v = [w] := List.erase_cons_head _ _
    have e2 : [v, w].erase w = [v] := by
      rw [List.erase_cons_tail (by simpa using hvw), List.erase_cons_head]
    have p1 := PS_one1 hw as 0 hl
    have p2 := PS_one1 hv as 0 hl
    rw [List.replicate_zero] at p1 p2
    rw [this, sum_pair hvw, e1, e2, p1, p2, tau_even, tau_even, if_neg hv, if_neg hw, List.length_cons, hl]
    unfold oneForm
    by_cases ha : a = 0
    · subst ha
      rw [nzs_zero]
      obtain ⟨b, rfl⟩ : ∃ b, as = [b] := by
        cases as with
        | nil => simp at hl
        | cons b as => cases as with
          | nil => exact ⟨b, rfl⟩
          | cons => simp at hl
      by_cases hb : b = 0
      · subst hb
        simp [nzs, twoForm]; ring
      · rw [nzs_pos hb]
        simp [nzs, twoForm]; ring
    · rw [nzs_pos ha]
      obtain ⟨b, rfl⟩ : ∃ b, as = [b] := by
        cases as with
        | nil => simp at hl
        | cons b as => cases as with
          | nil => exact ⟨b, rfl⟩
          | cons => simp at hl
      by_cases hb : b = 0
      · subst hb
        simp [nzs, twoForm]; ring
      · rw [nzs_pos hb]
        simp [nzs, twoForm]; ring
  | a :: as, m + 1, h => by
    have hl : as.length = m + 1 + 1 := by simpa using h
    rw [List.map_cons, PS_cons _ _ _ (by simp)]
    have : (v :: w :: List.replicate (m + 1) 0).toFinset = {v, w, 0} := by ext; simp
    have e1 : (v :: w :: List.replicate (m + 1) 0).erase v = w :: List.replicate (m + 1) 0 := List.erase_cons_head _ _
    have e2 : (v :: w :: List.replicate (m + 1) 0).erase w = v :: List.replicate (m + 1) 0 := by
      rw [List.erase_cons_tail (by simpa using hvw), List.erase_cons_head]
    have e3 : (v :: w :: List.replicate (m + 1) 0).erase 0 = v :: w :: List.replicate m 0 := by
      rw [List.erase_cons_tail (by simpa using hv), List.erase_cons_tail (by simpa using hw), List.replicate_succ, List.erase_cons_head]
    rw [this, sum_insert (by simp [hvw, hv]), sum_pair hw, e1, e2, e3, PS_one1 hw as (m + 1) hl, PS_one1 hv as (m + 1) hl, PS_two hv hw hvw as m (by omega), tau_even, tau_even, tau_even, if_neg hv, if_neg hw,
      if_pos rfl, List.length_cons]
    unfold oneForm
    by_cases ha : a = 0
    · subst ha
      rw [nzs_zero, if_pos rfl]
      rcases hz : nzs as with _ | ⟨b, _ | ⟨c, _ | ⟨d, r⟩⟩⟩
      · simp [twoForm]; ring
      · simp [twoForm]; ring
      · simp [twoForm]
      · simp [twoForm]
    · rw [nzs_pos ha, if_neg ha]
      rcases hz : nzs as with _ | ⟨b, _ | ⟨c, r⟩⟩
      · simp [twoForm]; ring
      · simp [twoForm]; ring
      · simp [twoForm]

end Verif.Drl
