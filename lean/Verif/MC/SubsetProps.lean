import Verif.MC.Subset
import Mathlib.Data.Set.Function
import Mathlib.Data.List.Nodup
import Mathlib.Data.Finset.Card
import Mathlib.Order.Interval.Finset.Nat
import Mathlib.Tactic.Linarith
import Mathlib.Tactic.Ring
import Mathlib.Tactic.NormNum

/-! # C52: equal-probability subsets -/

set_option linter.unusedSimpArgs false

namespace Verif.MC

variable {α : Type*}

/-- The pool that is left: the last item moves down to the place of the one picked. -/
def shrink (L : List α) (p : ℕ) (last : α) : List α := (L.set p last).take (L.length - 1)

theorem shrink_len (L : List α) (p : ℕ) (last : α) : (shrink L p last).length = L.length - 1 := by
  simp [shrink]

theorem shrink_get (L : List α) (p : ℕ) (hp : p < L.length) (k : ℕ) (hk : k < L.length - 1) :
    (shrink L p (L[L.length - 1]'(by omega)))[k]'(by rw [shrink_len]; exact hk) = L[if k = p then L.length - 1 else k]'(by split_ifs <;> omega) := by
  simp only [shrink, List.getElem_take, List.getElem_set]
  by_cases h : p = k
  · subst h; simp
  · simp only [if_neg h, if_neg (Ne.symm h)]

theorem shrink_mem (L : List α) (hL : L.Nodup) (p : ℕ) (hp : p < L.length) (y : α) :
    y ∈ shrink L p (L[L.length - 1]'(by omega)) ↔ y ∈ L ∧ y ≠ L[p] := by
  constructor
  · intro h
    obtain ⟨k, hk, rfl⟩ := List.getElem_of_mem h
    rw [shrink_len] at hk
    rw [shrink_get L p hp k hk]
    refine ⟨List.getElem_mem _, fun e => ?_⟩
    have := (List.Nodup.getElem_inj_iff hL).1 e
    split_ifs at this <;> omega
  · rintro ⟨h, hne⟩
    obtain ⟨k, hk, rfl⟩ := List.getElem_of_mem h
    have hkp : k ≠ p := by rintro rfl; exact hne rfl
    rw [List.mem_iff_getElem]
    by_cases hl : k = L.length - 1
    · refine ⟨p, by rw [shrink_len]; omega, ?_⟩
      rw [shrink_get L p hp p (by omega)]
      simp [hl]
    · refine ⟨k, by rw [shrink_len]; omega, ?_⟩
      rw [shrink_get L p hp k (by omega)]
      simp [hkp]

theorem shrink_nodup (L : List α) (hL : L.Nodup) (p : ℕ) (hp : p < L.length) : (shrink L p (L[L.length - 1]'(by omega))).Nodup := by
  rw [List.nodup_iff_injective_get]
  rintro ⟨a, ha⟩ ⟨b, hb⟩ h
  rw [shrink_len] at ha hb
  simp only [List.get_eq_getElem] at h
  rw [shrink_get L p hp a ha, shrink_get L p hp b hb] at h
  have := (List.Nodup.getElem_inj_iff hL).1 h
  have : a = b := by split_ifs at this <;> omega
  simp [this]

/-- The pick sequences for `ns` items out of `n`. -/
def Picks (ns n : ℕ) (p : List ℕ) : Prop := p.length = ns ∧ ∀ k (h : k < p.length), p[k] < n - k

theorem Picks.tail {ns n a : ℕ} {p : List ℕ} (h : Picks (ns + 1) n (a :: p)) : a < n ∧ Picks ns (n - 1) p := by
  obtain ⟨h1, h2⟩ := h
  refine ⟨h2 0 (by simp), by simpa using h1, fun k hk => ?_⟩
  have := h2 (k + 1) (by simpa using hk)
  rw [List.getElem_cons_succ] at this
  omega

theorem Picks.cons {ns n a : ℕ} {p : List ℕ} (ha : a < n) (h : Picks ns (n - 1) p) : Picks (ns + 1) n (a :: p) := by
  obtain ⟨h1, h2⟩ := h
  refine ⟨by simpa using h1, fun k hk => ?_⟩
  cases k with
  | zero => simpa using ha
  | succ k =>
    have := h2 k (by simpa using hk)
    rw [List.getElem_cons_succ]
    omega

/-- The sample taken from a pool by picks, on the pool that is left. -/
def taken : List ℕ → List α → List α
  | [], _ => []
  | p :: ps, L =>
    if h : p < L.length then L[p] :: taken ps (shrink L p (L[L.length - 1]'(by omega))) else []

theorem pickLoop_eq (ps : List ℕ) (n : ℕ) (pool : List α) (hn : n ≤ pool.length) (hp : Picks ps.length n ps) :
    ∃ w, pickLoop ps n pool = some (taken ps (pool.take n), w) := by
  induction ps generalizing n pool with
  | nil => exact ⟨pool, rfl⟩
  | cons p ps ih =>
    obtain ⟨hpn, htl⟩ := hp.tail
    have hlen : (pool.take n).length = n := by simp; omega
    obtain ⟨w, hw⟩ := ih (n - 1) (pool.set p (pool[n - 1]'(by omega))) (by simp; omega) htl
    refine ⟨w, ?_⟩
    unfold pickLoop taken
    rw [List.getElem?_eq_getElem (by omega), List.getElem?_eq_getElem (by omega)]
    dsimp only
    rw [hw]
    dsimp only
    rw [dif_pos (by omega)]
    simp only [hlen, List.getElem_take, shrink, Option.some.injEq, Prod.mk.injEq, and_true, List.cons.injEq, true_and]
    congr 1
    apply List.ext_getElem
    · simp; omega
    · intro k h1 h2
      simp at h1
      simp [List.getElem_set]

theorem taken_props (ps : List ℕ) (L : List α) (hL : L.Nodup) (hp : Picks ps.length L.length ps) :
    (taken ps L).length = ps.length ∧ (taken ps L).Nodup ∧ ∀ x ∈ taken ps L, x ∈ L := by
  induction ps generalizing L with
  | nil => simp [taken]
  | cons p ps ih =>
    obtain ⟨hpn, htl⟩ := hp.tail
    obtain ⟨h1, h2, h3⟩ := ih (shrink L p (L[L.length - 1]'(by omega))) (shrink_nodup L hL p hpn) (by rw [shrink_len]; exact htl)
    unfold taken
    rw [dif_pos hpn]
    refine ⟨by simp [h1], ?_, ?_⟩
    · rw [List.nodup_cons]
      exact ⟨fun h => ((shrink_mem L hL p hpn _).1 (h3 _ h)).2 rfl, h2⟩
    · intro x hx
      rcases List.mem_cons.1 hx with rfl | hx
      · exact List.getElem_mem _
      · exact ((shrink_mem L hL p hpn _).1 (h3 _ hx)).1

theorem taken_inj (ps qs : List ℕ) (L : List α) (hL : L.Nodup) (hp : Picks ps.length L.length ps) (hq : Picks ps.length L.length qs)
    (h : taken ps L = taken qs L) : ps = qs := by
  induction ps generalizing qs L with
  | nil => have := hq.1; simp at this; exact this.symm
  | cons p ps ih =>
    cases qs with
    | nil => have := hq.1; simp at this
    | cons q qs =>
      obtain ⟨hpn, hpt⟩ := hp.tail
      obtain ⟨hqn, hqt⟩ := hq.tail
      unfold taken at h
      rw [dif_pos hpn, dif_pos hqn, List.cons.injEq] at h
      have hpq := (List.Nodup.getElem_inj_iff hL).1 h.1
      subst hpq
      rw [ih qs _ (shrink_nodup L hL p hpn) (by rw [shrink_len]; exact hpt) (by rw [shrink_len]; exact hqt) h.2]

theorem taken_surj (l : List α) (L : List α) (hL : L.Nodup) (hl : l.Nodup) (h : ∀ x ∈ l, x ∈ L) :
    ∃ ps, Picks l.length L.length ps ∧ taken ps L = l := by
  induction l generalizing L with
  | nil => exact ⟨[], ⟨rfl, fun k hk => absurd hk (by simp)⟩, rfl⟩
  | cons x l ih =>
    obtain ⟨p, hp, hx⟩ := List.getElem_of_mem (h x (List.mem_cons_self ..))
    rw [List.nodup_cons] at hl
    obtain ⟨ps, h1, h2⟩ := ih (shrink L p (L[L.length - 1]'(by omega))) (shrink_nodup L hL p hp) hl.2 (by
      intro y hy
      rw [shrink_mem L hL p hp]
      refine ⟨h y (List.mem_cons_of_mem _ hy), ?_⟩
      rintro rfl
      rw [hx] at hy
      exact hl.1 hy)
    rw [shrink_len] at h1
    refine ⟨p :: ps, Picks.cons hp h1, ?_⟩
    unfold taken
    rw [dif_pos hp, h2, hx]

theorem shrink_map {β : Type*} (f : α → β) (L : List α) (p : ℕ) (last : α) : shrink (L.map f) p (f last) = (shrink L p last).map f := by
  simp [shrink]

theorem taken_map {β : Type*} (f : α → β) (ps : List ℕ) (L : List α) : taken ps (L.map f) = (taken ps L).map f := by
  induction ps generalizing L with
  | nil => rfl
  | cons p ps ih =>
    unfold taken
    by_cases h : p < L.length
    · rw [dif_pos (by simpa using h), dif_pos h, List.map_cons, ← ih, ← shrink_map]
      simp
    · rw [dif_neg (by simpa using h), dif_neg h]
      rfl

theorem pickOf_lt (rmax n r : ℕ) (hr : r ≤ rmax) (hn : 0 < n) : pickOf rmax n r < n := by
  unfold pickOf
  rw [Nat.div_lt_iff_lt_mul (by omega)]
  nlinarith

theorem picksOf_spec (rmax ns n : ℕ) (rs : List ℕ) (hrs : ∀ r ∈ rs, r ≤ rmax) (hns : ns ≤ n) (hl : ns ≤ rs.length) :
    ∃ ps, picksOf rmax ns n rs = some (ps, rs.drop ns) ∧ Picks ns n ps := by
  induction ns generalizing n rs with
  | zero => exact ⟨[], rfl, rfl, fun k hk => absurd hk (by simp)⟩
  | succ ns ih =>
    cases rs with
    | nil => simp at hl
    | cons r rs =>
      obtain ⟨ps, h1, h2⟩ := ih (n - 1) rs (fun x hx => hrs x (List.mem_cons_of_mem _ hx)) (by omega) (by simpa using hl)
      refine ⟨pickOf rmax n r :: ps, ?_, Picks.cons (pickOf_lt _ _ _ (hrs r (List.mem_cons_self ..)) (by omega)) h2⟩
      unfold picksOf
      rw [h1]
      rfl

/-! ## C52 -/

/-- **C52.**  `equalprob` on a pool of `n` items, for a sample size from 1 to `n`, whatever the random numbers: it uses up as many numbers as it draws items, gives the
items at distinct positions of the pool, and leaves the caller's pool as it was. -/
theorem C52_distinct (rmax : ℕ) (ns : ℤ) (pool : List α) (rs : List ℕ) (hrs : ∀ r ∈ rs, r ≤ rmax) (h0 : 0 < ns) (hns : ns ≤ pool.length)
    (hl : ns.toNat ≤ rs.length) :
    ∃ positions : List (Fin pool.length), positions.length = ns ∧ positions.Nodup ∧
      equalprob rmax ns pool rs = some (pool, .inr (positions.map pool.get, rs.drop ns.toNat)) := by
  obtain ⟨ps, h1, h2⟩ := picksOf_spec rmax ns.toNat pool.length rs hrs (by omega) hl
  have h2' : Picks ps.length pool.length ps := ⟨rfl, h2.2⟩
  obtain ⟨w, hw⟩ := pickLoop_eq ps pool.length pool (le_refl _) h2'
  have hr : (List.finRange pool.length).length = pool.length := List.length_finRange
  obtain ⟨t1, t2, _⟩ := taken_props ps (List.finRange pool.length) (List.nodup_finRange _) (by rw [hr]; exact h2')
  refine ⟨taken ps (List.finRange pool.length), by rw [t1, h2.1]; omega, t2, ?_⟩
  unfold equalprob
  rw [if_neg (by omega), if_neg (by omega), h1]
  dsimp only
  rw [hw]
  dsimp only
  rw [List.take_length, ← taken_map]
  congr 3
  simp

/-- **C52.**  For the positions of a pool of `n` items, the map from pick sequences - `n` choices, then `n-1`, ... - to ordered selections of `ns` distinct positions is
one to one and onto. -/
theorem C52_bijection (ns n : ℕ) :
    Set.BijOn (fun picks => ((pickLoop picks n (List.range n)).map Prod.fst).getD [])
      {picks | picks.length = ns ∧ ∀ k (h : k < picks.length), picks[k] < n - k}
      {selection | selection.length = ns ∧ selection.Nodup ∧ ∀ x ∈ selection, x < n} := by
  have hlen : (List.range n).length = n := List.length_range
  have key : ∀ picks : List ℕ, (picks.length = ns ∧ ∀ k (h : k < picks.length), picks[k] < n - k) →
      ((pickLoop picks n (List.range n)).map Prod.fst).getD [] = taken picks (List.range n) := by
    intro picks h
    obtain ⟨w, hw⟩ := pickLoop_eq picks n (List.range n) (by simp) ⟨rfl, h.2⟩
    rw [hw]
    simp only [Option.map_some, Option.getD_some]
    rw [List.take_of_length_le (by simp)]
  refine ⟨fun picks h => ?_, fun p hp q hq h => ?_, fun l hl => ?_⟩
  · dsimp only
    rw [key picks h]
    obtain ⟨t1, t2, t3⟩ := taken_props picks (List.range n) List.nodup_range (by rw [hlen]; exact ⟨rfl, h.2⟩)
    exact ⟨by rw [t1, h.1], t2, fun x hx => by simpa using t3 x hx⟩
  · dsimp only at h
    rw [key p hp, key q hq] at h
    exact taken_inj p q (List.range n) List.nodup_range (by rw [hlen]; exact ⟨rfl, hp.2⟩) (by rw [hlen]; exact ⟨hq.1.trans hp.1.symm, hq.2⟩) h
  · obtain ⟨ps, h1, h2⟩ := taken_surj l (List.range n) List.nodup_range hl.2.1 (fun x hx => by simpa using hl.2.2 x hx)
    rw [hlen] at h1
    refine ⟨ps, ⟨h1.1.trans hl.1, h1.2⟩, ?_⟩
    dsimp only
    rw [key ps ⟨h1.1.trans hl.1, h1.2⟩, h2]

/-- **C52.**  The picks are uniform but for one value of the generator: of the `rmax + 1` values, each pick out of `n` comes from `(rmax + 1) / n` or one more. -/
theorem C52_picks (rmax n p : ℕ) (hp : p < n) :
    (rmax + 1) / n ≤ ((Finset.range (rmax + 1)).filter fun r => pickOf rmax n r = p).card ∧
    ((Finset.range (rmax + 1)).filter fun r => pickOf rmax n r = p).card ≤ (rmax + 1) / n + 1 := by
  have hn : 0 < n := by omega
  generalize hR : rmax + 1 = R
  have hR0 : 0 < R := by omega
  have hset : ((Finset.range R).filter fun r => pickOf rmax n r = p) = Finset.Ico ((p * R + n - 1) / n) (((p + 1) * R + n - 1) / n) := by
    ext r
    simp only [Finset.mem_filter, Finset.mem_range, Finset.mem_Ico, pickOf, hR]
    have e1 : n * r / R = p ↔ p * R ≤ n * r ∧ n * r < (p + 1) * R := by
      rw [Nat.div_eq_iff hR0]
      constructor <;> rintro ⟨h1, h2⟩ <;> constructor <;> (try nlinarith) <;> (try (rw [Nat.add_mul, Nat.one_mul] at *; omega))
    have e2 : ∀ m, (m + n - 1) / n ≤ r ↔ m ≤ n * r := by
      intro m
      rw [Nat.div_le_iff_le_mul hn]
      rw [Nat.mul_comm r n]
      omega
    have e3 : ∀ m, r < (m + n - 1) / n ↔ n * r < m := fun m => by rw [← not_le, e2, not_le]
    rw [e1, e2, e3]
    constructor
    · rintro ⟨_, h1, h2⟩; exact ⟨h1, h2⟩
    · rintro ⟨h1, h2⟩
      refine ⟨?_, h1, h2⟩
      by_contra h
      push Not at h
      have : (p + 1) * R ≤ n * r := Nat.mul_le_mul (by omega) h
      omega
  rw [hset, Nat.card_Ico]
  have h1 := Nat.div_add_mod (p * R + n - 1) n
  have h2 := Nat.mod_lt (p * R + n - 1) hn
  have h3 := Nat.div_add_mod ((p + 1) * R + n - 1) n
  have h4 := Nat.mod_lt ((p + 1) * R + n - 1) hn
  have h5 := Nat.div_add_mod R n
  have h6 := Nat.mod_lt R hn
  generalize (p * R + n - 1) / n = A at *
  generalize (p * R + n - 1) % n = a at *
  generalize ((p + 1) * R + n - 1) / n = B at *
  generalize ((p + 1) * R + n - 1) % n = b at *
  generalize R / n = C at *
  generalize R % n = c at *
  have hp1 : (p + 1) * R = p * R + R := by ring
  rw [hp1] at h3
  generalize p * R = M at *
  -- n B + b = n A + a + n C + c
  have hsum : n * B + b = n * A + a + (n * C + c) := by omega
  constructor
  · by_contra hlt
    have hlt : B + 1 ≤ A + C := by omega
    have : n * (B + 1) ≤ n * (A + C) := Nat.mul_le_mul_left _ hlt
    rw [Nat.mul_add, Nat.mul_add, Nat.mul_one] at this
    omega
  · by_contra hlt
    have hlt : A + C + 2 ≤ B := by omega
    have : n * (A + C + 2) ≤ n * B := Nat.mul_le_mul_left _ hlt
    rw [Nat.mul_add, Nat.mul_add] at this
    omega

/-- **C52.**  Other sample sizes raise `ValueError`; the pool stays as it was. -/
theorem C52_sizes (rmax : ℕ) (ns : ℤ) (pool : List α) (rs : List ℕ) (h : ns ≤ 0 ∨ ns > pool.length) :
    equalprob rmax ns pool rs = some (pool, .inl .value) := by
  unfold equalprob
  by_cases h1 : ns ≤ 0
  · rw [if_pos h1]
  · rw [if_neg h1, if_pos (by omega)]

/-- **C52.**  `equalprobi(ns, np, pool)` gives distinct numbers below `np`. -/
theorem C52_indices (rmax : ℕ) (ns np : ℤ) (pool rs : List ℕ) (hrs : ∀ r ∈ rs, r ≤ rmax) (h0 : 0 < ns) (hns : ns ≤ np) (hnp : np ≤ pool.length)
    (hl : ns.toNat ≤ rs.length) :
    ∃ space out, equalprobi rmax ns np pool rs = some (space, .inr (out, rs.drop ns.toNat)) ∧ (out.length : ℤ) = ns ∧ out.Nodup ∧ ∀ x ∈ out, (x : ℤ) < np := by
  obtain ⟨ps, h1, h2⟩ := picksOf_spec rmax ns.toNat np.toNat rs hrs (by omega) hl
  have h2' : Picks ps.length np.toNat ps := ⟨rfl, h2.2⟩
  obtain ⟨w, hw⟩ := pickLoop_eq ps np.toNat (List.range np.toNat ++ pool.drop np.toNat) (by simp) h2'
  have ht : (List.range np.toNat ++ pool.drop np.toNat).take np.toNat = List.range np.toNat := by
    rw [List.take_append_of_le_length (by simp), List.take_of_length_le (by simp)]
  rw [ht] at hw
  obtain ⟨t1, t2, t3⟩ := taken_props ps (List.range np.toNat) List.nodup_range (by rw [List.length_range]; exact h2')
  refine ⟨w, taken ps (List.range np.toNat), ?_, by rw [t1, h2.1]; omega, t2, fun x hx => ?_⟩
  · unfold equalprobi
    rw [if_neg (by omega), if_neg (by omega), if_neg (by omega), h1]
    dsimp only
    rw [hw]
  · have := t3 x hx
    simp at this
    omega

/-- `equalprobi` uses an integer array it is given as work space: the caller's array does not stay as it was. -/
theorem C52_workspace : ∃ pool space out, equalprobi 99 2 4 pool [50, 10] = some (space, .inr (out, [])) ∧ space ≠ pool :=
  ⟨[7, 7, 7, 7, 7], _, _, rfl, by decide⟩

example : equalprob 99 3 ["a", "b", "b", "c"] [50, 99, 0, 5] = some (["a", "b", "b", "c"], .inr (["b", "c", "a"], [5])) := by decide

end Verif.MC
