import Verif.Integrate.SymRule
import Verif.Integrate.SymTensor

/-!
# Symmetric rules: the loops of `WHT` and the signs in `FLSM`
-/

set_option linter.unusedSectionVars false

namespace Verif.SymRl

open Finset

variable {K : Type*} [Field K] [LinearOrder K]

/-! ## `WHT` -/

/-- Components at the start. -/
def zc (ms : List ℕ) : List (Comp K) := ms.map fun m => ⟨m, 0, 0⟩

theorem whtPass_zero (P : ℕ → ℕ → K) (prev : K) (c : Comp K) (cs : List (Comp K)) :
    whtPass P prev 0 (c :: cs) = match whtPass P (c.v + P c.m (c.k + c.m) * prev) c.k cs with
      | .inl w => .inl w
      | .inr (r, cs) => .inr (r, ⟨c.m, 0, 0⟩ :: cs) := by
  rw [whtPass]
  simp only [Nat.zero_add]
  rw [if_neg (by simp)]
  cases whtPass P (c.v + P c.m (c.k + c.m) * prev) c.k cs <;> rfl

theorem whtPass_succ (P : ℕ → ℕ → K) (prev : K) (r : ℕ) (c : Comp K) (cs : List (Comp K)) :
    whtPass P prev (r + 1) (c :: cs) = .inr (r, ⟨c.m, c.k + 1, c.v + P c.m (c.k + c.m) * prev⟩ :: cs) := by
  rw [whtPass]
  simp

theorem whtS_singleton (P : ℕ → ℕ → K) (m r : ℕ) : whtS P [m] r = P m (r + m) := by
  simp only [whtS]
  rw [sum_eq_single (r, 0)]
  · simp
  · rintro ⟨k, r'⟩ h hne
    simp only [mem_antidiagonal] at h
    rw [if_neg, mul_zero]
    rintro h0
    simp only at h0
    exact hne (by rw [Prod.mk.injEq]; omega)
  · simp

/-- The loop runs through a prefix of the components, and then goes on with what follows. -/
theorem whtLoop_prefix (P : ℕ → ℕ → K) (m1 : ℕ) (pre : List ℕ) : ∀ r, ∃ n, ∀ fuel rest,
    whtLoop P m1 (n + fuel + 1) r (zc pre ++ rest) = match whtPass P (whtS P (m1 :: pre).reverse r) r rest with
      | .inl w => some w
      | .inr (r', rest') => whtLoop P m1 fuel r' (zc pre ++ rest') := by
  induction pre using List.reverseRecOn with
  | nil =>
    intro r
    refine ⟨0, fun fuel rest => ?_⟩
    rw [Nat.zero_add, whtLoop, List.reverse_singleton, whtS_singleton]
    rfl
  | append_singleton pre c ih =>
    -- the rounds for one more component
    have inner : ∀ r k v, ∃ n, ∀ fuel rest,
        whtLoop P m1 (n + fuel + 1) r (zc pre ++ ⟨c, k, v⟩ :: rest) =
          match whtPass P (v + ∑ j ∈ range (r + 1), P c (k + j + c) * whtS P (m1 :: pre).reverse (r - j)) (r + k) rest with
          | .inl w => some w
          | .inr (r', rest') => whtLoop P m1 fuel r' (zc pre ++ ⟨c, 0, 0⟩ :: rest') := by
      intro r
      induction r with
      | zero =>
        intro k v
        obtain ⟨n, hn⟩ := ih 0
        refine ⟨n, fun fuel rest => ?_⟩
        rw [hn, whtPass_zero]
        simp only [Nat.zero_add, sum_range_one, Nat.add_zero, Nat.sub_zero]
        cases whtPass P (v + P c (k + c) * whtS P (m1 :: pre).reverse 0) k rest <;> rfl
      | succ r ihr =>
        intro k v
        obtain ⟨n1, h1⟩ := ih (r + 1)
        obtain ⟨n2, h2⟩ := ihr (k + 1) (v + P c (k + c) * whtS P (m1 :: pre).reverse (r + 1))
        refine ⟨n1 + n2 + 1, fun fuel rest => ?_⟩
        rw [show n1 + n2 + 1 + fuel + 1 = n1 + (n2 + fuel + 1) + 1 by omega, h1, whtPass_succ]
        dsimp only
        rw [h2, show r + (k + 1) = r + 1 + k by omega, sum_range_succ' _ (r + 1)]
        have : v + P c (k + c) * whtS P (m1 :: pre).reverse (r + 1) + ∑ j ∈ range (r + 1), P c (k + 1 + j + c) * whtS P (m1 :: pre).reverse (r - j) =
            v + (∑ j ∈ range (r + 1), P c (k + (j + 1) + c) * whtS P (m1 :: pre).reverse (r + 1 - (j + 1)) + P c (k + 0 + c) * whtS P (m1 :: pre).reverse (r + 1 - 0)) := by
          rw [Nat.sub_zero, Nat.add_zero, add_assoc, add_comm (P c (k + c) * _)]
          congr 2
          refine sum_congr rfl fun j _ => ?_
          rw [show r + 1 - (j + 1) = r - j by omega, show k + 1 + j + c = k + (j + 1) + c by omega]
        rw [this]
    intro r
    obtain ⟨n, hn⟩ := inner r 0 0
    refine ⟨n, fun fuel rest => ?_⟩
    have h1 : (zc (pre ++ [c]) : List (Comp K)) ++ rest = zc pre ++ ⟨c, 0, 0⟩ :: rest := by simp [zc]
    have h2 : ∀ rest' : List (Comp K), zc (pre ++ [c]) ++ rest' = zc pre ++ ⟨c, 0, 0⟩ :: rest' := by simp [zc]
    have h3 : whtS P (m1 :: (pre ++ [c])).reverse r = 0 + ∑ j ∈ range (r + 1), P c (0 + j + c) * whtS P (m1 :: pre).reverse (r - j) := by
      rw [show (m1 :: (pre ++ [c])).reverse = c :: (m1 :: pre).reverse by simp, whtS, Nat.sum_antidiagonal_eq_sum_range_succ_mk, zero_add]
      simp only [Nat.zero_add]
    simp only [h2]
    rw [hn, h3, Nat.add_zero]
    rfl

/-- `WHT` computes the weight. -/
theorem wht_spec (P : ℕ → ℕ → K) {M : List ℕ} (hM : M ≠ []) (r : ℕ) : ∃ N, ∀ fuel ≥ N, wht fuel P M r = some (whtS P M r) := by
  obtain ⟨m1, ms, rfl⟩ := List.exists_cons_of_ne_nil hM
  obtain ⟨n, hn⟩ := whtLoop_prefix P m1 ms r
  refine ⟨n + 1, fun fuel hf => ?_⟩
  have := hn (fuel - n - 1) []
  rw [show n + (fuel - n - 1) + 1 = fuel by omega, List.append_nil, whtPass] at this
  show whtLoop P m1 fuel r (zc ms) = _
  rw [this]
  dsimp only
  rw [whtS_perm P (List.reverse_perm (m1 :: ms))]

/-! ## The signs -/

variable [IsStrictOrderedRing K]

/-- The sum over all signs. -/
def Sg : List (Coord K) → (List K → K) → K
  | [], F => F []
  | q :: qs, F => if q.g = 0 then Sg qs (fun xs => F (q.c :: xs)) else Sg qs (fun xs => F ((q.c + q.g * q.h) :: xs)) + Sg qs (fun xs => F ((q.c - q.g * q.h) :: xs))

/-- How many terms the sum has. -/
def cnt2 : List (Coord K) → ℕ
  | [] => 1
  | q :: qs => if q.g = 0 then cnt2 qs else 2 * cnt2 qs

theorem Sg_snoc (pre : List (Coord K)) (q : Coord K) (F : List K → K) :
    Sg (pre ++ [q]) F = if q.g = 0 then Sg pre (fun xs => F (xs ++ [q.c])) else Sg pre (fun xs => F (xs ++ [q.c + q.g * q.h])) + Sg pre (fun xs => F (xs ++ [q.c - q.g * q.h])) := by
  induction pre generalizing F with
  | nil => simp [Sg]
  | cons p pre ih =>
    simp only [List.cons_append, Sg, ih]
    split_ifs <;> first | rfl | ring | abel

theorem cnt2_snoc (pre : List (Coord K)) (q : Coord K) : cnt2 (pre ++ [q]) = if q.g = 0 then cnt2 pre else 2 * cnt2 pre := by
  induction pre with
  | nil => simp [cnt2]
  | cons p pre ih =>
    simp only [List.cons_append, cnt2, ih]
    split_ifs <;> ring

/-- A coordinate with the positive sign. -/
def Up (q : Coord K) : Prop := 0 ≤ q.g ∧ (q.g ≠ 0 → 0 < q.h) ∧ q.x = q.c + q.g * q.h

/-- The loop runs through all signs of a prefix, and then goes on with what follows. -/
theorem signs_prefix (f : (ℕ → K) → K) (pre : List (Coord K)) (hpre : ∀ q ∈ pre, Up q) : ∃ n, ∀ fuel rest sum cls,
    signs f (n + fuel + 1) (pre ++ rest) sum cls = match flip rest with
      | (rest', true) => signs f fuel (pre ++ rest') (sum + Sg pre (fun xs => f (vec (xs ++ rest.map (·.x))))) (cls + cnt2 pre)
      | (rest', false) => some (sum + Sg pre (fun xs => f (vec (xs ++ rest.map (·.x)))), cls + cnt2 pre, pre.map (·.h) ++ rest'.map (·.h)) := by
  induction pre using List.reverseRecOn with
  | nil =>
    refine ⟨0, fun fuel rest sum cls => ?_⟩
    rw [Nat.zero_add, signs]
    simp only [List.nil_append, Sg, cnt2, List.map_nil]
    rcases flip rest with ⟨rest', b⟩
    cases b <;> rfl
  | append_singleton pre q ih =>
    obtain ⟨n, hn⟩ := ih fun p hp => hpre p (by simp [hp])
    obtain ⟨hg, hh, hx⟩ := hpre q (by simp)
    by_cases h0 : q.g = 0
    · refine ⟨n, fun fuel rest sum cls => ?_⟩
      rw [List.append_assoc, List.singleton_append, hn, flip, Sg_snoc, if_pos h0, cnt2_snoc, if_pos h0]
      have hq : (⟨q.c, q.g, q.h, q.c⟩ : Coord K) = q := by
        cases q; simp only at h0 hx; simp [h0, hx]
      simp only [h0, ne_eq, not_true_eq_false, if_false, zero_mul, add_zero, lt_irrefl]
      rw [h0] at hq
      rw [hq]
      have hxs : ∀ xs : List K, xs ++ (q :: rest).map (·.x) = xs ++ [q.c] ++ rest.map (·.x) := by
        intro xs; simp [hx, h0]
      simp only [hxs]
      rcases flip rest with ⟨rest', b⟩
      cases b <;> simp
    · have hgp : 0 < q.g := lt_of_le_of_ne hg (Ne.symm h0)
      have hgh : 0 < q.g * q.h := mul_pos hgp (hh h0)
      refine ⟨n + n + 1, fun fuel rest sum cls => ?_⟩
      rw [List.append_assoc, List.singleton_append, show n + n + 1 + fuel + 1 = n + (n + fuel + 1) + 1 by omega, hn]
      have hf1 : flip (q :: rest) = (⟨q.c, q.g, -q.h, q.c - q.g * q.h⟩ :: rest, true) := by
        rw [flip]
        simp only [ne_eq, h0, not_false_eq_true, if_true]
        rw [if_pos (by nlinarith)]
        simp [sub_eq_add_neg]
      have hf2 : flip ((⟨q.c, q.g, -q.h, q.c - q.g * q.h⟩ : Coord K) :: rest) = (q :: (flip rest).1, (flip rest).2) := by
        rw [flip]
        simp only [ne_eq, h0, not_false_eq_true, if_true, neg_neg]
        rw [if_neg (by nlinarith)]
        rw [← hx]
      rw [hf1]
      dsimp only
      rw [hn, hf2, Sg_snoc, if_neg h0, cnt2_snoc, if_neg h0]
      have hxs : ∀ xs : List K, xs ++ (q :: rest).map (·.x) = xs ++ [q.c + q.g * q.h] ++ rest.map (·.x) := by
        intro xs; simp [hx]
      have hxs' : ∀ xs : List K, xs ++ ((⟨q.c, q.g, -q.h, q.c - q.g * q.h⟩ : Coord K) :: rest).map (·.x) = xs ++ [q.c - q.g * q.h] ++ rest.map (·.x) := by
        intro xs; simp
      simp only [hxs, hxs']
      rcases flip rest with ⟨rest', b⟩
      cases b <;> simp [add_assoc, two_mul]

/-- The loop over the signs computes the sum over all signs, and leaves the half widths as they were. -/
theorem signs_spec (f : (ℕ → K) → K) (qs : List (Coord K)) (h : ∀ q ∈ qs, Up q) : ∃ N, ∀ fuel ≥ N, ∀ sum cls,
    signs f fuel qs sum cls = some (sum + Sg qs (fun xs => f (vec xs)), cls + cnt2 qs, qs.map (·.h)) := by
  obtain ⟨n, hn⟩ := signs_prefix f qs h
  refine ⟨n + 1, fun fuel hf sum cls => ?_⟩
  have := hn (fuel - n - 1) [] sum cls
  rw [show n + (fuel - n - 1) + 1 = fuel by omega, List.append_nil] at this
  rw [this]
  simp [flip]

/-- A coordinate without width does not move. -/
def still (q : Coord K) : Coord K := if q.h = 0 then { q with g := 0 } else q

theorem flip_still : ∀ qs : List (Coord K), flip (qs.map still) = ((flip qs).1.map still, (flip qs).2)
  | [] => rfl
  | q :: qs => by
    rw [List.map_cons]
    by_cases h : q.h = 0
    · have e : still q = ⟨q.c, 0, 0, q.x⟩ := by simp [still, h]
      rw [e, flip, flip, flip_still qs]
      simp [h, still]
    · have e : still q = q := by simp [still, h]
      rw [e, flip, flip, flip_still qs]
      simp only
      split_ifs <;> simp [still, h]

theorem signs_still (f : (ℕ → K) → K) : ∀ (fuel : ℕ) (qs : List (Coord K)) (sum : K) (cls : ℕ), signs f fuel (qs.map still) sum cls = signs f fuel qs sum cls
  | 0, _, _, _ => rfl
  | fuel + 1, qs, sum, cls => by
    have hx : ∀ l : List (Coord K), (l.map still).map (·.x) = l.map (·.x) := fun l => by
      rw [List.map_map]; refine List.map_congr_left fun q _ => ?_; simp only [Function.comp, still]; split_ifs <;> rfl
    have hh : ∀ l : List (Coord K), (l.map still).map (·.h) = l.map (·.h) := fun l => by
      rw [List.map_map]; refine List.map_congr_left fun q _ => ?_; simp only [Function.comp, still]; split_ifs <;> rfl
    rw [signs, signs, flip_still, hx]
    rcases flip qs with ⟨qs', b⟩
    cases b
    · simp only [hh]
    · simp only [signs_still f fuel]

/-! ## The weights of the sums -/

/-- How many of the numbers are not zero. -/
def nz (M : List ℕ) : ℕ := M.countP (· ≠ 0)

theorem weight_eq (M : List ℕ) (hs : List K) (w : K) (h : M.length = hs.length) : weight M hs w = w * (hs.prod * (1 / 2) ^ nz M) := by
  induction M generalizing hs w with
  | nil =>
    cases hs with
    | nil => simp [weight, nz]
    | cons => simp at h
  | cons m M ih =>
    cases hs with
    | nil => simp at h
    | cons a hs =>
      rw [weight, ih hs _ (by simpa using h)]
      unfold nz
      rw [List.countP_cons]
      by_cases hm : m = 0
      · simp [hm]; ring
      · simp [hm, pow_succ]; ring

theorem T_eq_Sg (g : ℕ → K) : ∀ (cs hs : List K) (ms : List ℕ) (F : List K → K), (∀ m ∈ ms, g m = 0 ↔ m = 0) → cs.length = ms.length → hs.length = ms.length →
    T g cs hs ms F = hs.prod * (1 / 2) ^ nz ms * Sg (coords g cs hs ms) F
  | [], [], [], F, _, _, _ => by simp [T, nz, coords, Sg]
  | c :: cs, h :: hs, m :: ms, F, hg, h1, h2 => by
    simp only [List.length_cons, Nat.add_right_cancel_iff] at h1 h2
    simp only [T, coords, Sg, T_eq_Sg g cs hs ms _ (fun m hm => hg m (by simp [hm])) h1 h2]
    unfold nz
    rw [List.countP_cons]
    by_cases hm : m = 0
    · have := (hg m (by simp)).2 hm
      simp only [this, if_true, zero_mul, add_zero, sub_zero]
      simp [hm]
      ring
    · have := mt (hg m (by simp)).1 hm
      simp only [this, if_false]
      simp [hm, pow_succ]
      ring
  | [], _ :: _, [], F, _, _, h2 => by simp at h2
  | [], _, _ :: _, F, _, h1, _ => by simp at h1
  | _ :: _, _, [], F, _, h1, _ => by simp at h1
  | _ :: _, [], _ :: _, F, _, _, h2 => by simp at h2

theorem coords_up (g : ℕ → K) : ∀ (cs hs : List K) (ms : List ℕ), (∀ m ∈ ms, 0 ≤ g m) → (∀ h ∈ hs, 0 ≤ h) → ∀ q ∈ coords g cs hs ms, Up (still q)
  | c :: cs, h :: hs, m :: ms, hg, hp, q, hq => by
    simp only [coords, List.mem_cons] at hq
    rcases hq with rfl | hq
    · unfold still
      split_ifs with h0
      · simp only at h0
        exact ⟨le_rfl, fun h => absurd rfl h, by simp [h0]⟩
      · exact ⟨hg m (by simp), fun _ => lt_of_le_of_ne (hp h (by simp)) (Ne.symm h0), rfl⟩
    · exact coords_up g cs hs ms (fun m hm => hg m (by simp [hm])) (fun h hh => hp h (by simp [hh])) q hq
  | [], _, _, _, _, q, hq => by simp [coords] at hq
  | _ :: _, [], _, _, _, q, hq => by simp [coords] at hq
  | _ :: _, _ :: _, [], _, _, q, hq => by simp [coords] at hq

theorem coords_h (g : ℕ → K) : ∀ (cs hs : List K) (ms : List ℕ), cs.length = ms.length → hs.length = ms.length → (coords g cs hs ms).map (·.h) = hs
  | [], [], [], _, _ => by simp [coords]
  | c :: cs, h :: hs, m :: ms, h1, h2 => by
    simp only [coords, List.map_cons]
    rw [coords_h g cs hs ms (by simpa using h1) (by simpa using h2)]
  | [], _ :: _, [], _, h2 => by simp at h2
  | [], _, _ :: _, h1, _ => by simp at h1
  | _ :: _, _, [], h1, _ => by simp at h1
  | _ :: _, [], _ :: _, _, h2 => by simp at h2

end Verif.SymRl
