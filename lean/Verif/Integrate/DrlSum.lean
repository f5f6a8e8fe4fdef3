import Verif.Integrate.DrlPerm
import Mathlib.Algebra.BigOperators.Group.List.Basic
import Mathlib.Algebra.BigOperators.Group.Finset.Basic
import Mathlib.Algebra.Order.AbsoluteValue.Basic
import Mathlib.Data.Finset.Lattice.Fold

/-!
# The basic rules of DCUHRE: the points of `DFSHRE`
-/

set_option linter.unusedSectionVars false

namespace Verif.Drl

open Finset
open Verif.Adapt (put Box)

variable {K : Type*} [Field K] [LinearOrder K]

/-! ## Calls -/

/-- The integrand is called at the points of a list. -/
def calls (f : List K → ℕ → K) (xs : List (List K)) (a : Acc K) : Acc K := xs.foldl (fun a x => call f x a) a

theorem calls_append (f : List K → ℕ → K) (xs ys : List (List K)) (a : Acc K) : calls f (xs ++ ys) a = calls f ys (calls f xs a) := by
  simp [calls]

theorem calls_pts (f : List K → ℕ → K) (xs : List (List K)) (a : Acc K) : (calls f xs a).pts = a.pts ++ xs := by
  induction xs generalizing a with
  | nil => simp [calls]
  | cons x xs ih =>
    rw [show calls f (x :: xs) a = calls f xs (call f x a) from rfl, ih]
    simp [call]

theorem calls_sum (f : List K → ℕ → K) (xs : List (List K)) (a : Acc K) (j : ℕ) : (calls f xs a).sum j = a.sum j + (xs.map fun x => f x j).sum := by
  induction xs generalizing a with
  | nil => simp [calls]
  | cons x xs ih =>
    rw [show calls f (x :: xs) a = calls f xs (call f x a) from rfl, ih]
    simp [call, add_assoc]

/-! ## The signs -/

/-- All choices of signs, in the order of the loop. -/
def sgn : List K → List (List K)
  | [] => [[]]
  | g :: gs => (sgn gs).flatMap fun y => if g = 0 then [g :: y] else [g :: y, -g :: y]

/-- The point with the coordinates `y`, in units of the half widths. -/
def pt (c h y : List K) : List K := (coords c h y).map (·.x)

/-- The points for all choices of signs. -/
def sgc : List (Coord K) → List (List K)
  | [] => [[]]
  | q :: qs => (sgc qs).flatMap fun y => if q.g = 0 then [(q.c + q.g * q.h) :: y] else [(q.c + q.g * q.h) :: y, (q.c + -q.g * q.h) :: y]

theorem sgc_snoc (pre : List (Coord K)) (q : Coord K) :
    sgc (pre ++ [q]) = (sgc pre).map (· ++ [q.c + q.g * q.h]) ++ if q.g = 0 then [] else (sgc pre).map (· ++ [q.c + -q.g * q.h]) := by
  induction pre with
  | nil => by_cases h : q.g = 0 <;> simp [sgc, h]
  | cons p pre ih =>
    rw [List.cons_append, sgc, ih, sgc, List.flatMap_append, List.flatMap_map, List.map_flatMap]
    congr 1
    · congr 1
      funext y
      split_ifs <;> simp
    · by_cases h : q.g = 0
      · simp [h]
      · rw [if_neg h, if_neg h, List.flatMap_map, List.map_flatMap]
        congr 1
        funext y
        split_ifs <;> simp

theorem sgc_coords : ∀ (c h g : List K), c.length = g.length → h.length = g.length → sgc (coords c h g) = (sgn g).map (pt c h)
  | [], [], [], _, _ => by simp [coords, sgc, sgn, pt]
  | c :: cs, h :: hs, g :: gs, h1, h2 => by
    simp only [List.length_cons, Nat.add_right_cancel_iff] at h1 h2
    rw [coords, sgc, sgc_coords cs hs gs h1 h2, sgn, List.flatMap_map, List.map_flatMap]
    congr 1
    funext y
    split_ifs <;> simp [pt, coords]
  | [], _ :: _, [], _, h2 => by simp at h2
  | [], _, _ :: _, h1, _ => by simp at h1
  | _ :: _, _, [], h1, _ => by simp at h1
  | _ :: _, [], _ :: _, _, h2 => by simp at h2

variable [IsStrictOrderedRing K]

/-- A coordinate with the positive sign. -/
def Up (q : Coord K) : Prop := 0 ≤ q.g ∧ q.x = q.c + q.g * q.h

/-- The loop runs through all signs of a prefix, and then goes on with what follows. -/
theorem signs_prefix (f : List K → ℕ → K) (pre : List (Coord K)) (hpre : ∀ q ∈ pre, Up q) : ∀ fuel rest acc,
    signs f (2 ^ pre.countP (·.g ≠ 0) + fuel) (pre ++ rest) acc = match flip rest with
      | (rest', true) => signs f fuel (pre ++ rest') (calls f ((sgc pre).map (· ++ rest.map (·.x))) acc)
      | (rest', false) => some (calls f ((sgc pre).map (· ++ rest.map (·.x))) acc, pre.map (·.g) ++ rest'.map (·.g)) := by
  induction pre using List.reverseRecOn with
  | nil =>
    intro fuel rest acc
    rw [List.countP_nil, pow_zero, Nat.add_comm 1 fuel, signs]
    simp only [List.nil_append, sgc, List.map_nil, List.map_cons, calls, List.foldl_cons, List.foldl_nil]
    rcases flip rest with ⟨rest', b⟩
    cases b <;> rfl
  | append_singleton pre q ih =>
    have hn := ih fun p hp => hpre p (by simp [hp])
    obtain ⟨hg, hx⟩ := hpre q (by simp)
    by_cases h0 : q.g = 0
    · intro fuel rest acc
      have hcount : (pre ++ [q]).countP (·.g ≠ 0) = pre.countP (·.g ≠ 0) := by simp [h0]
      rw [hcount, List.append_assoc, List.singleton_append, hn, flip, sgc_snoc, if_pos h0]
      have hq : (⟨q.c, -q.g, q.h, q.c + -q.g * q.h⟩ : Coord K) = q := by
        cases q; simp only at h0 hx; simp [h0, hx]
      simp only
      rw [hq, if_neg (by rw [h0]; simp)]
      rw [List.append_nil, List.map_map]
      have hm : ((fun x => x ++ rest.map (·.x)) ∘ (· ++ [q.c + q.g * q.h])) = (· ++ (q :: rest).map (·.x)) := by
        funext xs; simp [hx]
      rw [hm]
      rcases flip rest with ⟨rest', b⟩
      cases b <;> simp
    · have hgp : 0 < q.g := lt_of_le_of_ne hg (Ne.symm h0)
      intro fuel rest acc
      have hcount : (pre ++ [q]).countP (·.g ≠ 0) = pre.countP (·.g ≠ 0) + 1 := by simp [h0]
      rw [hcount, List.append_assoc, List.singleton_append, pow_succ, Nat.mul_two, Nat.add_assoc, hn]
      have hf1 : flip (q :: rest) = (⟨q.c, -q.g, q.h, q.c + -q.g * q.h⟩ :: rest, true) := by
        rw [flip]
        simp only
        rw [if_pos (by linarith)]
      have hf2 : flip ((⟨q.c, -q.g, q.h, q.c + -q.g * q.h⟩ : Coord K) :: rest) = (q :: (flip rest).1, (flip rest).2) := by
        rw [flip]
        simp only [neg_neg]
        rw [if_neg (by linarith)]
        rw [← hx]
      rw [hf1]
      dsimp only
      rw [hn, hf2, sgc_snoc, if_neg h0, List.map_append, calls_append, List.map_map, List.map_map]
      have hm : ((fun x => x ++ rest.map (·.x)) ∘ (· ++ [q.c + q.g * q.h])) = (· ++ (q :: rest).map (·.x)) := by
        funext xs; simp [hx]
      have hm' : ((fun x => x ++ rest.map (·.x)) ∘ (· ++ [q.c + -q.g * q.h])) = (· ++ ((⟨q.c, -q.g, q.h, q.c + -q.g * q.h⟩ : Coord K) :: rest).map (·.x)) := by
        funext xs; simp
      rw [hm, hm']
      rcases flip rest with ⟨rest', b⟩
      cases b <;> simp

theorem coords_up : ∀ (c h g : List K), (∀ m ∈ g, 0 ≤ m) → ∀ q ∈ coords c h g, Up q
  | c :: cs, h :: hs, g :: gs, hg, q, hq => by
    simp only [coords, List.mem_cons] at hq
    rcases hq with rfl | hq
    · exact ⟨hg g (by simp), rfl⟩
    · exact coords_up cs hs gs (fun m hm => hg m (by simp [hm])) q hq
  | [], _, _, _, q, hq => by simp [coords] at hq
  | _ :: _, [], _, _, q, hq => by simp [coords] at hq
  | _ :: _, _ :: _, [], _, q, hq => by simp [coords] at hq

theorem coords_g : ∀ (c h g : List K), c.length = g.length → h.length = g.length → (coords c h g).map (·.g) = g
  | [], [], [], _, _ => by simp [coords]
  | c :: cs, h :: hs, g :: gs, h1, h2 => by
    simp only [coords, List.map_cons]
    rw [coords_g cs hs gs (by simpa using h1) (by simpa using h2)]
  | [], _ :: _, [], _, h2 => by simp at h2
  | [], _, _ :: _, h1, _ => by simp at h1
  | _ :: _, _, [], h1, _ => by simp at h1
  | _ :: _, [], _ :: _, _, h2 => by simp at h2

/-- The loop over the signs calls the integrand for all signs, and leaves the generator as it was. -/
theorem signs_spec (f : List K → ℕ → K) (c h g : List K) (hc : c.length = g.length) (hh : h.length = g.length) (hg : ∀ m ∈ g, 0 ≤ m) {fuel : ℕ} (hf : 2 ^ g.length ≤ fuel) (acc : Acc K) :
    signs f fuel (coords c h g) acc = some (calls f ((sgn g).map (pt c h)) acc, g) := by
  have hk : (coords c h g).countP (·.g ≠ 0) ≤ g.length := by
    refine List.countP_le_length.trans (le_of_eq ?_)
    rw [← List.length_map (f := fun q : Coord K => q.g), coords_g c h g hc hh]
  have hk := Nat.pow_le_pow_right (show 0 < 2 by omega) hk
  have := signs_prefix f (coords c h g) (coords_up c h g hg) (fuel - 2 ^ (coords c h g).countP (·.g ≠ 0)) [] acc
  rw [Nat.add_sub_cancel' (hk.trans hf), List.append_nil] at this
  rw [this, sgc_coords c h g hc hh]
  have e : ((fun x : List K => x ++ ([] : List (Coord K)).map (·.x))) = id := by funext x; simp
  rw [e, List.map_id]
  simp [flip, coords_g c h g hc hh]

theorem mem_sgn : ∀ {g y : List K}, (∀ m ∈ g, 0 ≤ m) → (y ∈ sgn g ↔ y.map abs = g)
  | [], y, _ => by simp [sgn]
  | g :: gs, y, hg => by
    have ih := fun z => mem_sgn (g := gs) (y := z) fun m hm => hg m (by simp [hm])
    have h0 : 0 ≤ g := hg g (by simp)
    rw [sgn, List.mem_flatMap]
    constructor
    · rintro ⟨z, hz, hy⟩
      rw [ih] at hz
      split_ifs at hy with h
      · simp only [List.mem_singleton] at hy
        rw [hy]; simp [hz, h]
      · simp only [List.mem_cons, List.not_mem_nil, or_false] at hy
        rcases hy with rfl | rfl <;> simp [hz, abs_of_nonneg h0]
    · intro h
      cases y with
      | nil => simp at h
      | cons a y =>
        rw [List.map_cons, List.cons.injEq] at h
        refine ⟨y, (ih y).2 h.2, ?_⟩
        split_ifs with hz
        · rw [hz] at h
          simp [abs_eq_zero.1 h.1, hz]
        · rcases abs_eq h0 |>.1 h.1 with h | h <;> simp [h]

theorem nodup_sgn : ∀ {g : List K}, (sgn g).Nodup
  | [] => by simp [sgn]
  | g :: gs => by
    rw [sgn, List.nodup_flatMap]
    refine ⟨fun y _ => ?_, ?_⟩
    · split_ifs with h
      · simp
      · simp only [List.nodup_cons, List.mem_singleton, List.cons.injEq, and_true, List.not_mem_nil, not_false_eq_true, List.nodup_nil]
        intro h'
        exact h (by linarith)
    · refine (nodup_sgn (g := gs)).imp fun {a b} hab => ?_
      simp only [Function.onFun, List.disjoint_left]
      intro x h1 h2
      have t : ∀ y, x ∈ (if g = 0 then [g :: y] else [g :: y, -g :: y]) → x.tail = y := by
        intro y h
        split_ifs at h <;> simp only [List.mem_cons, List.not_mem_nil, or_false] at h
        · rw [h]; rfl
        · rcases h with rfl | rfl <;> rfl
      exact hab ((t a h1).symm.trans (t b h2))

/-! ## The permutations -/

theorem perms_spec (f : List K → ℕ → K) {c h M : List K} (hM : M.Pairwise (· ≥ ·)) (hn : ∀ m ∈ M, 0 ≤ m) {fuel : ℕ}
    (hf : ∀ l ∈ Pm M, ∀ acc, signs f fuel (coords c h l) acc = some (calls f ((sgn l).map (pt c h)) acc, l)) :
    ∀ n l lx acc, l.Perm M → #(after M l) ≤ n → ∃ L : List (List K), L.Nodup ∧ (∀ y, y ∈ L ↔ y.map abs ∈ after M l) ∧
      perms fuel f c h n l lx acc = some (calls f (L.map (pt c h)) acc, M)
  | 0, l, _, _, hl, h0 => by
    have : l ∈ after M l := by
      unfold after
      rw [mem_filter, mem_Pm]
      exact ⟨hl, lex_refl _⟩
    rw [Nat.le_zero, card_eq_zero] at h0
    simp [h0] at this
  | n + 1, l, lx, acc, hl, hcard => by
    have hpos : ∀ m ∈ l, 0 ≤ m := fun m hm => hn m (hl.subset hm)
    have hm : perms fuel f c h (n + 1) l lx acc = match stepP lx l with
        | none => some (calls f ((sgn l).map (pt c h)) acc, l.reverse)
        | some (g, lx) => perms fuel f c h n g lx (calls f ((sgn l).map (pt c h)) acc) := by
      rw [perms, hf l (mem_Pm.2 hl)]
      cases l <;> rfl
    rw [hm]
    cases hs : stepP lx l with
    | none =>
      refine ⟨sgn l, nodup_sgn, fun y => ?_, ?_⟩
      · rw [after_none hl hs, mem_singleton, mem_sgn hpos]
      · have hasc : l.Pairwise (· ≤ ·) := by
          cases l with
          | nil => exact List.Pairwise.nil
          | cons m ms => simpa using next_none ms [] m lx (by simp) hs
        have : l.reverse = M :=
          (((List.reverse_perm l).trans hl).eq_of_pairwise (le := (· ≥ ·)) (fun a b _ _ h1 h2 => le_antisymm h2 h1) (by rw [List.pairwise_reverse]; exact hasc) hM)
        simp only [this]
    | some p =>
      obtain ⟨l', lx'⟩ := p
      obtain ⟨h1, h2, h3⟩ := after_some hl hs
      obtain ⟨L, hL, hmem, he⟩ := perms_spec f hM hn hf n l' lx' (calls f ((sgn l).map (pt c h)) acc) h1 (by rw [h3, card_insert_of_notMem h2] at hcard; omega)
      refine ⟨sgn l ++ L, ?_, fun y => ?_, ?_⟩
      · rw [List.nodup_append']
        refine ⟨nodup_sgn, hL, ?_⟩
        rw [List.disjoint_left]
        intro y hy hy'
        rw [mem_sgn hpos] at hy
        rw [hmem, hy] at hy'
        exact h2 hy'
      · rw [List.mem_append, mem_sgn hpos, hmem, h3, mem_insert]
      · simp only
        rw [he, List.map_append, calls_append]

/-- `DFSHRE` calls the integrand once at every point of the orbit of the generator, and leaves the generator as it was. -/
theorem dfshre_spec {g : List K} (hg : g.Pairwise (· ≥ ·)) (hn : ∀ m ∈ g, 0 ≤ m) {fuel : ℕ} (hf : 2 ^ g.length + #(Pm g) ≤ fuel) (f : List K → ℕ → K) {c h : List K} (hc : c.length = g.length)
    (hh : h.length = g.length) (lx : ℕ) (pts : List (List K)) : ∃ L : List (List K), L.Nodup ∧ (∀ y, y ∈ L ↔ (y.map abs).Perm g) ∧ dfshre fuel f lx c h g pts =
      some (calls f (L.map (pt c h)) ⟨fun _ => 0, pts⟩, g) := by
  obtain ⟨L, h1, h2, h3⟩ := perms_spec f (c := c) (h := h) (fuel := fuel) hg hn (fun l hl acc => by
    have hl := mem_Pm.1 hl
    exact signs_spec f c h l (hc.trans hl.length_eq.symm) (hh.trans hl.length_eq.symm) (fun m hm => hn m (hl.subset hm)) (by rw [hl.length_eq]; omega) acc)
    fuel g lx ⟨fun _ => 0, pts⟩ (List.Perm.refl g) (by rw [after_desc hg]; exact (Nat.le_add_left _ _).trans hf)
  refine ⟨L, h1, fun y => ?_, h3⟩
  rw [h2, after_desc hg, mem_Pm]

end Verif.Drl
