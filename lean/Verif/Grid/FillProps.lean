import Verif.Grid.RefineLemmas
import Verif.Grid.IntervalProps
import Mathlib.Data.List.Perm.Basic
import Mathlib.Data.List.Nodup

/-!
# C33: filling a grid, and the peaks that are found
-/

set_option linter.unusedSectionVars false
set_option linter.unusedSimpArgs false

namespace Verif.Grid1

section
variable {K : Type} [Field K] [LinearOrder K] [IsStrictOrderedRing K] [FloorRing K]

/-- Point `i` of `n` is a local maximum of the sequence `y`: inside, higher than its left neighbour and not lower than its right one; at an end, higher than
its only neighbour (if there are at least three points). -/
def PeakAt (n : ℕ) (y : ℕ → K) (i : ℕ) : Prop :=
  (0 < i ∧ i + 1 < n ∧ y (i - 1) < y i ∧ y (i + 1) ≤ y i) ∨
  (3 ≤ n ∧ i = 0 ∧ y 1 < y 0) ∨
  (3 ≤ n ∧ i + 1 = n ∧ y (i - 1) < y i)

/-- **C33.** Filling with a function of one point and filling with the same function applied to the array of abscissas give the same values
at the same points, with any list of maxima, whether or not an exception ends the search for maxima in the second case. -/
theorem C33_same_values (fn : Fns K) {lo hi : K} {n : ℤ} {isLin rp : Bool} {g : BGrid K} (h : mkGrid fn.toLogExp lo hi n isLin rp = .ok g) (hr : RangeOk fn.toLogExp lo hi isLin)
    (f : K → K) (l l' : Option (LML K (Label K))) (hs : (g.stepfunc fn f l).2 = none) :
    (g.stepfunc fn f l).1.1.vals = (g.vecfunc fn (List.map f) l').1.1.vals ∧
    (g.stepfunc fn f l).1.1.abscissas fn.toLogExp = (g.vecfunc fn (List.map f) l').1.1.abscissas fn.toLogExp ∧
    (g.stepfunc fn f l).1.1.vals = some (((List.range n.toNat).map (g.x fn.toLogExp)).map f) := by
  obtain ⟨o1, o2, o3, o4, o5, o6, o7, o8⟩ := mkGrid_ok h hr.1 hr.2
  have hst : (g.stepfunc fn f l).1.1 = { g with vals := some ((g.points fn.toLogExp).map f) } := by
    cases l with
    | none => rw [stepfunc_none]; rfl
    | some l =>
      have h2 := (stepfunc_lml fn g f l).2
      rw [hs] at h2
      have : l.updates (g.allOffers fn f) = Verif.ok (l.updates (g.allOffers fn f)).1 := by
        generalize l.updates (g.allOffers fn f) = r at h2 ⊢
        obtain ⟨a, b⟩ := r
        rw [show b = none from h2.symm]
        rfl
      rw [stepfunc_some fn g f l this]
      rfl
  have hve : (g.vecfunc fn (List.map f) l').1.1 = { g with absc := some (g.vecAbsc fn.toLogExp), vals := some ((g.vecAbsc fn.toLogExp).map f) } := by
    unfold BGrid.vecfunc
    cases l' with
    | none => rfl
    | some l =>
      dsimp only
      split_ifs <;> rfl
  rw [hst, hve, o1.vecAbsc]
  refine ⟨rfl, ?_, ?_⟩
  · unfold BGrid.abscissas
    rw [o7]
    rfl
  · rw [← o4]; rfl

/-- The indices of what is offered. -/
theorem offersAt_idx (fn : Fns K) (g : BGrid K) (f : K → K) {i : ℕ} (hi : 1 < i) : (g.offersAt fn f i).map (fun o => o.2.1) =
    (if f (g.x fn.toLogExp (i - 2)) < f (g.x fn.toLogExp (i - 1)) ∧ f (g.x fn.toLogExp i) ≤ f (g.x fn.toLogExp (i - 1)) then [i - 1] else []) ++
    (if i = 2 ∧ f (g.x fn.toLogExp (i - 2)) > f (g.x fn.toLogExp (i - 1)) then [i - 2] else []) ++
    (if (i : ℤ) = g.n - 1 ∧ f (g.x fn.toLogExp (i - 1)) < f (g.x fn.toLogExp i) then [i] else []) := by
  unfold BGrid.offersAt
  rw [if_pos hi]
  unfold BGrid.offers
  rw [List.map_append, List.map_append]
  congr 1
  · congr 1
    · by_cases h : isPeak (f (g.x fn.toLogExp (i - 2))) (f (g.x fn.toLogExp (i - 1))) (f (g.x fn.toLogExp i)) = true
      · rw [if_pos h, if_pos (isPeak_iff.mp h)]; rfl
      · rw [if_neg h, if_neg (fun h' => h (isPeak_iff.mpr h'))]; rfl
    · split_ifs <;> rfl
  · split_ifs <;> rfl

theorem mem_offersAt (fn : Fns K) (g : BGrid K) (f : K → K) {i j : ℕ} (hi : (i : ℤ) < g.n) : j ∈ (g.offersAt fn f i).map (fun o => o.2.1) ↔
    1 < i ∧ ((j = i - 1 ∧ f (g.x fn.toLogExp (j - 1)) < f (g.x fn.toLogExp j) ∧ f (g.x fn.toLogExp (j + 1)) ≤ f (g.x fn.toLogExp j)) ∨
      (i = 2 ∧ j = 0 ∧ f (g.x fn.toLogExp 1) < f (g.x fn.toLogExp 0)) ∨
      ((i : ℤ) = g.n - 1 ∧ j = i ∧ f (g.x fn.toLogExp (j - 1)) < f (g.x fn.toLogExp j))) := by
  by_cases h : 1 < i
  swap
  · unfold BGrid.offersAt
    rw [if_neg h]
    simp [h]
  rw [offersAt_idx fn g f h]
  rw [List.mem_append, List.mem_append, or_assoc]
  have e0 : i - 2 = i - 1 - 1 := by omega
  have e1 : i - 1 + 1 = i := by omega
  constructor
  · rintro (hm | hm | hm)
    · split_ifs at hm with hc
      · rw [List.mem_singleton.mp hm]
        exact ⟨h, Or.inl ⟨rfl, by rw [← e0]; exact hc.1, by rw [e1]; exact hc.2⟩⟩
      · simp at hm
    · split_ifs at hm with hc
      · obtain ⟨rfl, hc⟩ := hc
        rw [List.mem_singleton.mp hm]
        exact ⟨h, Or.inr (Or.inl ⟨rfl, rfl, hc⟩)⟩
      · simp at hm
    · split_ifs at hm with hc
      · rw [List.mem_singleton.mp hm]
        exact ⟨h, Or.inr (Or.inr ⟨hc.1, rfl, hc.2⟩)⟩
      · simp at hm
  · rintro ⟨_, ⟨rfl, h1, h2⟩ | ⟨rfl, rfl, h1⟩ | ⟨h1, rfl, h2⟩⟩
    · left
      rw [if_pos ⟨by rw [e0]; exact h1, by rw [e1] at h2; exact h2⟩]; simp
    · right; left
      rw [if_pos ⟨rfl, h1⟩]; simp
    · right; right
      rw [if_pos ⟨h1, h2⟩]; simp

/-- What is offered are exactly the local maxima, once each. -/
theorem allOffers_idx (fn : Fns K) (g : BGrid K) (hn : 2 ≤ g.n) (f : K → K) :
    ((g.allOffers fn f).map fun o => o.2.1).Nodup ∧ ∀ j, j ∈ (g.allOffers fn f).map (fun o => o.2.1) ↔ PeakAt g.n.toNat (fun i => f (g.x fn.toLogExp i)) j := by
  have e : (g.allOffers fn f).map (fun o => o.2.1) = (List.range g.n.toNat).flatMap fun i => (g.offersAt fn f i).map fun o => o.2.1 := by
    unfold BGrid.allOffers
    rw [List.map_flatMap]
  rw [e]
  constructor
  · rw [List.nodup_flatMap]
    constructor
    · intro i hi
      have hi := List.mem_range.mp hi
      by_cases h : 1 < i
      · rw [offersAt_idx fn g f h]
        split_ifs <;> simp <;> omega
      · unfold BGrid.offersAt
        rw [if_neg h]
        simp
    · have key : (List.range g.n.toNat).Pairwise (fun a b => a < b ∧ b < g.n.toNat) := by
        rw [List.pairwise_iff_getElem]
        intro i j hi hj hij
        simp at hi hj ⊢
        omega
      refine key.imp ?_
      intro a b hab
      simp only [Function.onFun]
      intro j h1 h2
      rw [mem_offersAt fn g f (by omega)] at h1 h2
      omega
  · intro j
    rw [List.mem_flatMap]
    constructor
    · rintro ⟨i, hi, hm⟩
      have hi := List.mem_range.mp hi
      rw [mem_offersAt fn g f (by omega)] at hm
      obtain ⟨h1, ⟨rfl, h2, h3⟩ | ⟨rfl, rfl, h2⟩ | ⟨h2, rfl, h3⟩⟩ := hm
      · exact Or.inl ⟨by omega, by omega, h2, h3⟩
      · exact Or.inr (Or.inl ⟨by omega, rfl, h2⟩)
      · exact Or.inr (Or.inr ⟨by omega, by omega, h3⟩)
    · rintro (⟨h1, h2, h3, h4⟩ | ⟨h1, rfl, h2⟩ | ⟨h1, h2, h3⟩)
      · exact ⟨j + 1, List.mem_range.mpr (by omega), by rw [mem_offersAt fn g f (by omega)]; exact ⟨by omega, Or.inl ⟨by omega, h3, h4⟩⟩⟩
      · exact ⟨2, List.mem_range.mpr (by omega), by rw [mem_offersAt fn g f (by omega)]; exact ⟨by omega, Or.inr (Or.inl ⟨rfl, rfl, h2⟩)⟩⟩
      · exact ⟨j, List.mem_range.mpr (by omega), by rw [mem_offersAt fn g f (by omega)]; exact ⟨by omega, Or.inr (Or.inr ⟨by omega, rfl, h3⟩)⟩⟩

/-- **C33.** Filling with a function of one point offers to the list of maxima exactly the local maxima on the grid, each once: whatever the
capacity and the dynamic range of the list, its final state is that after offering them. -/
theorem C33_offers (fn : Fns K) {lo hi : K} {n : ℤ} {isLin rp : Bool} {g : BGrid K} (h : mkGrid fn.toLogExp lo hi n isLin rp = .ok g) (hr : RangeOk fn.toLogExp lo hi isLin)
    (f : K → K) (l : LML K (Label K)) :
    ∃ os : List (K × Label K), (os.map fun o => o.2.1).Nodup ∧ (∀ i, i ∈ os.map (fun o => o.2.1) ↔ PeakAt n.toNat (fun i => f (g.x fn.toLogExp i)) i) ∧
      (g.stepfunc fn f (some l)).1.2 = some (l.updates os).1 ∧ (g.stepfunc fn f (some l)).2 = (l.updates os).2 := by
  obtain ⟨o1, o2, o3, o4, o5, o6, o7, o8⟩ := mkGrid_ok h hr.1 hr.2
  obtain ⟨h1, h2⟩ := allOffers_idx fn g o1.n f
  rw [o4] at h2
  exact ⟨_, h1, h2, stepfunc_lml fn g f l⟩

/-- **C33.** With a list of maxima without limits, filling records exactly the local maxima on the grid, each once. -/
theorem C33_peaks (fn : Fns K) {lo hi : K} {n : ℤ} {isLin rp : Bool} {g : BGrid K} (h : mkGrid fn.toLogExp lo hi n isLin rp = .ok g) (hr : RangeOk fn.toLogExp lo hi isLin) (f : K → K) :
    ∃ g' l', g.stepfunc fn f (some { nmax := none, dyn := none }) = ok (g', some l') ∧ (l'.list.map fun e => e.2.1).Nodup ∧
      ∀ i, i ∈ l'.list.map (fun e => e.2.1) ↔ PeakAt n.toNat (fun i => f (g.x fn.toLogExp i)) i := by
  obtain ⟨o1, o2, o3, o4, o5, o6, o7, o8⟩ := mkGrid_ok h hr.1 hr.2
  obtain ⟨h1, h2⟩ := allOffers_idx fn g o1.n f
  rw [o4] at h2
  obtain ⟨l', S, e, hR, hl⟩ := C24_top (none : Option ℕ) (by simp) (g.allOffers fn f)
  refine ⟨_, l', stepfunc_some fn g f _ e, ?_⟩
  have hp : l'.list.Perm (g.allOffers fn f) := by
    rw [hl]
    have := hR.perm.map Prod.fst
    rw [List.zipIdx_map_fst] at this
    exact this
  have hp2 := hp.map (fun o => o.2.1)
  exact ⟨hp2.nodup_iff.mpr h1, fun i => by rw [hp2.mem_iff]; exact h2 i⟩

theorem vecLoop_spec (fn : Fns K) (g : BGrid K) (f : K → K) (absc : List K) (ha : absc = g.points fn.toLogExp) : ∀ (k i : ℕ), 2 ≤ i → i + k = g.n.toNat → ∀ l : LML K (Label K),
    g.vecLoop fn absc i k (absc.map f, some l) = ((absc.map f, some (l.updates ((List.range' i k).flatMap (g.offersAt fn f))).1), (l.updates ((List.range' i k).flatMap (g.offersAt fn f))).2)
  | 0, i, _, _, l => rfl
  | k + 1, i, hi, hk, l => by
    have hx : ∀ j, j < g.n.toNat → absc.getD j 0 = g.x fn.toLogExp j ∧ (absc.map f).getD j 0 = f (g.x fn.toLogExp j) := by
      intro j hj
      rw [ha]
      unfold BGrid.points
      constructor
      · rw [List.getD_eq_getElem?_getD, List.getElem?_map, List.getElem?_range hj]; rfl
      · rw [List.getD_eq_getElem?_getD, List.getElem?_map, List.getElem?_map, List.getElem?_range hj]; rfl
    have e : g.offers fn i (absc.getD (i - 2) 0) (absc.getD (i - 1) 0) (absc.getD i 0) ((absc.map f).getD (i - 2) 0) ((absc.map f).getD (i - 1) 0) ((absc.map f).getD i 0) = g.offersAt fn f i := by
      unfold BGrid.offersAt
      rw [if_pos (by omega), (hx (i - 2) (by omega)).1, (hx (i - 1) (by omega)).1, (hx i (by omega)).1, (hx (i - 2) (by omega)).2, (hx (i - 1) (by omega)).2, (hx i (by omega)).2]
    unfold BGrid.vecLoop
    dsimp only
    rw [e, List.range'_succ, List.flatMap_cons, updates_append]
    unfold Fill.offer
    dsimp only
    generalize l.updates (g.offersAt fn f i) = r
    obtain ⟨l1, _ | er⟩ := r
    · exact vecLoop_spec fn g f absc ha k (i + 1) (by omega) (by omega) l1
    · rfl

/-- **C33, partial.** With a list of maxima that is not empty (what is missing, empty lists, is false: `C33_violated`), filling with a vector function treats it just as filling point by point does. -/
theorem C33_vector_partial (fn : Fns K) {lo hi : K} {n : ℤ} {isLin rp : Bool} {g : BGrid K} (h : mkGrid fn.toLogExp lo hi n isLin rp = .ok g) (hr : RangeOk fn.toLogExp lo hi isLin)
    (f : K → K) (l : LML K (Label K)) (hl : l.list ≠ []) :
    (g.vecfunc fn (List.map f) (some l)).1.2 = (g.stepfunc fn f (some l)).1.2 ∧ (g.vecfunc fn (List.map f) (some l)).2 = (g.stepfunc fn f (some l)).2 := by
  obtain ⟨o1, o2, o3, o4, o5, o6, o7, o8⟩ := mkGrid_ok h hr.1 hr.2
  have hn := o1.n
  obtain ⟨s1, s2⟩ := stepfunc_lml fn g f l
  rw [s1, s2]
  have hva := o1.vecAbsc
  have key := vecLoop_spec fn { g with absc := some (g.points fn.toLogExp), vals := some ((g.points fn.toLogExp).map f) } f (g.points fn.toLogExp) rfl (g.n.toNat - 2) 2 (le_refl _)
    (by change 2 + (g.n.toNat - 2) = g.n.toNat; omega) l
  have e : g.allOffers fn f = (List.range' 2 (g.n.toNat - 2)).flatMap (g.offersAt fn f) := by
    unfold BGrid.allOffers
    have h2 : g.n.toNat = 2 + (g.n.toNat - 2) := by omega
    conv_lhs => rw [h2, List.range_eq_range', ← List.range'_append_1, List.flatMap_append]
    have : (List.range' 0 2).flatMap (g.offersAt fn f) = [] := by
      simp [List.range', BGrid.offersAt]
    rw [this, List.nil_append]
  have e2 : (List.range' 2 (g.n.toNat - 2)).flatMap (BGrid.offersAt fn { g with absc := some (g.points fn.toLogExp), vals := some ((g.points fn.toLogExp).map f) } f) = g.allOffers fn f := by
    rw [e]; rfl
  rw [e2] at key
  unfold BGrid.vecfunc
  dsimp only
  rw [hva, if_neg (by simpa using hl), key]
  exact ⟨rfl, rfl⟩

/-- **C33, violated.** With a list of maxima that is empty, as every new one is, filling with a vector function never records anything. -/
theorem C33_violated (fn : Fns K) (g : BGrid K) (func : List K → List K) (l : LML K (Label K)) (hl : l.list = []) :
    (g.vecfunc fn func (some l)).1.2 = some l ∧ (g.vecfunc fn func (some l)).2 = none := by
  unfold BGrid.vecfunc
  dsimp only
  rw [if_pos (by simp [hl])]
  exact ⟨rfl, rfl⟩

/-- **C33, violated:** two points record nothing even when one is higher. -/
theorem C33_two_points (fn : Fns K) {lo hi : K} {isLin rp : Bool} {g : BGrid K} (h : mkGrid fn.toLogExp lo hi 2 isLin rp = .ok g) (hr : RangeOk fn.toLogExp lo hi isLin)
    (f : K → K) (l : LML K (Label K)) : (g.stepfunc fn f (some l)).1.2 = some l := by
  obtain ⟨os, _, h2, h3, _⟩ := C33_offers fn h hr f l
  have : os = [] := by
    cases os with
    | nil => rfl
    | cons o os =>
      have := (h2 o.2.1).mp (by simp)
      unfold PeakAt at this
      simp at this
      omega
  rw [h3, this]
  rfl

end

/-- Non-vacuity: a peak inside and a half-peak at the right end. -/
example : ∃ g : BGrid ℚ, mkGrid (LogExp.mk id id) 0 4 5 true true = .ok g ∧
    (((g.stepfunc (Fns.mk (LogExp.mk id id) id 1) (fun x => if x = 1 ∨ x = 4 then 1 else 0) (some { nmax := none, dyn := none })).1.2.map fun l => l.list.map fun e => e.2.1) = some [1, 4]) :=
  ⟨_, rfl, by decide +kernel⟩

end Verif.Grid1
