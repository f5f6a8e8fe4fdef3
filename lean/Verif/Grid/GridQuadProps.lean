import Verif.Grid.GridQuadLemmas
import Mathlib.Algebra.Order.BigOperators.Group.Finset
import Mathlib.Data.List.GetD
import Mathlib.Algebra.Ring.Parity

/-!
# Quadrature above a level and level crossings: properties C34–C37
-/

set_option linter.unusedSectionVars false
set_option linter.unusedSimpArgs false

namespace Verif.HPD

open MeasureTheory intervalIntegral Verif.Grid1

/-! ### Specification -/

/-- `n` equally spaced abscissas starting at `lo`. -/
def unif (lo dx : ℝ) (n : ℕ) : List ℝ := (List.range n).map fun i : ℕ => lo + i * dx

section
variable {K : Type*} [Field K] [LinearOrder K] [IsStrictOrderedRing K]

/-- The trapezoid rule with unit spacing. -/
def trap (a : List K) : K := ∑ i ∈ Finset.range (a.length - 1), (a.getD i 0 + a.getD (i + 1) 0) / 2

/-- How many pairs of neighbours are both equal to `m`. -/
def flatCells (a : List K) (m : K) : ℕ := ((Finset.range (a.length - 1)).filter fun i => a.getD i 0 = m ∧ a.getD (i + 1) 0 = m).card

/-- How many cells have ends on different sides of the level. -/
def straddles (ys : List K) (c : K) : ℕ :=
  ((Finset.range (ys.length - 1)).filter fun i => ys.getD i 0 < c ∧ c < ys.getD (i + 1) 0 ∨ c < ys.getD i 0 ∧ ys.getD (i + 1) 0 < c).card

/-- The sum over all cells of a two-dimensional grid of the mean of the four corner values. -/
def cornerSum (a : List (List K)) (ny : ℕ) : K :=
  ∑ i ∈ Finset.range (a.length - 1), ∑ j ∈ Finset.range (ny - 1),
    ((a.getD i []).getD j 0 + (a.getD i []).getD (j + 1) 0 + (a.getD (i + 1) []).getD j 0 + (a.getD (i + 1) []).getD (j + 1) 0) / 4

/-! ### Helper lemmas about the specification -/

theorem trap_cons (u v : K) (l : List K) : trap (u :: v :: l) = (u + v) / 2 + trap (v :: l) := by
  unfold trap
  rw [show (u :: v :: l).length - 1 = l.length + 1 by simp, Finset.sum_range_succ', add_comm]
  simp

theorem flat_cons (u v m : K) (l : List K) : flatCells (u :: v :: l) m = (if u = m ∧ v = m then 1 else 0) + flatCells (v :: l) m := by
  unfold flatCells
  rw [Finset.card_filter, Finset.card_filter, show (u :: v :: l).length - 1 = l.length + 1 by simp, Finset.sum_range_succ', add_comm]
  simp

theorem straddles_cons (u v c : K) (l : List K) :
    straddles (u :: v :: l) c = (if u < c ∧ c < v ∨ c < u ∧ v < c then 1 else 0) + straddles (v :: l) c := by
  unfold straddles
  rw [Finset.card_filter, Finset.card_filter, show (u :: v :: l).length - 1 = l.length + 1 by simp, Finset.sum_range_succ', add_comm]
  simp

theorem qgt1d_full {c : K} : ∀ {a : List K}, (∀ x ∈ a, c < x) → qgt1d a c = trap a
  | [], _ => by simp [qgt1d_nil, trap]
  | [_], _ => by simp [qgt1d_single, trap]
  | u :: v :: l, h => by
    rw [qgt1d_cons, cellGT_below (h u (by simp)) (h v (by simp)), qgt1d_full fun x hx => h x (by simp at hx ⊢; tauto), trap_cons]
    ring

theorem qgt1d_min {m : K} : ∀ {a : List K}, (∀ x ∈ a, m ≤ x) → qgt1d a m = trap a - m * flatCells a m
  | [], _ => by simp [qgt1d_nil, trap, flatCells]
  | [_], _ => by simp [qgt1d_single, trap, flatCells]
  | u :: v :: l, h => by
    rw [qgt1d_cons, cellGT_min (h u (by simp)) (h v (by simp)), qgt1d_min fun x hx => h x (by simp at hx ⊢; tauto), trap_cons, flat_cons]
    split_ifs <;> push_cast <;> ring

theorem qgt1d_nonneg {c : K} : ∀ {a : List K}, (∀ x ∈ a, 0 ≤ x) → 0 ≤ qgt1d a c
  | [], _ => le_refl _
  | [_], _ => le_refl _
  | u :: v :: l, h => by
    rw [qgt1d_cons]
    exact add_nonneg (cellGT_nonneg (h u (by simp)) (h v (by simp))) (qgt1d_nonneg fun x hx => h x (by simp at hx ⊢; tauto))

theorem qgt1d_le {c : K} : ∀ {a : List K}, (∀ x ∈ a, 0 ≤ x) → qgt1d a c ≤ trap a
  | [], _ => by simp [qgt1d_nil, trap]
  | [_], _ => by simp [qgt1d_single, trap]
  | u :: v :: l, h => by
    rw [qgt1d_cons, trap_cons]
    have := cellGT_le (c := c) (h u (by simp)) (h v (by simp))
    have := qgt1d_le (c := c) (a := v :: l) fun x hx => h x (by simp at hx ⊢; tauto)
    linarith

end

theorem unif_chain (lo dx : ℝ) (n : ℕ) : (unif lo dx n).IsChain (fun s t => t - s = dx) := by
  unfold unif
  rw [List.isChain_map]
  have : (List.range n).IsChain (fun i j => j = i + 1) := by
    rw [List.isChain_iff_getElem]
    intro i hi
    simp
  refine this.imp ?_
  intro i j hij
  subst hij
  push_cast
  ring

theorem unif_increasing {lo dx : ℝ} (h : 0 < dx) (n : ℕ) : (unif lo dx n).Pairwise (· < ·) := by
  unfold unif
  rw [List.pairwise_map]
  refine List.pairwise_lt_range.imp ?_
  intro i j hij
  have : (i : ℝ) < j := by exact_mod_cast hij
  nlinarith

theorem unif_head {lo dx : ℝ} {n : ℕ} (hn : n ≠ 0) : (unif lo dx n).head? = some lo := by
  obtain ⟨n, rfl⟩ := Nat.exists_eq_succ_of_ne_zero hn
  simp [unif, List.range_succ_eq_map]

theorem unif_last {lo dx : ℝ} {n : ℕ} (hn : n ≠ 0) : (unif lo dx n).getLast? = some (lo + ((n : ℝ) - 1) * dx) := by
  obtain ⟨n, rfl⟩ := Nat.exists_eq_succ_of_ne_zero hn
  simp [unif, List.range_succ]

/-! ### C34 -/

/-- **C34.** With `n` equally spaced points from `lo`, spacing `dx`, the value of `qgt1d` times `dx` is the integral of the piecewise-linear interpolant of the
array over the part of the grid where the interpolant exceeds the level. -/
theorem C34_integral (a : List ℝ) (crit lo dx : ℝ) (p : ℝ → ℝ) (ha : a ≠ []) (hdx : 0 < dx) (hp : Interp (unif lo dx a.length) a p) :
    ∫ x in lo..(lo + ((a.length : ℝ) - 1) * dx), (if crit < p x then p x else 0) = dx * qgt1d a crit := by
  have hn : a.length ≠ 0 := by simpa using ha
  exact (interp_above hdx (unif_head hn) (unif_last hn) (unif_chain lo dx _) hp).2

/-- Interpolants exist. -/
theorem C34_interpolant_exists (a : List ℝ) (lo dx : ℝ) (ha : a ≠ []) (hdx : 0 < dx) : ∃ p, Interp (unif lo dx a.length) a p := by
  apply interp_exists
  · simpa [unif] using ha
  · simp [unif]
  · exact unif_increasing hdx _

/-- The interpolant of 0, 2, 0 exists and its content above 1 is 3/2. -/
example : (∃ p, Interp (unif 0 1 [(0 : ℝ), 2, 0].length) [0, 2, 0] p) ∧ qgt1d [(0 : ℚ), 2, 0] 1 = 3 / 2 :=
  ⟨C34_interpolant_exists _ _ _ (by simp) one_pos, by decide +kernel⟩

section
variable {K : Type*} [Field K] [LinearOrder K] [IsStrictOrderedRing K]

/-- **C34.** At a level below all values the result is the trapezoid rule. -/
theorem C34_trapezoid (a : List K) (crit : K) (h : ∀ x ∈ a, crit < x) :
    qgt1d a crit = ∑ i ∈ Finset.range (a.length - 1), (a.getD i 0 + a.getD (i + 1) 0) / 2 := qgt1d_full h

example : (∀ x ∈ [(1 : ℚ), 3, 2], 0 < x) ∧ qgt1d [(1 : ℚ), 3, 2] 0 = 9 / 2 := by refine ⟨?_, ?_⟩ <;> decide +kernel

/-! ### C35 -/

/-- **C35.** The content does not increase with the level. -/
theorem C35_monotone (a : List K) (c c' : K) (h : ∀ x ∈ a, 0 ≤ x) (hc : c ≤ c') : qgt1d a c' ≤ qgt1d a c := qgt1d_anti hc h

/-- **C35.** It lies between zero and the full trapezoid integral. -/
theorem C35_bounds (a : List K) (c : K) (h : ∀ x ∈ a, 0 ≤ x) : 0 ≤ qgt1d a c ∧ qgt1d a c ≤ trap a := ⟨qgt1d_nonneg h, qgt1d_le h⟩

/-- **C35.** It vanishes at and above the maximum. -/
theorem C35_zero (a : List K) (c : K) (h : ∀ x ∈ a, x ≤ c) : qgt1d a c = 0 := qgt1d_zero h

/-- **C35.** At the minimum of the array the content is the full integral minus the minimum times the number of cells both ends of which are at the
minimum: without such cells nothing is lost. -/
theorem C35_at_minimum (a : List K) (m : K) (h : ∀ x ∈ a, m ≤ x) : qgt1d a m = trap a - m * flatCells a m := qgt1d_min h

/-- Two neighbouring minima: the content at the minimum, 9/2, is less than the full integral, 11/2; a flat array loses everything. -/
theorem C35_plateau : trap [(1 : ℚ), 1, 3, 2] = 11 / 2 ∧ qgt1d [(1 : ℚ), 1, 3, 2] 1 = 9 / 2 ∧ qgt1d [(1 : ℚ), 1, 3, 2] (1 / 2) = 11 / 2 ∧
    trap [(1 : ℚ), 1] = 1 ∧ qgt1d [(1 : ℚ), 1] 1 = 0 := by
  refine ⟨?_, ?_, ?_, ?_, ?_⟩ <;> decide +kernel

example : (∀ x ∈ [(1 : ℚ), 1, 3, 2], 0 ≤ x) ∧ (∀ x ∈ [(1 : ℚ), 1, 3, 2], 1 ≤ x) ∧ (∀ x ∈ [(1 : ℚ), 1, 3, 2], x ≤ 3) := by
  refine ⟨?_, ?_, ?_⟩ <;> decide +kernel

end

/-! ### C36 -/

section
variable {K : Type*} [Field K] [LinearOrder K] [IsStrictOrderedRing K]

/-- The crossings of all straddling cells. -/
def cross (c : K) : List K → List K → List K
  | x :: x' :: xs, y :: y' :: ys =>
    (if y < c ∧ c < y' ∨ c < y ∧ y' < c then [crossAt c x x' y y'] else []) ++ cross c (x' :: xs) (y' :: ys)
  | _, _ => []

theorem xvLoop_fits (nmax : ℕ) (c : K) : ∀ (xs ys : List K) (s : XV K), xs.length = ys.length → s.nx + straddles ys c ≤ nmax →
    xvLoop nmax c xs ys s = { s with nx := s.nx + straddles ys c, vals := s.vals ++ cross c xs ys }
  | [], [], s, _, _ => by simp [xvLoop, straddles, cross]
  | [_], [_], s, _, _ => by simp [xvLoop, straddles, cross]
  | x :: x' :: xs, y :: y' :: ys, s, hl, h => by
    have hl' : (x' :: xs).length = (y' :: ys).length := by simpa using hl
    rw [straddles_cons] at h ⊢
    rw [xvLoop, cross]
    by_cases h1 : y < c ∧ y' > c
    · have h1' : y < c ∧ c < y' ∨ c < y ∧ y' < c := Or.inl h1
      rw [if_pos h1'] at h
      rw [if_pos h1, if_pos h1', if_pos h1', xvLoop_fits nmax c _ _ _ hl' (by simp [XV.store]; omega)]
      simp only [XV.store, List.append_assoc, XV.mk.injEq]
      refine ⟨by omega, trivial, trivial, ?_⟩
      rw [decide_eq_false (by omega), Bool.or_false]
    · rw [if_neg h1]
      by_cases h2 : y' < c ∧ y > c
      · have h2' : y < c ∧ c < y' ∨ c < y ∧ y' < c := Or.inr ⟨h2.2, h2.1⟩
        rw [if_pos h2'] at h
        rw [if_pos h2, if_pos h2', if_pos h2']
        dsimp only
        rw [if_neg (by omega), xvLoop_fits nmax c _ _ _ hl' (by simp [XV.store]; omega)]
        simp only [XV.store, List.append_assoc, XV.mk.injEq]
        refine ⟨by omega, trivial, trivial, ?_⟩
        rw [decide_eq_false (by omega), Bool.or_false]
      · have h2' : ¬ (y < c ∧ c < y' ∨ c < y ∧ y' < c) := by
          rintro (q | ⟨q1, q2⟩)
          · exact h1 q
          · exact h2 ⟨q2, q1⟩
        rw [if_neg h2'] at h
        rw [if_neg h2, if_neg h2', if_neg h2', xvLoop_fits nmax c _ _ _ hl' (by omega)]
        simp
  | [], _ :: _, s, hl, _ => by simp at hl
  | _ :: _, [], s, hl, _ => by simp at hl
  | [_], _ :: _ :: _, s, hl, _ => by simp at hl
  | _ :: _ :: _, [_], s, hl, _ => by simp at hl

theorem overrun_stays (nmax : ℕ) (c : K) : ∀ (xs ys : List K) (s : XV K), s.overrun = true → (xvLoop nmax c xs ys s).overrun = true
  | x :: x' :: xs, y :: y' :: ys, s, h => by
    rw [xvLoop]
    dsimp only
    split_ifs
    · exact overrun_stays nmax c _ _ _ (by simp [XV.store, h])
    · exact h
    · exact overrun_stays nmax c _ _ _ (by simp [XV.store, h])
    · exact overrun_stays nmax c _ _ _ h
  | [], _, s, h => by simpa [xvLoop] using h
  | [_], _, s, h => by simpa [xvLoop] using h
  | _ :: _ :: _, [], s, h => by simpa [xvLoop] using h
  | _ :: _ :: _, [_], s, h => by simpa [xvLoop] using h

/-- What happens when there are too many crossings; `y` is the current value. -/
theorem xvLoop_over (nmax : ℕ) (c : K) : ∀ (xs ys : List K) (y : K) (s : XV K), xs.length = ys.length + 1 → (∀ v ∈ y :: ys, v ≠ c) →
    (y < c → Even s.nx ∧ s.nx ≤ nmax) → (c < y → ¬ Even s.nx) → (s.overrun = true ∨ s.nx ≤ nmax) → nmax < s.nx + straddles (y :: ys) c →
    ((y :: ys).getLast (by simp) < c → (xvLoop nmax c xs (y :: ys) s).ok = false) ∧
    (Even nmax → (xvLoop nmax c xs (y :: ys) s).overrun = true) ∧
    (¬ Even nmax → s.nx ≤ nmax → s.overrun = false → (xvLoop nmax c xs (y :: ys) s).ok = false ∧ (xvLoop nmax c xs (y :: ys) s).overrun = false)
  | xs, [], y, s, hl, hne, hb, ha, ho, hn => by
    have h0 : straddles [y] c = 0 := by simp [straddles]
    rw [h0, add_zero] at hn
    have hx : xvLoop nmax c xs [y] s = s := by
      match xs with
      | [] => rfl
      | [_] => rfl
      | _ :: _ :: _ => rfl
    rw [hx]
    refine ⟨fun h => ?_, fun _ => ?_, fun _ h => ?_⟩
    · exact absurd (hb h).2 (by omega)
    · rcases ho with h | h
      · exact h
      · omega
    · omega
  | [], _ :: _, _, _, hl, _, _, _, _, _ => by simp at hl
  | [_], _ :: _, _, _, hl, _, _, _, _, _ => by simp at hl
  | x :: x' :: xs, y' :: ys, y, s, hl, hne, hb, ha, ho, hn => by
    have hl' : (x' :: xs).length = ys.length + 1 := by simpa using hl
    have hne' : ∀ v ∈ y' :: ys, v ≠ c := fun v hv => hne v (by simp at hv ⊢; tauto)
    have hlast : (y :: y' :: ys).getLast (by simp) = (y' :: ys).getLast (by simp) := by simp
    have hy : y ≠ c := hne y (by simp)
    have hy' : y' ≠ c := hne y' (by simp)
    rw [straddles_cons] at hn
    rw [hlast, xvLoop]
    dsimp only
    by_cases h1 : y < c ∧ y' > c
    · rw [if_pos h1]
      rw [if_pos (Or.inl h1)] at hn
      have hev := hb h1.1
      obtain ⟨i1, i2, i3⟩ := xvLoop_over nmax c (x' :: xs) ys y' (XV.store nmax { s with nx := s.nx + 1 } (crossAt c x x' y y')) hl' hne'
        (fun h => absurd h (not_lt.mpr h1.2.le)) (fun _ => by simpa [XV.store, Nat.even_add_one] using hev.1)
        (by
          simp only [XV.store, Bool.or_eq_true, decide_eq_true_eq]
          omega)
        (by simp [XV.store]; omega)
      refine ⟨i1, i2, fun h2 h3 h4 => i3 h2 ?_ ?_⟩
      · have : s.nx ≠ nmax := fun h => h2 (h ▸ hev.1)
        simp only [XV.store]; omega
      · have : s.nx ≠ nmax := fun h => h2 (h ▸ hev.1)
        simp only [XV.store, h4, Bool.false_or, decide_eq_false_iff_not]; omega
    · rw [if_neg h1]
      by_cases h2 : y' < c ∧ y > c
      · rw [if_pos h2]
        rw [if_pos (Or.inr ⟨h2.2, h2.1⟩)] at hn
        have hod := ha h2.2
        by_cases h3 : s.nx + 1 > nmax
        · rw [if_pos h3]
          refine ⟨fun _ => rfl, fun h => ?_, fun _ _ h => ⟨rfl, h⟩⟩
          rcases ho with h' | h'
          · exact h'
          · have : s.nx = nmax := by omega
            exact absurd (this ▸ h) hod
        · rw [if_neg h3]
          obtain ⟨i1, i2, i3⟩ := xvLoop_over nmax c (x' :: xs) ys y' (XV.store nmax { s with nx := s.nx + 1 } (crossAt c x x' y y')) hl' hne'
            (fun _ => ⟨by simpa [XV.store, Nat.even_add_one] using hod, by simp [XV.store]; omega⟩) (fun h => absurd h (not_lt.mpr h2.1.le))
            (by simp only [XV.store]; right; omega)
            (by simp [XV.store]; omega)
          refine ⟨i1, i2, fun h4 h5 h6 => i3 h4 (by simp only [XV.store]; omega) ?_⟩
          simp only [XV.store, h6, Bool.false_or, decide_eq_false_iff_not]; omega
      · rw [if_neg h2]
        have h2' : ¬ (y < c ∧ c < y' ∨ c < y ∧ y' < c) := by
          rintro (q | ⟨q1, q2⟩)
          · exact h1 q
          · exact h2 ⟨q2, q1⟩
        rw [if_neg h2'] at hn
        refine xvLoop_over nmax c (x' :: xs) ys y' s hl' hne' (fun h => hb ?_) (fun h => ha ?_) ho (by omega)
        · by_contra hh
          exact h2 ⟨h, lt_of_le_of_ne (not_lt.mp hh) (Ne.symm hy)⟩
        · by_contra hh
          exact h1 ⟨lt_of_le_of_ne (not_lt.mp hh) hy, h⟩

theorem straddles_parity (c : K) : ∀ (ys : List K) (y : K), (∀ v ∈ y :: ys, v ≠ c) →
    (Even (straddles (y :: ys) c) ↔ (y < c ↔ (y :: ys).getLast (by simp) < c))
  | [], y, _ => by simp [straddles]
  | y' :: ys, y, h => by
    have ih := straddles_parity c ys y' fun v hv => h v (by simp at hv ⊢; tauto)
    have hy : y ≠ c := h y (by simp)
    have hy' : y' ≠ c := h y' (by simp)
    have hlast : (y :: y' :: ys).getLast (by simp) = (y' :: ys).getLast (by simp) := by simp
    rw [straddles_cons, hlast]
    rcases lt_or_gt_of_ne hy with h1 | h1 <;> rcases lt_or_gt_of_ne hy' with h2 | h2
    · rw [if_neg (by rintro (⟨_, q⟩ | ⟨q, _⟩) <;> exact absurd q (not_lt.mpr (le_of_lt (by assumption)))), zero_add, ih]
      simp [h1, h2]
    · rw [if_pos (Or.inl ⟨h1, h2⟩), add_comm, Nat.even_add_one, ih]
      simp [h1, not_lt.mpr h2.le]
    · rw [if_pos (Or.inr ⟨h1, h2⟩), add_comm, Nat.even_add_one, ih]
      simp [h2, not_lt.mpr h1.le]
    · rw [if_neg (by rintro (⟨q, _⟩ | ⟨_, q⟩) <;> exact absurd q (not_lt.mpr (le_of_lt (by assumption)))), zero_add, ih]
      simp [not_lt.mpr h1.le, not_lt.mpr h2.le]

end

/-- The crossing of one cell is the only place where the line has the level. -/
theorem cell_cross {a b u v c x : ℝ} (hab : a < b) (hu : u ≠ c) (hv : v ≠ c) :
    (a ≤ x ∧ x ≤ b ∧ u + (x - a) / (b - a) * (v - u) = c) ↔ (u < c ∧ c < v ∨ c < u ∧ v < c) ∧ x = crossAt c a b u v := by
  have hd : 0 < b - a := by linarith
  have hd' : b - a ≠ 0 := hd.ne'
  unfold crossAt
  constructor
  · rintro ⟨h1, h2, h3⟩
    have q1 : 0 ≤ (x - a) / (b - a) := by apply div_nonneg <;> linarith
    have q2 : (x - a) / (b - a) ≤ 1 := by rw [div_le_one hd]; linarith
    have hs : u < c ∧ c < v ∨ c < u ∧ v < c := by
      rcases lt_or_gt_of_ne hu with h | h <;> rcases lt_or_gt_of_ne hv with h' | h'
      · exfalso; rcases le_total u v with q | q <;> nlinarith
      · exact Or.inl ⟨h, h'⟩
      · exact Or.inr ⟨h, h'⟩
      · exfalso; rcases le_total u v with q | q <;> nlinarith
    refine ⟨hs, ?_⟩
    have huv : v - u ≠ 0 := by rcases hs with ⟨p, q⟩ | ⟨p, q⟩ <;> intro h <;> linarith
    have : c - u = (x - a) / (b - a) * (v - u) := by linarith
    rw [this]
    field_simp
    ring
  · rintro ⟨hs, rfl⟩
    have huv : v - u ≠ 0 := by rcases hs with ⟨p, q⟩ | ⟨p, q⟩ <;> intro h <;> linarith
    have e : (c - u) / (v - u) * (b - a) = (b - a) * (c - u) / (v - u) := by field_simp
    have q1 : 0 < (c - u) / (v - u) := by
      rcases hs with ⟨p, q⟩ | ⟨p, q⟩
      · apply div_pos <;> linarith
      · apply div_pos_of_neg_of_neg <;> linarith
    have q2 : (c - u) / (v - u) < 1 := by
      rcases hs with ⟨p, q⟩ | ⟨p, q⟩
      · rw [div_lt_one (by linarith)]; linarith
      · rw [div_lt_one_of_neg (by linarith)]; linarith
    rw [← e]
    refine ⟨by nlinarith, by nlinarith, ?_⟩
    field_simp
    ring

theorem cell_cross_strict {a b u v c : ℝ} (hab : a < b) (hs : u < c ∧ c < v ∨ c < u ∧ v < c) : a < crossAt c a b u v ∧ crossAt c a b u v < b := by
  have hu : u ≠ c := by rcases hs with ⟨p, q⟩ | ⟨p, q⟩ <;> intro h <;> linarith
  have hv : v ≠ c := by rcases hs with ⟨p, q⟩ | ⟨p, q⟩ <;> intro h <;> linarith
  obtain ⟨h1, h2, h3⟩ := (cell_cross (x := crossAt c a b u v) hab hu hv).mpr ⟨hs, rfl⟩
  refine ⟨lt_of_le_of_ne h1 fun h => ?_, lt_of_le_of_ne h2 fun h => ?_⟩
  · rw [← h] at h3; simp at h3; exact hu h3
  · rw [h, div_self (by linarith)] at h3; exact hv (by linarith)

theorem cross_spec {p : ℝ → ℝ} {c : ℝ} : ∀ {xs vs : List ℝ} {a b : ℝ}, xs.head? = some a → xs.getLast? = some b → xs.Pairwise (· < ·) →
    (∀ v ∈ vs, v ≠ c) → Interp xs vs p →
    a ≤ b ∧ (∀ x, x ∈ cross c xs vs ↔ a ≤ x ∧ x ≤ b ∧ p x = c) ∧ (cross c xs vs).Pairwise (· < ·) ∧ (∀ x ∈ cross c xs vs, a < x) ∧
      (cross c xs vs).length = straddles vs c
  | [], _, _, _, h, _, _, _, _ => by simp at h
  | [x], vs, a, b, h1, h2, _, hne, h => by
    simp only [List.head?_cons, Option.some.injEq, List.getLast?_singleton] at h1 h2
    subst h1 h2
    match vs, hne, h with
    | [u], hne, h =>
      refine ⟨le_refl _, fun y => ?_, by simp [cross], by simp [cross], by simp [cross, straddles]⟩
      simp only [cross, List.not_mem_nil, false_iff, not_and]
      intro h1 h2 h3
      have : y = x := le_antisymm h2 h1
      subst this
      exact hne u (by simp) (h.symm.trans h3)
    | _ :: _ :: _, _, h => simp [Interp] at h
  | x :: y :: xs, [], _, _, _, _, _, _, h => by simp [Interp] at h
  | x :: y :: xs, [u], _, _, _, _, _, _, h => by simp [Interp] at h
  | x :: y :: xs, u :: v :: vs, a, b, h1, h2, hp, hne, h => by
    simp only [List.head?_cons, Option.some.injEq] at h1
    subst h1
    obtain ⟨h3, h4⟩ := h
    have hp' := List.pairwise_cons.mp hp
    have hxy : x < y := hp'.1 y (by simp)
    have hlast : (y :: xs).getLast? = some b := by rw [← h2]; simp
    have hu := hne u (by simp)
    have hv := hne v (by simp)
    obtain ⟨i0, i1, i2, i3, i4⟩ := cross_spec (xs := y :: xs) (vs := v :: vs) (a := y) rfl hlast hp'.2 (fun w hw => hne w (by simp at hw ⊢; tauto)) h4
    refine ⟨by linarith, fun z => ?_, ?_, ?_, ?_⟩
    · rw [cross, List.mem_append, i1 z]
      have hm : (z ∈ if u < c ∧ c < v ∨ c < u ∧ v < c then [crossAt c x y u v] else []) ↔ x ≤ z ∧ z ≤ y ∧ p z = c := by
        have := cell_cross (x := z) (c := c) hxy hu hv
        constructor
        · intro hz
          split_ifs at hz with hs
          · simp only [List.mem_singleton] at hz
            obtain ⟨q1, q2, q3⟩ := this.mpr ⟨hs, hz⟩
            exact ⟨q1, q2, (h3 z q1 q2).trans q3⟩
          · simp at hz
        · rintro ⟨q1, q2, q3⟩
          obtain ⟨r1, r2⟩ := this.mp ⟨q1, q2, (h3 z q1 q2).symm.trans q3⟩
          rw [if_pos r1, r2]; simp
      rw [hm]
      constructor
      · rintro (⟨q1, q2, q3⟩ | ⟨q1, q2, q3⟩)
        · exact ⟨q1, by linarith, q3⟩
        · exact ⟨by linarith, q2, q3⟩
      · rintro ⟨q1, q2, q3⟩
        rcases le_total z y with q | q
        · exact Or.inl ⟨q1, q, q3⟩
        · exact Or.inr ⟨q, q2, q3⟩
    · rw [cross, List.pairwise_append]
      refine ⟨by split_ifs <;> simp, i2, ?_⟩
      intro s hs t ht
      split_ifs at hs with hst
      · simp only [List.mem_singleton] at hs
        rw [hs]
        exact (cell_cross_strict hxy hst).2.trans (i3 t ht)
      · simp at hs
    · rw [cross]
      intro s hs
      rcases List.mem_append.mp hs with hs | hs
      · split_ifs at hs with hst
        · simp only [List.mem_singleton] at hs
          rw [hs]
          exact (cell_cross_strict hxy hst).1
        · simp at hs
      · exact hxy.trans (i3 s hs)
    · rw [cross, List.length_append, i4, straddles_cons]
      split_ifs <;> simp

/-- **C36.** If no value equals the level and the buffer is large enough, `xvalues` succeeds, stays inside its buffer, and returns in increasing order exactly
the places where the piecewise-linear interpolant has the level; their number is the number of cells whose ends lie on different sides.
Missing: buffers of even size that are full (`C36_violated`). -/
theorem C36_crossings_partial (xs ys : List ℝ) (c a b : ℝ) (nmax : ℕ) (p : ℝ → ℝ) (ha : xs.head? = some a) (hb : xs.getLast? = some b)
    (hl : xs.length = ys.length) (hinc : xs.Pairwise (· < ·)) (hne : ∀ y ∈ ys, y ≠ c) (hp : Interp xs ys p) (hn : straddles ys c ≤ nmax) :
    let r := xvalues xs ys c nmax
    r.ok = true ∧ r.overrun = false ∧ r.nx = straddles ys c ∧ r.vals.length = straddles ys c ∧ r.vals.Pairwise (· < ·) ∧
      ∀ x, x ∈ r.vals ↔ a ≤ x ∧ x ≤ b ∧ p x = c := by
  obtain ⟨_, i1, i2, _, i4⟩ := cross_spec ha hb hinc hne hp
  have e : xvalues xs ys c nmax = _ := xvLoop_fits nmax c xs ys {} hl (by simpa using hn)
  simp only [Nat.zero_add, List.nil_append] at e
  simp only [e]
  exact ⟨trivial, trivial, trivial, i4, i2, i1⟩

section
variable {K : Type*} [Field K] [LinearOrder K] [IsStrictOrderedRing K]

/-- **C36.** If both end values are below the level, and no value equals it, the number of crossings is even. -/
theorem C36_even (ys : List K) (c : K) (h : ys ≠ []) (hne : ∀ y ∈ ys, y ≠ c) (h1 : ys.head h < c) (h2 : ys.getLast h < c) : Even (straddles ys c) := by
  match ys, h with
  | y :: ys, _ => exact (straddles_parity c ys y hne).mpr ⟨fun _ => h2, fun _ => h1⟩

/-- **C36.** Too many crossings of an array with both ends below the level set the error flag. -/
theorem C36_too_many (xs ys : List K) (c : K) (nmax : ℕ) (h : ys ≠ []) (hl : xs.length = ys.length) (hne : ∀ y ∈ ys, y ≠ c) (h1 : ys.head h < c)
    (h2 : ys.getLast h < c) (hn : nmax < straddles ys c) : (xvalues xs ys c nmax).ok = false := by
  match ys, h with
  | y :: ys, _ =>
    refine (xvLoop_over nmax c xs ys y {} (by simpa using hl) hne (fun _ => ⟨by simp, by simp⟩) (fun h => absurd h (not_lt.mpr (le_of_lt h1))) (Or.inr (by simp))
      (by simpa using hn)).1 h2

/-- With an odd buffer size nothing is stored beyond its end and too many crossings are always noticed. -/
theorem C36_odd_buffer (xs ys : List K) (c : K) (nmax : ℕ) (h : ys ≠ []) (hl : xs.length = ys.length) (hne : ∀ y ∈ ys, y ≠ c) (h1 : ys.head h < c)
    (ho : ¬ Even nmax) (hn : nmax < straddles ys c) : (xvalues xs ys c nmax).ok = false ∧ (xvalues xs ys c nmax).overrun = false := by
  match ys, h with
  | y :: ys, _ =>
    refine (xvLoop_over nmax c xs ys y {} (by simpa using hl) hne (fun _ => ⟨by simp, by simp⟩) (fun h => absurd h (not_lt.mpr (le_of_lt h1))) (Or.inr (by simp))
      (by simpa using hn)).2.2 ho (by simp) rfl

/-- With an even buffer size (`HPD1D` uses 10) every array starting below the level with more crossings than fit makes `xvalues` store beyond the end of its
buffer. -/
theorem C36_even_buffer_overrun (xs ys : List K) (c : K) (nmax : ℕ) (h : ys ≠ []) (hl : xs.length = ys.length) (hne : ∀ y ∈ ys, y ≠ c) (h1 : ys.head h < c)
    (ho : Even nmax) (hn : nmax < straddles ys c) : (xvalues xs ys c nmax).overrun = true := by
  match ys, h with
  | y :: ys, _ =>
    refine (xvLoop_over nmax c xs ys y {} (by simpa using hl) hne (fun _ => ⟨by simp, by simp⟩) (fun h => absurd h (not_lt.mpr (le_of_lt h1))) (Or.inr (by simp))
      (by simpa using hn)).2.1 ho

/-- A saw-tooth with 11 crossings of the level 1. -/
def saw11 : List ℚ := [0, 2, 0, 2, 0, 2, 0, 2, 0, 2, 0, 2]
/-- The same, ending below the level. -/
def saw12 : List ℚ := saw11 ++ [0]

/-- **C36 is violated** for too many crossings: with the buffer of 10 that `HPD1D` uses, 11 crossings are reported as success although a value was stored
beyond the end of the buffer; and a crossing exactly at a grid value is missed, so that an odd number is reported for an array with both ends below. -/
theorem C36_violated : (straddles saw11 1 = 11 ∧ (xvalues ((List.range 12).map fun i : ℕ => (i : ℚ)) saw11 1 10).ok = true ∧
      (xvalues ((List.range 12).map fun i : ℕ => (i : ℚ)) saw11 1 10).overrun = true) ∧
    xvalues [(0 : ℚ), 1, 2, 3] [0, 1, 2, 0] 1 10 = { nx := 1, vals := [5 / 2] } ∧ (xvalues [(0 : ℚ), 1, 2] [0, 1, 0] 1 10).nx = 0 := by
  refine ⟨⟨?_, ?_, ?_⟩, ?_, ?_⟩ <;> decide +kernel

/-- The hypotheses can be met: 12 crossings, both ends below. -/
example : (∀ y ∈ saw12, y ≠ 1) ∧ saw12.head (by decide) < 1 ∧ saw12.getLast (by decide) < 1 ∧ straddles saw12 1 = 12 ∧ straddles [(0 : ℚ), 2, 0] 1 = 2 ∧
    (xvalues ((List.range 13).map fun i : ℕ => (i : ℚ)) saw12 1 12).vals.length = 12 := by
  refine ⟨?_, ?_, ?_, ?_, ?_, ?_⟩ <;> decide +kernel

/-! ### C37 -/

theorem rowTrap_trap : ∀ l : List K, rowTrap l = trap l
  | [] => by simp [rowTrap, trap]
  | [_] => by simp [rowTrap, trap]
  | u :: v :: l => by rw [rowTrap, trap_cons, rowTrap_trap (v :: l)]; ring

/-- **C37.** At a level below all values of an array with rows of `ny` values, `qgt2d` is the sum over all cells of the mean of the four corner values. -/
theorem C37_full (a : List (List K)) (ny : ℕ) (crit : K) (h2 : 2 ≤ a.length) (hny : ∀ r ∈ a, r.length = ny) (h : ∀ r ∈ a, ∀ x ∈ r, crit < x) :
    qgt2d a crit = cornerSum a ny := by
  rw [qgt2d_rows crit h2, rowTrap_trap]
  unfold trap cornerSum
  rw [List.length_map]
  apply Finset.sum_congr rfl
  intro i hi
  have hi : i + 1 < a.length := by have := Finset.mem_range.mp hi; omega
  have g1 : a.getD i [] ∈ a := by rw [List.getD_eq_getElem _ _ (by omega)]; exact List.getElem_mem _
  have g2 : a.getD (i + 1) [] ∈ a := by rw [List.getD_eq_getElem _ _ hi]; exact List.getElem_mem _
  have e : ∀ j, (a.map fun r => qgt1d r crit).getD j 0 = qgt1d (a.getD j []) crit := by
    intro j
    rw [show (0 : K) = (fun r => qgt1d r crit) [] from rfl, List.getD_map]
  rw [e, e, qgt1d_full (h _ g1), qgt1d_full (h _ g2)]
  unfold trap
  rw [hny _ g1, hny _ g2, ← Finset.sum_add_distrib, Finset.sum_div]
  apply Finset.sum_congr rfl
  intro j _
  ring

/-- **C37.** For non-negative arrays the content does not increase with the level and is not negative. -/
theorem C37_monotone (a : List (List K)) (c c' : K) (h2 : 2 ≤ a.length) (h : ∀ r ∈ a, ∀ x ∈ r, 0 ≤ x) (hc : c ≤ c') :
    0 ≤ qgt2d a c' ∧ qgt2d a c' ≤ qgt2d a c := by
  rw [qgt2d_rows c h2, qgt2d_rows c' h2]
  refine ⟨?_, rowTrap_le _ _ a fun r hr => qgt1d_anti hc (h r hr)⟩
  have := rowTrap_le (fun _ => (0 : K)) (fun r => qgt1d r c') a fun r hr => qgt1d_nonneg (h r hr)
  rwa [rowTrap_zero _ _ (fun _ _ => rfl)] at this

/-- **C37.** It vanishes at and above the maximum. -/
theorem C37_zero (a : List (List K)) (c : K) (h2 : 2 ≤ a.length) (h : ∀ r ∈ a, ∀ x ∈ r, x ≤ c) : qgt2d a c = 0 := by
  rw [qgt2d_rows c h2]
  exact rowTrap_zero _ _ fun r hr => qgt1d_zero (h r hr)

/-- **C37, second half, is violated**: exchanging the two axes of the grid changes the content. -/
theorem C37_violated : qgt2d [[(2 : ℚ), 2], [0, 0]] 1 = 1 ∧ qgt2d [[(2 : ℚ), 0], [2, 0]] 1 = 3 / 4 := by
  refine ⟨?_, ?_⟩ <;> decide +kernel

example : (∀ r ∈ [[(1 : ℚ), 2, 3], [2, 4, 1]], r.length = 3) ∧ (∀ r ∈ [[(1 : ℚ), 2, 3], [2, 4, 1]], ∀ x ∈ r, 0 < x) ∧
    qgt2d [[(1 : ℚ), 2, 3], [2, 4, 1]] 0 = 19 / 4 := by
  refine ⟨?_, ?_, ?_⟩ <;> decide +kernel

end

/-- **C37.** `qgt2d` is exact along the rows and the trapezoid rule across them: if `ps` are the linear interpolants of the rows on a grid of spacing `dy`, and
`P` interpolates linearly, on the row positions with spacing `dx`, the integrals of the `ps` over where they exceed the level, then `qgt2d` times `dx dy` is the
integral of `P`.
Missing: the same content whichever axis is called x (`C37_violated`). -/
theorem C37_integral_partial (a : List (List ℝ)) (ny : ℕ) (crit xlo dx ylo dy : ℝ) (ps : List (ℝ → ℝ)) (P : ℝ → ℝ) (h2 : 2 ≤ a.length) (hdx : 0 < dx) (hdy : 0 < dy)
    (hny : ny ≠ 0) (hps : List.Forall₂ (fun r p => r.length = ny ∧ Interp (unif ylo dy ny) r p) a ps)
    (hP : Interp (unif xlo dx a.length) (ps.map fun p => ∫ y in ylo..(ylo + ((ny : ℝ) - 1) * dy), if crit < p y then p y else 0) P) :
    ∫ x in xlo..(xlo + ((a.length : ℝ) - 1) * dx), P x = dx * dy * qgt2d a crit := by
  have hrows : (ps.map fun p => ∫ y in ylo..(ylo + ((ny : ℝ) - 1) * dy), if crit < p y then p y else 0) = a.map fun r => dy * qgt1d r crit := by
    clear hP h2
    induction hps with
    | nil => rfl
    | cons h _ ih =>
      simp only [List.map_cons, ih]
      congr 1
      exact (interp_above hdy (unif_head hny) (unif_last hny) (unif_chain ylo dy _) h.2).2
  rw [hrows] at hP
  have hn : a.length ≠ 0 := by omega
  rw [(interp_integral (unif_head hn) (unif_last hn) (unif_increasing hdx _) hP).2.2, qgt2d_rows crit h2]
  have e : ∀ (l : List (List ℝ)) (xs : List ℝ), xs.length = l.length → xs.IsChain (fun s t => t - s = dx) →
      trapSum (diffs xs) (l.map fun r => dy * qgt1d r crit) = dx * dy * rowTrap (l.map fun r => qgt1d r crit) := by
    intro l
    induction l with
    | nil => intro xs h _; rw [List.length_eq_zero_iff.mp h]; simp [diffs, trapSum, rowTrap]
    | cons r l ih =>
      intro xs hl hc
      match l, xs, hl, hc, ih with
      | [], [x], _, _, _ => simp [diffs, trapSum, rowTrap]
      | q :: l, x :: y :: xs, hl, hc, ih =>
        have hc := List.isChain_cons_cons.mp hc
        have := ih (y :: xs) (by simpa using hl) hc.2
        simp only [List.map_cons] at this
        simp only [List.map_cons, diffs, trapSum, rowTrap, this, hc.1]
        ring
  exact e a _ (by simp [unif]) (unif_chain _ _ _)

/-- The interpolants asked for exist. -/
example : ∃ p q, List.Forall₂ (fun r p => r.length = 2 ∧ Interp (unif 0 1 2) r p) [[(2 : ℝ), 0], [1, 3]] [p, q] := by
  obtain ⟨p, hp⟩ := C34_interpolant_exists [2, 0] 0 1 (by simp) one_pos
  obtain ⟨q, hq⟩ := C34_interpolant_exists [1, 3] 0 1 (by simp) one_pos
  exact ⟨p, q, .cons ⟨rfl, hp⟩ (.cons ⟨rfl, hq⟩ .nil)⟩

end Verif.HPD
