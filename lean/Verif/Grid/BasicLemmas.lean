import Verif.Grid.BasicGrid
import Verif.Grid.IntervalLemmas
import Verif.Grid.MaxListProps
import Verif.Grid.PeakProps

/-!
# One-dimensional grids: filling and quadrature (helper lemmas)
-/

set_option linter.unusedSectionVars false
set_option linter.unusedSimpArgs false

namespace Verif.Grid1

section
variable {K : Type} [Field K] [LinearOrder K] [IsStrictOrderedRing K] [FloorRing K]

/-! ### Filling -/

/-- The abscissas of a grid. -/
def BGrid.points (c : LogExp K) (g : BGrid K) : List K := (List.range g.n.toNat).map (g.x c)

/-- What is offered at index `i` when filling with `f`. -/
def BGrid.offersAt (fn : Fns K) (g : BGrid K) (f : K → K) (i : ℕ) : List (K × Label K) :=
  if i > 1 then
    g.offers fn i (g.x fn.toLogExp (i - 2)) (g.x fn.toLogExp (i - 1)) (g.x fn.toLogExp i)
      (f (g.x fn.toLogExp (i - 2))) (f (g.x fn.toLogExp (i - 1))) (f (g.x fn.toLogExp i))
  else []

/-- Everything that is offered when filling with `f`, in order. -/
def BGrid.allOffers (fn : Fns K) (g : BGrid K) (f : K → K) : List (K × Label K) := (List.range g.n.toNat).flatMap (g.offersAt fn f)

theorem updates_append {ι : Type} (s : LML K ι) (a b : List (K × ι)) : s.updates (a ++ b) = (s.updates a).andThen fun s => s.updates b := by
  induction a generalizing s with
  | nil => rfl
  | cons o a ih =>
    simp only [List.cons_append, LML.updates]
    generalize s.update o.1 o.2 = r
    obtain ⟨s1, _ | e⟩ := r
    · simp only [Res.andThen_ok]; exact ih s1
    · rfl

/-- The values after the first `i` passes. -/
def upto (f : K → K) (x : ℕ → K) (N i : ℕ) : List K := (List.range i).map (fun j => f (x j)) ++ List.replicate (N - i) 0

theorem upto_set (f : K → K) (x : ℕ → K) {N i : ℕ} (h : i < N) : (upto f x N i).set i (f (x i)) = upto f x N (i + 1) := by
  unfold upto
  have e : N - i = (N - (i + 1)) + 1 := by omega
  rw [e, List.replicate_succ, List.set_append_right _ _ (by simp), List.range_succ]
  simp

theorem upto_getD (f : K → K) (x : ℕ → K) {N i j : ℕ} (h : j < i) : (upto f x N i).getD j 0 = f (x j) := by
  unfold upto
  rw [List.getD_eq_getElem?_getD, List.getElem?_append_left (by simpa using h)]
  simp [h]

theorem stepLoop_spec (fn : Fns K) (g : BGrid K) (f : K → K) (N : ℕ) : ∀ (k i : ℕ), i + k = N → ∀ lml : Option (LML K (Label K)),
    match lml with
    | none => g.stepLoop fn f i k (upto f (g.x fn.toLogExp) N i, none) = ok (upto f (g.x fn.toLogExp) N N, none)
    | some l =>
      ∃ v, g.stepLoop fn f i k (upto f (g.x fn.toLogExp) N i, some l) =
        ((v, some (l.updates ((List.range' i k).flatMap (g.offersAt fn f))).1), (l.updates ((List.range' i k).flatMap (g.offersAt fn f))).2) ∧
        ((l.updates ((List.range' i k).flatMap (g.offersAt fn f))).2 = none → v = upto f (g.x fn.toLogExp) N N) := by
  intro k
  induction k with
  | zero =>
    intro i hi lml
    obtain rfl : i = N := by omega
    cases lml with
    | none => rfl
    | some l => exact ⟨_, rfl, fun _ => rfl⟩
  | succ k ih =>
    intro i hi lml
    have hlt : i < N := by omega
    have one : ∀ lml, g.stepOne fn f i (upto f (g.x fn.toLogExp) N i, lml) = Fill.offer (upto f (g.x fn.toLogExp) N (i + 1), lml) (g.offersAt fn f i) := by
      intro lml
      unfold BGrid.stepOne BGrid.offersAt
      dsimp only
      rw [upto_set f _ hlt]
      by_cases h1 : i > 1
      · rw [if_pos h1, if_pos h1, upto_getD _ _ (by omega), upto_getD _ _ (by omega), upto_getD _ _ (by omega)]
      · rw [if_neg h1, if_neg h1]
        cases lml <;> rfl
    have h := ih (i + 1) (by omega)
    cases lml with
    | none =>
      unfold BGrid.stepLoop
      rw [one]
      exact h none
    | some l =>
      dsimp only
      rw [List.range'_succ, List.flatMap_cons, updates_append]
      unfold BGrid.stepLoop
      rw [one]
      unfold Fill.offer
      dsimp only
      generalize l.updates (g.offersAt fn f i) = r
      obtain ⟨l1, _ | e⟩ := r
      · simp only [Res.andThen_ok]
        exact h (some l1)
      · exact ⟨_, rfl, fun h => by simp at h⟩

theorem points_map (fn : Fns K) (g : BGrid K) (f : K → K) : upto f (g.x fn.toLogExp) g.n.toNat g.n.toNat = (g.points fn.toLogExp).map f := by
  unfold upto BGrid.points
  simp

theorem upto_zero (f : K → K) (x : ℕ → K) (N : ℕ) : upto f x N 0 = List.replicate N 0 := by simp [upto]

/-- Filling without a list of maxima. -/
theorem stepfunc_none (fn : Fns K) (g : BGrid K) (f : K → K) :
    g.stepfunc fn f none = ok ({ g with vals := some ((g.points fn.toLogExp).map f) }, none) := by
  have h := stepLoop_spec fn g f g.n.toNat g.n.toNat 0 (by omega) none
  dsimp only at h
  rw [upto_zero] at h
  unfold BGrid.stepfunc
  rw [h, ← points_map]
  rfl

/-- Filling with a list of maxima. -/
theorem stepfunc_some (fn : Fns K) (g : BGrid K) (f : K → K) (l : LML K (Label K)) {l' : LML K (Label K)} (hl : l.updates (g.allOffers fn f) = ok l') :
    g.stepfunc fn f (some l) = ok ({ g with vals := some ((g.points fn.toLogExp).map f) }, some l') := by
  obtain ⟨v, h1, h2⟩ := stepLoop_spec fn g f g.n.toNat g.n.toNat 0 (by omega) (some l)
  rw [upto_zero] at h1
  have e : (List.range' 0 g.n.toNat).flatMap (g.offersAt fn f) = g.allOffers fn f := by
    unfold BGrid.allOffers; rw [List.range_eq_range']
  rw [e, hl] at h1
  rw [e, hl] at h2
  unfold BGrid.stepfunc
  rw [h1, h2 rfl, points_map]
  rfl

/-- In any case: what happens to the list of maxima. -/
theorem stepfunc_lml (fn : Fns K) (g : BGrid K) (f : K → K) (l : LML K (Label K)) :
    (g.stepfunc fn f (some l)).1.2 = some (l.updates (g.allOffers fn f)).1 ∧ (g.stepfunc fn f (some l)).2 = (l.updates (g.allOffers fn f)).2 := by
  obtain ⟨v, h1, h2⟩ := stepLoop_spec fn g f g.n.toNat g.n.toNat 0 (by omega) (some l)
  rw [upto_zero] at h1
  have e : (List.range' 0 g.n.toNat).flatMap (g.offersAt fn f) = g.allOffers fn f := by
    unfold BGrid.allOffers; rw [List.range_eq_range']
  rw [e] at h1
  unfold BGrid.stepfunc
  rw [h1]
  exact ⟨rfl, rfl⟩

/-! ### Points -/

/-- A grid as the constructor makes it. -/
structure GOk (c : LogExp K) (g : BGrid K) : Prop where
  n : 2 ≤ g.n
  lt : g.lo < g.hi
  lin : g.isLin = true → g.step = (g.hi - g.lo) / ((g.n : K) - 1)
  log : g.isLin = false → LogOk c ∧ 0 < g.lo ∧ g.step = c.lg (g.hi / g.lo) / ((g.n : K) - 1)

theorem mkGrid_ok {c : LogExp K} {lo hi : K} {n : ℤ} {isLin rp : Bool} {g : BGrid K} (h : mkGrid c lo hi n isLin rp = .ok g) (hlt : lo < hi)
    (hlog : isLin = false → LogOk c ∧ 0 < lo) :
    GOk c g ∧ g.lo = lo ∧ g.hi = hi ∧ g.n = n ∧ g.isLin = isLin ∧ g.rankPeak = rp ∧ g.absc = none ∧ g.vals = none := by
  unfold mkGrid at h
  by_cases h1 : n ≤ 1
  · rw [if_pos h1] at h; cases h
  rw [if_neg h1] at h
  by_cases h2 : isLin = false ∧ lo * hi ≤ 0
  · rw [if_pos h2] at h; cases h
  rw [if_neg h2] at h
  injection h with h
  subst h
  refine ⟨⟨by dsimp only; omega, hlt, ?_, ?_⟩, rfl, rfl, rfl, rfl, rfl, rfl, rfl⟩
  · intro hl
    dsimp only at hl ⊢
    rw [if_pos hl]
  · intro hl
    dsimp only at hl ⊢
    refine ⟨(hlog hl).1, (hlog hl).2, ?_⟩
    rw [if_neg (by simp [hl])]

theorem GOk.nm1 {c : LogExp K} {g : BGrid K} (h : GOk c g) : (0 : K) < (g.n : K) - 1 := by
  have : ((2 : ℤ) : K) ≤ (g.n : K) := by exact_mod_cast h.n
  push_cast at this; linarith

/-- The interval of a grid. -/
def BGrid.intv (c : LogExp K) (g : BGrid K) : Intv K := { lo := g.lo, hi := g.hi, n := g.n, isLin := g.isLin, step := g.step, fac := c.ex g.step }

theorem GOk.good {c : LogExp K} {g : BGrid K} (h : GOk c g) : Good c (g.intv c) :=
  ⟨h.lt, h.n, h.lin, fun hl => ⟨(h.log hl).1, (h.log hl).2.1, (h.log hl).2.2, rfl⟩⟩

theorem GOk.step_pos {c : LogExp K} {g : BGrid K} (h : GOk c g) : 0 < g.step := h.good.step_pos

theorem GOk.x_zero {c : LogExp K} {g : BGrid K} (h : GOk c g) : g.x c 0 = g.lo := by
  unfold BGrid.x
  split_ifs with hl
  · simp
  · have := (h.log (by simpa using hl)).1.ex_zero
    simp [this]

theorem GOk.x_last {c : LogExp K} {g : BGrid K} (h : GOk c g) : g.x c (g.n.toNat - 1) = g.hi := by
  have hn := h.n
  have e : ((g.n.toNat - 1 : ℕ) : K) = (g.n : K) - 1 := by
    have : ((g.n.toNat - 1 : ℕ) : ℤ) = g.n - 1 := by omega
    have h2 : (((g.n.toNat - 1 : ℕ) : ℤ) : K) = ((g.n - 1 : ℤ) : K) := by rw [this]
    push_cast at h2
    simpa using h2
  have hp := ne_of_gt h.nm1
  unfold BGrid.x
  rw [e]
  split_ifs with hl
  · rw [h.lin hl]; field_simp; ring
  · obtain ⟨hc, h0, hs⟩ := h.log (by simpa using hl)
    rw [hs]
    have : ((g.n : K) - 1) * (c.lg (g.hi / g.lo) / ((g.n : K) - 1)) = c.lg (g.hi / g.lo) := by field_simp
    rw [this, hc.ex_lg _ (div_pos (by linarith [h.lt]) h0)]
    field_simp

theorem GOk.x_mono {c : LogExp K} {g : BGrid K} (h : GOk c g) {i j : ℕ} (hij : i < j) : g.x c i < g.x c j := by
  have hs := h.step_pos
  have hij' : (i : K) < (j : K) := by exact_mod_cast hij
  have hm : (i : K) * g.step < (j : K) * g.step := mul_lt_mul_of_pos_right hij' hs
  unfold BGrid.x
  split_ifs with hl
  · linarith
  · obtain ⟨hc, h0, _⟩ := h.log (by simpa using hl)
    exact mul_lt_mul_of_pos_left (hc.ex_mono _ _ hm) h0

theorem points_length (c : LogExp K) (g : BGrid K) : (g.points c).length = g.n.toNat := by simp [BGrid.points]

theorem GOk.sorted {c : LogExp K} {g : BGrid K} (h : GOk c g) : (g.points c).Pairwise (· < ·) := by
  unfold BGrid.points
  rw [List.pairwise_map]
  exact List.Pairwise.imp (fun {a b} hab => h.x_mono hab) List.pairwise_lt_range

/-- The abscissas of `vecfunc` are the same. -/
theorem GOk.vecAbsc {c : LogExp K} {g : BGrid K} (h : GOk c g) : g.vecAbsc c = g.points c := by
  unfold BGrid.vecAbsc BGrid.points
  have hn := h.n
  rw [← h.x_last]
  have hlt : g.n.toNat - 1 < ((List.range g.n.toNat).map (g.x c)).length := by simp; omega
  have : g.x c (g.n.toNat - 1) = ((List.range g.n.toNat).map (g.x c))[g.n.toNat - 1] := by simp
  rw [this, List.set_getElem_self]

/-! ### Trapezoids -/

theorem trapSum_const (s : K) : ∀ (v : List K) (m : ℕ), v.length = m + 1 → trapSum (List.replicate m s) v = s * (v.sum - 1 / 2 * (v.headD 0 + v.getLastD 0))
  | [], _, h => by simp at h
  | [a], m, h => by
    obtain rfl : m = 0 := by simpa using h.symm
    have : ([a] : List K).sum - 1 / 2 * (([a] : List K).headD 0 + ([a] : List K).getLastD 0) = 0 := by simp; ring
    rw [this]; simp [trapSum]
  | a :: b :: l, m, h => by
    obtain ⟨m, rfl⟩ : ∃ k, m = k + 1 := ⟨m - 1, by simp at h; omega⟩
    have ih := trapSum_const s (b :: l) m (by simp at h ⊢; omega)
    rw [List.replicate_succ, trapSum, ih]
    have e : (a :: b :: l).getLastD 0 = (b :: l).getLastD 0 := by simp [List.getLastD]
    rw [e]
    simp only [List.sum_cons, List.headD_cons]
    ring

theorem diffs_length : ∀ l : List K, (diffs l).length = l.length - 1
  | [] => rfl
  | [_] => rfl
  | a :: b :: l => by
    rw [diffs, List.length_cons, diffs_length (b :: l)]
    simp

theorem diffs_range (lo st : K) : ∀ (m i : ℕ), diffs ((List.range' i (m + 1)).map fun j : ℕ => lo + j * st) = List.replicate m st
  | 0, i => by simp [diffs]
  | m + 1, i => by
    rw [List.range'_succ, List.range'_succ]
    simp only [List.map_cons, diffs]
    rw [List.replicate_succ]
    have ih := diffs_range lo st m (i + 1)
    rw [List.range'_succ] at ih
    simp only [List.map_cons] at ih
    rw [ih]
    congr 1
    push_cast
    ring

theorem GOk.diffs_lin {c : LogExp K} {g : BGrid K} (h : GOk c g) (hl : g.isLin = true) : diffs (g.points c) = List.replicate (g.n - 1).toNat g.step := by
  have hn := h.n
  unfold BGrid.points
  have e : g.n.toNat = (g.n - 1).toNat + 1 := by omega
  rw [e, List.range_eq_range', ← diffs_range g.lo g.step (g.n - 1).toNat 0]
  congr 1
  apply List.map_congr_left
  intro j _
  unfold BGrid.x
  rw [if_pos hl]

/-- A grid whose stored abscissas, if any, are its points, and whose values are given. -/
structure FOk (c : LogExp K) (g : BGrid K) (v : List K) : Prop where
  ok : GOk c g
  absc : g.absc = none ∨ g.absc = some (g.points c)
  vals : g.vals = some v
  len : v.length = g.n.toNat

theorem FOk.logWidths {c : LogExp K} {g : BGrid K} {v : List K} (h : FOk c g v) (hl : g.isLin = false) : g.logWidths c = diffs (g.points c) := by
  unfold BGrid.logWidths
  rcases h.absc with e | e
  · rw [e]
    dsimp only
    unfold BGrid.points
    congr 1
    apply List.map_congr_left
    intro j _
    unfold BGrid.x
    rw [if_neg (by simp [hl])]
  · rw [e]

theorem FOk.widths {c : LogExp K} {g : BGrid K} {v : List K} (h : FOk c g v) : g.widths c = diffs (g.points c) := by
  unfold BGrid.widths
  cases hl : g.isLin with
  | true => rw [if_pos rfl, h.ok.diffs_lin hl]
  | false => simp only [Bool.false_eq_true, if_false]; exact h.logWidths hl

theorem FOk.abscissas {c : LogExp K} {g : BGrid K} {v : List K} (h : FOk c g v) : g.abscissas c = g.points c := by
  unfold BGrid.abscissas
  rcases h.absc with e | e <;> rw [e]
  rfl

/-- The trapezoid rule. -/
theorem FOk.trapzd {c : LogExp K} {g : BGrid K} {v : List K} (h : FOk c g v) : g.trapzd c = .ok (trapSum (diffs (g.points c)) v) := by
  unfold BGrid.trapzd
  rw [h.vals]
  dsimp only
  cases hl : g.isLin with
  | true =>
    rw [if_pos rfl, h.ok.diffs_lin hl, trapSum_const _ _ _ (by rw [h.len]; have := h.ok.n; omega)]
  | false =>
    simp only [Bool.false_eq_true, if_false]
    rw [h.logWidths hl]

end
end Verif.Grid1
