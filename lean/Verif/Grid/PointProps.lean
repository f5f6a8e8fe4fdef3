import Verif.Grid.FillProps

/-!
# C94: the points of a grid by number
-/

set_option linter.unusedSectionVars false
set_option linter.unusedSimpArgs false

namespace Verif.Grid1
open Verif

section
variable {K : Type} [Field K] [LinearOrder K] [IsStrictOrderedRing K] [FloorRing K]

/-! ## Specification -/

/-- The abscissa of point `i` of a grid of `n` points over `lo`, `hi`. -/
def abscissaOf (c : LogExp K) (lo hi : K) (n : ℤ) (isLin : Bool) (i : ℤ) : K :=
  if isLin then lo + (i : K) * ((hi - lo) / ((n : K) - 1)) else lo * c.ex ((i : K) * (c.lg (hi / lo) / ((n : K) - 1)))

/-- The distance to the next point; zero at the last one. -/
def widthOf (c : LogExp K) (lo hi : K) (n : ℤ) (isLin : Bool) (i : ℤ) : K :=
  if i = n - 1 then 0 else abscissaOf c lo hi n isLin (i + 1) - abscissaOf c lo hi n isLin i

/-! ## Lemmas -/

theorem x_abscissaOf {c : LogExp K} {lo hi : K} {n : ℤ} {isLin rp : Bool} {g : BGrid K} (h : mkGrid c lo hi n isLin rp = .ok g) (hr : RangeOk c lo hi isLin) {i : ℤ} (h0 : 0 ≤ i) :
    g.x c i.toNat = abscissaOf c lo hi n isLin i := by
  obtain ⟨o1, o2, o3, o4, o5, o6, o7, o8⟩ := mkGrid_ok h hr.1 hr.2
  have hi : ((i.toNat : ℕ) : K) = (i : K) := by
    have : ((i.toNat : ℕ) : ℤ) = i := Int.toNat_of_nonneg h0
    exact_mod_cast congrArg (Int.cast (R := K)) this
  unfold BGrid.x abscissaOf
  rw [o5, o2, hi]
  cases isLin with
  | true => rw [if_pos rfl, if_pos rfl, o1.lin o5, o2, o3, o4]
  | false => rw [if_neg (by simp), if_neg (by simp), (o1.log o5).2.2, o2, o3, o4]

theorem point_lemma {c : LogExp K} {lo hi : K} {n : ℤ} {isLin rp : Bool} {g : BGrid K} (h : mkGrid c lo hi n isLin rp = .ok g) (hr : RangeOk c lo hi isLin) {b : BGrid K} (f : Option (K → K))
    (hn : b.n = g.n) (hl : b.isLin = g.isLin) (hs : b.step = g.step) (hx : b.lo = g.lo) (ha : b.absc = none ∨ b.absc = some (g.points c))
    (hv : b.vals = f.map fun f => (g.points c).map f) (i : ℤ) :
    b.point c i = if 0 ≤ i ∧ i < n then .ok (abscissaOf c lo hi n isLin i, widthOf c lo hi n isLin i, f.map fun f => f (abscissaOf c lo hi n isLin i)) else .error .value := by
  have hx' := fun j => x_abscissaOf (i := j) h hr
  obtain ⟨o1, o2, o3, o4, o5, o6, o7, o8⟩ := mkGrid_ok h hr.1 hr.2
  unfold BGrid.point
  rw [hn, o4]
  by_cases hin : 0 ≤ i ∧ i < n
  swap
  · rw [if_pos (by omega), if_neg hin]
  rw [if_neg (by omega), if_pos hin]
  have hlt : i.toNat < (g.points c).length := by unfold BGrid.points; simp [o4]; omega
  have hp : (g.points c)[i.toNat] = abscissaOf c lo hi n isLin i := by
    rw [← hx' i hin.1]; simp [BGrid.points]
  have e1 : (match b.absc with | none => b.x c i.toNat | some a => a.getD i.toNat 0) = abscissaOf c lo hi n isLin i := by
    rcases ha with ha | ha
    · rw [ha]
      dsimp only
      rw [← hx' i hin.1]
      unfold BGrid.x
      rw [hl, hs, hx]
    · rw [ha]
      dsimp only
      rw [List.getD_eq_getElem?_getD, List.getElem?_eq_getElem hlt, ← hp]
      rfl
  have e2 : (match b.vals with | none => none | some v => v[i.toNat]?) = f.map fun f => f (abscissaOf c lo hi n isLin i) := by
    rw [hv]
    cases f with
    | none => rfl
    | some f =>
      simp only [Option.map_some]
      rw [List.getElem?_map, List.getElem?_eq_getElem hlt, hp]
      rfl
  have e3 : (if i = n - 1 then 0 else if b.isLin = true then b.step else abscissaOf c lo hi n isLin i * (c.ex b.step - 1)) = widthOf c lo hi n isLin i := by
    unfold widthOf
    split_ifs with h1 h2
    · rfl
    · rw [hl, o5] at h2
      subst h2
      unfold abscissaOf
      rw [if_pos rfl, if_pos rfl, hs, o1.lin o5, o2, o3, o4]
      rw [Int.cast_add, Int.cast_one]; ring
    · rw [hl, o5] at h2
      have h2' : isLin = false := by simpa using h2
      subst h2'
      obtain ⟨g1, g2, g3⟩ := o1.log o5
      unfold abscissaOf
      rw [if_neg (by simp), if_neg (by simp), hs, g3, o2, o3, o4]
      have : ((i + 1 : ℤ) : K) * (c.lg (hi / lo) / ((n : K) - 1)) = (i : K) * (c.lg (hi / lo) / ((n : K) - 1)) + c.lg (hi / lo) / ((n : K) - 1) := by push_cast; ring
      rw [this, g1.ex_add]
      ring
  refine congrArg Except.ok (Prod.ext e1 (Prod.ext ?_ e2))
  refine Eq.trans ?_ e3
  rw [← e1]
  rfl

theorem filled_step (fn : Fns K) (g : BGrid K) (f : K → K) (l : Option (LML K (Label K))) (hs : (g.stepfunc fn f l).2 = none) :
    (g.stepfunc fn f l).1.1 = { g with vals := some ((g.points fn.toLogExp).map f) } := by
  cases l with
  | none => rw [stepfunc_none]; rfl
  | some l =>
    have h2 := (stepfunc_lml fn g f l).2
    rw [hs] at h2
    have : l.updates (g.allOffers fn f) = Verif.ok (l.updates (g.allOffers fn f)).1 := by
      generalize l.updates (g.allOffers fn f) = r at h2 ⊢
      obtain ⟨a, b⟩ := r
      rw [show b = none from h2.symm]
      rfl
    rw [stepfunc_some fn g f l this]
    rfl

/-! ## C94 -/

/-- **C94.** Before it is filled, `point(i)` of a grid gives for each number from 0 to n-1 the abscissa, the distance to the next point (zero at the last one) and no value; all other numbers are refused. -/
theorem C94_empty {c : LogExp K} {lo hi : K} {n : ℤ} {isLin rp : Bool} {g : BGrid K} (h : mkGrid c lo hi n isLin rp = .ok g) (hr : RangeOk c lo hi isLin) (i : ℤ) :
    g.point c i = if 0 ≤ i ∧ i < n then .ok (abscissaOf c lo hi n isLin i, widthOf c lo hi n isLin i, none) else .error .value := by
  obtain ⟨o1, o2, o3, o4, o5, o6, o7, o8⟩ := mkGrid_ok h hr.1 hr.2
  exact point_lemma h hr none rfl rfl rfl rfl (.inl o7) o8 i

/-- **C94.** After it is filled, point by point or with a vector function, `point(i)` also gives the value of the function at the abscissa. -/
theorem C94_filled (fn : Fns K) {lo hi : K} {n : ℤ} {isLin rp : Bool} {g : BGrid K} (h : mkGrid fn.toLogExp lo hi n isLin rp = .ok g) (hr : RangeOk fn.toLogExp lo hi isLin)
    (f : K → K) (l l' : Option (LML K (Label K))) (hs : (g.stepfunc fn f l).2 = none) (i : ℤ) :
    (g.stepfunc fn f l).1.1.point fn.toLogExp i = (if 0 ≤ i ∧ i < n then
      .ok (abscissaOf fn.toLogExp lo hi n isLin i, widthOf fn.toLogExp lo hi n isLin i, some (f (abscissaOf fn.toLogExp lo hi n isLin i))) else .error .value) ∧
    (g.vecfunc fn (List.map f) l').1.1.point fn.toLogExp i = (g.stepfunc fn f l).1.1.point fn.toLogExp i := by
  obtain ⟨o1, o2, o3, o4, o5, o6, o7, o8⟩ := mkGrid_ok h hr.1 hr.2
  have hve : (g.vecfunc fn (List.map f) l').1.1 = { g with absc := some (g.vecAbsc fn.toLogExp), vals := some ((g.vecAbsc fn.toLogExp).map f) } := by
    unfold BGrid.vecfunc
    cases l' with
    | none => rfl
    | some l =>
      dsimp only
      split_ifs <;> rfl
  rw [filled_step fn g f l hs, hve, o1.vecAbsc]
  have a := point_lemma h hr (b := { g with vals := some ((g.points fn.toLogExp).map f) }) (some f) rfl rfl rfl rfl (.inl o7) rfl i
  have b := point_lemma h hr (b := { g with absc := some (g.points fn.toLogExp), vals := some ((g.points fn.toLogExp).map f) }) (some f) rfl rfl rfl rfl (.inr rfl) rfl i
  exact ⟨a, b.trans a.symm⟩

/-- **C94.** The first point is at the lower limit, the last one at the upper limit, and the distances are positive: the points go up from one limit to the other. -/
theorem C94_ends {c : LogExp K} {lo hi : K} {n : ℤ} {isLin : Bool} (hn : 2 ≤ n) (hr : RangeOk c lo hi isLin) :
    abscissaOf c lo hi n isLin 0 = lo ∧ abscissaOf c lo hi n isLin (n - 1) = hi ∧ ∀ i, 0 ≤ i → i < n - 1 → 0 < widthOf c lo hi n isLin i := by
  have hn' : (0 : K) < (n : K) - 1 := by
    have : (2 : K) ≤ (n : K) := by exact_mod_cast hn
    linarith
  have hcast : ((n - 1 : ℤ) : K) = (n : K) - 1 := by push_cast; ring
  obtain ⟨r1, r2⟩ := hr
  unfold abscissaOf widthOf abscissaOf
  cases isLin with
  | true =>
    simp only [if_true, Int.cast_zero, zero_mul, add_zero, hcast, Int.cast_add, Int.cast_one]
    refine ⟨trivial, by field_simp; ring, fun i h0 h1 => ?_⟩
    rw [if_neg (by omega)]
    have : 0 < (hi - lo) / ((n : K) - 1) := div_pos (by linarith) hn'
    linarith
  | false =>
    obtain ⟨g1, g2⟩ := r2 rfl
    simp only [Bool.false_eq_true, if_false, Int.cast_zero, zero_mul, hcast, Int.cast_add, Int.cast_one, g1.ex_zero, mul_one]
    have hd : 0 < hi / lo := div_pos (lt_trans g2 r1) g2
    have hp : 0 < c.lg (hi / lo) := by
      by_contra hle
      push Not at hle
      have h1 : 1 < hi / lo := by rw [lt_div_iff₀ g2]; linarith
      rcases hle.lt_or_eq with h | h
      · have := g1.ex_mono _ _ h
        rw [g1.ex_lg _ hd, g1.ex_zero] at this
        linarith
      · have := g1.ex_lg _ hd
        rw [h, g1.ex_zero] at this
        linarith
    refine ⟨trivial, ?_, fun i h0 h1 => ?_⟩
    · rw [show ((n : K) - 1) * (c.lg (hi / lo) / ((n : K) - 1)) = c.lg (hi / lo) by field_simp, g1.ex_lg _ hd]
      field_simp
    · rw [if_neg (by omega)]
      have h2 := g1.ex_mono ((i : K) * (c.lg (hi / lo) / ((n : K) - 1))) (((i : K) + 1) * (c.lg (hi / lo) / ((n : K) - 1))) (by
        have : 0 < c.lg (hi / lo) / ((n : K) - 1) := div_pos hp hn'
        nlinarith)
      have := mul_lt_mul_of_pos_left h2 g2
      linarith

end

/-- The hypotheses can be met: five points over 0, 4. -/
example : ∃ g : BGrid ℚ, mkGrid (LogExp.mk id id) 0 4 5 true true = .ok g ∧ RangeOk (LogExp.mk id id) (0 : ℚ) 4 true ∧
    ((g.stepfunc (Fns.mk (LogExp.mk id id) id 1) (fun x => x * x) none).1.1.point (LogExp.mk id id) 3 = .ok (3, 1, some 9)) ∧
    ((g.stepfunc (Fns.mk (LogExp.mk id id) id 1) (fun x => x * x) none).1.1.point (LogExp.mk id id) 4 = .ok (4, 0, some 16)) ∧ g.point (LogExp.mk id id) 5 = .error .value :=
  ⟨_, rfl, ⟨by norm_num, by simp⟩, by decide +kernel, by decide +kernel, by decide +kernel⟩

end Verif.Grid1
