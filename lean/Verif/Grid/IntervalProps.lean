import Verif.Grid.IntervalNum
import Mathlib.Data.Rat.Floor
import Mathlib.Analysis.SpecialFunctions.Log.Basic
import Mathlib.Analysis.Complex.ExponentialBounds

/-!
# C26-C30: refined interval lists

Specification vocabulary: `Tiles a l b` (in `IntervalLemmas`: the intervals begin at `a`, each is non-empty and begins where the
previous one ends, and the last ends at `b`), `Intv.has` (an abscissa lies in an interval, lower end included), and the list
of grid points below.

`Reached c lo hi n isLin s` says that `s` is obtained from a new list for the base range `[lo, hi]` with `n` points by any
sequence of `update` calls, whatever they raise, each of which asks for at least one point.
-/

set_option linter.unusedSectionVars false
set_option linter.unusedSimpArgs false

namespace Verif.Grid1

/-- The real logarithm and exponential. -/
noncomputable def realLog : LogExp ℝ := ⟨Real.log, Real.exp⟩

theorem realLog_ok : LogOk realLog :=
  ⟨Real.exp_zero, Real.exp_pos, Real.exp_add, fun _ _ h => Real.exp_lt_exp.mpr h, fun _ h => Real.exp_log h⟩

section
variable {K : Type} [Field K] [LinearOrder K] [IsStrictOrderedRing K] [FloorRing K]

/-- Lists made by any history of `update` calls. -/
def Reached (c : LogExp K) (lo hi : K) (n : ℤ) (isLin : Bool) (s : RIL K) : Prop :=
  ∃ s0 ops, RIL.init c lo hi n isLin = .ok s0 ∧ (∀ o ∈ ops, 1 ≤ o.2.2) ∧ s = s0.run c ops

/-- Ranges for which the constructor's caller gets a list in the direction of the arguments: any `lo < hi` for linear sampling, and
`0 < lo < hi` for logarithmic sampling. -/
def RangeOk (c : LogExp K) (lo hi : K) (isLin : Bool) : Prop := lo < hi ∧ (isLin = false → LogOk c ∧ 0 < lo)

theorem reached_inv {c : LogExp K} {lo hi : K} {n : ℤ} {isLin : Bool} {s : RIL K} (h : Reached c lo hi n isLin s) (hr : RangeOk c lo hi isLin) :
    RInv c s ∧ s.isPos = true ∧ s.lo = lo ∧ s.hi = hi ∧ s.isLin = isLin ∧ s.base.lo = lo ∧ s.base.hi = hi ∧ s.base.n = n ∧
      (isLin = true → s.base.step = (hi - lo) / ((n : K) - 1)) := by
  obtain ⟨s0, ops, h0, hn, rfl⟩ := h
  obtain ⟨i1, i2, i3, i4, i5, i6, i7, i8, i9⟩ := init_inv h0 hr.1 hr.2
  obtain ⟨j1, j2, j3, j4, j5, j6⟩ := run_inv (ops := ops) i1 i2 hn
  refine ⟨j1, j2.trans i2, j3.trans i3, j4.trans i4, j5.trans i5, by rw [j6]; exact i8, by rw [j6]; exact i9, by rw [j6]; exact i7, fun hl => ?_⟩
  rw [j6]
  have hb : s0.base ∈ s0.ilist := by rw [i6]; simp
  rw [(i1.good _ hb).lin (i1.lin (i5.trans hl) _ hb), i7, i8, i9]

/-! ### C26 -/

/-- **C26.** (Missing: requests for zero or fewer points, see `C26_violated`, and logarithmic lists with negative bounds.) After any sequence of refinements the intervals tile the base range: no gaps, no overlaps, in order. -/
theorem C26_tiling_partial {c : LogExp K} {lo hi : K} {n : ℤ} {isLin : Bool} {s : RIL K} (h : Reached c lo hi n isLin s) (hr : RangeOk c lo hi isLin) :
    Tiles lo s.ilist hi ∧ (∀ I ∈ s.ilist, 2 ≤ I.n ∧ (I.isLin = true → I.lo + ((I.n : K) - 1) * I.step = I.hi)) ∧
    (∀ x, lo ≤ x → x < hi → ∃! I, I ∈ s.ilist ∧ I.lo ≤ x ∧ x < I.hi) := by
  obtain ⟨i1, _, i3, i4, _⟩ := reached_inv h hr
  have ht : Tiles lo s.ilist hi := by rw [← i3, ← i4]; exact i1.tiles
  refine ⟨ht, fun I hI => ⟨(i1.good I hI).n, fun hl => by rw [(i1.good I hI).span hl]; ring⟩, fun x h1 h2 => ?_⟩
  obtain ⟨I, hI, hx⟩ := tiles_cover ht h1 h2
  exact ⟨I, ⟨hI, hx⟩, fun J hJ => tiles_unique ht hJ.1 hI hJ.2 hx⟩

/-- **C26.** A refinement asking for at least two points is accepted exactly if its range meets the base range in more than a point;
otherwise it raises `ValueError` and changes nothing. -/
theorem C26_accepted {c : LogExp K} {lo hi : K} {n : ℤ} {isLin : Bool} {s : RIL K} (h : Reached c lo hi n isLin s) (hr : RangeOk c lo hi isLin)
    (u v : K) {m : ℤ} (hm : 2 ≤ m) :
    (max u lo < min v hi → (s.update c u v m).2 = none) ∧ (min v hi ≤ max u lo → s.update c u v m = (s, some .value)) := by
  obtain ⟨i1, i2, i3, i4, _⟩ := reached_inv h hr
  constructor
  · intro hlt
    obtain ⟨s', e, _⟩ := update_spec i1 i2 u v hm (by rw [i3, i4]; exact hlt)
    rw [e]; rfl
  · intro hle
    exact update_empty i2 u v m (by rw [i3, i4]; exact hle)

/-- The list of the witnesses below: `[0, 10]` with 11 points. -/
def demo : RIL ℚ := ⟨true, 0, 10, true, ⟨0, 10, 11, true, 1, 0⟩, [⟨0, 10, 11, true, 1, 0⟩], 11, [11]⟩

/-- No use is made of logarithms in linear lists. -/
def noLog : LogExp ℚ := ⟨id, id⟩

theorem demo_init : RIL.init noLog 0 10 11 true = .ok demo := by
  have e : ((10 : ℚ) - 0) / (((11 : ℤ) : ℚ) - 1) = 1 := by norm_num
  simp [RIL.init, mkIntv, demo]
  norm_num

/-- **C26, violated** without the restriction to at least one point: refining `[3, 5]` of `[0, 10]` with `n = 0` raises, but the interval
that contained the range has been removed: 7 is now in no interval, and looking it up never ends. -/
theorem C26_violated : ∃ s0 s : RIL ℚ, RIL.init noLog 0 10 11 true = .ok s0 ∧ s0.update noLog 3 5 0 = (s, some .value) ∧
    ¬ Tiles 0 s.ilist 10 ∧ (∀ I ∈ s.ilist, ¬ (I.lo ≤ 7 ∧ 7 ≤ I.hi)) ∧ (∀ fuel, s.locate 7 fuel = none) := by
  refine ⟨demo, (demo.update noLog 3 5 0).1, demo_init, ?_⟩
  have hl : (demo.update noLog 3 5 0).1.ilist = [⟨0, 3, 4, true, 1, 0⟩] := by decide +kernel
  have hlo : (demo.update noLog 3 5 0).1.lo = 0 := by decide +kernel
  have hhi : (demo.update noLog 3 5 0).1.hi = 10 := by decide +kernel
  have he : (demo.update noLog 3 5 0).2 = some .value := by decide +kernel
  refine ⟨Prod.ext rfl he, ?_, ?_, ?_⟩
  · rw [hl]
    rintro ⟨_, _, h⟩
    have : (3 : ℚ) = 10 := h
    norm_num at this
  · rw [hl]
    intro I hI
    rw [List.mem_singleton.mp hI]
    norm_num
  · intro fuel
    unfold RIL.locate
    rw [hl, hlo, hhi, if_neg (by norm_num), if_neg (by norm_num)]
    change locateLoop _ 7 fuel 0 1 = none
    induction fuel with
    | zero => rfl
    | succ fuel ih =>
      unfold locateLoop
      simp only [Nat.reduceAdd, Nat.reduceDiv, List.getElem?_cons_zero]
      rw [if_neg (by norm_num), if_neg (by norm_num)]
      exact ih

/-- Non-vacuity: three refinements, the last across several intervals. -/
example : ∃ s, Reached noLog 0 10 11 true s ∧ RangeOk noLog (0 : ℚ) 10 true ∧ s.ilist.length = 4 :=
  ⟨demo.run noLog [(3, 5, 9), (7, 8, 11), (4, 15 / 2, 36)], ⟨demo, _, demo_init, by decide, rfl⟩, ⟨by norm_num, by simp⟩, by decide +kernel⟩

/-! ### C27 -/

/-- **C27.** (Missing, here and in the next theorems: logarithmic lists, see `C27_violated`.) However a linear list was refined, no interval is coarser than the base interval. -/
theorem C27_base_partial {c : LogExp K} {lo hi : K} {n : ℤ} {s : RIL K} (h : Reached c lo hi n true s) (hlt : lo < hi) :
    ∀ I ∈ s.ilist, 0 < I.step ∧ I.step ≤ (hi - lo) / ((n : K) - 1) := by
  obtain ⟨i1, _, _, _, i5, _, _, _, i9⟩ := reached_inv h ⟨hlt, by simp⟩
  intro I hI
  exact ⟨(i1.good I hI).step_pos, by rw [← i9 rfl]; exact i1.base i5 I hI⟩

/-- **C27.** A refinement never makes the grid coarser anywhere: at every abscissa the step after the call, whether it raised or not, is
at most the step before.
Missing: logarithmic lists (`C27_violated`). -/
theorem C27_never_coarser_partial {c : LogExp K} {lo hi : K} {n : ℤ} {s : RIL K} (h : Reached c lo hi n true s) (hlt : lo < hi) (u v : K) {m : ℤ} (hm : 1 ≤ m)
    {I M : Intv K} (hI : I ∈ s.ilist) (hM : M ∈ (s.update c u v m).1.ilist) {x : K} (h1 : I.has x) (h2 : M.has x) : M.step ≤ I.step := by
  obtain ⟨i1, i2, i3, i4, i5, _⟩ := reached_inv h ⟨hlt, by simp⟩
  have same : ∀ M ∈ s.ilist, M.has x → M.step ≤ I.step := fun M hM h2 => by rw [tiles_unique i1.tiles hM hI h2 h1]
  by_cases hc : max u s.lo < min v s.hi
  · by_cases h1' : m = 1
    · subst h1'; rw [update_one i1 i2 u v hc] at hM; exact same M hM h2
    · obtain ⟨s', e, _, _, hu⟩ := update_spec i1 i2 u v (show 2 ≤ m by omega) hc
      rw [e] at hM
      obtain ⟨_, _, _, _, _, _, _, _, _, _, _, _, _, _, _, _, _, _, _, hrel⟩ := hu i5
      exact hrel.fine I hI M hM x h1 h2
  · rw [update_empty i2 u v m (not_lt.mp hc)] at hM; exact same M hM h2

/-- **C27.** Inside the refined region the step is at most the requested one, if the requested step is more than a fifth of the step
of the interval in which the region begins; otherwise it is at most the step that the requested number of points gives on the region widened to whole
cells of the old grid, which adds less than one old step at each end.
Missing: logarithmic lists (`C27_violated`). -/
theorem C27_requested_partial {c : LogExp K} {lo hi : K} {n : ℤ} {s : RIL K} (h : Reached c lo hi n true s) (hlt : lo < hi) (u v : K) {m : ℤ} (hm : 2 ≤ m)
    (hc : max u lo < min v hi) :
    ∃ I ∈ s.ilist, ∃ J ∈ s.ilist, I.has (max u lo) ∧ J.lo < min v hi ∧ min v hi ≤ J.hi ∧
    ∀ M ∈ (s.update c u v m).1.ilist, ∀ x, M.has x → max u lo ≤ x → x < min v hi →
      (I.step < 5 * ((min v hi - max u lo) / ((m : K) - 1)) → M.step ≤ (min v hi - max u lo) / ((m : K) - 1)) ∧
      (M.step ≤ (min v hi - max u lo + I.step + J.step) / ((m : K) - 1)) := by
  obtain ⟨i1, i2, i3, i4, i5, _⟩ := reached_inv h ⟨hlt, by simp⟩
  rw [← i3, ← i4] at hc ⊢
  obtain ⟨s', e, _, _, hu⟩ := update_spec i1 i2 u v hm hc
  rw [e]
  obtain ⟨I, hI, J, hJ, lo2, hi2, step, a1, a2, a3, a4, a5, a6, a7, a8, _, _, a9, a10, hrel⟩ := hu i5
  have hm1 : (0 : K) < (m : K) - 1 := by
    have : ((2 : ℤ) : K) ≤ (m : K) := by exact_mod_cast hm
    push_cast at this; linarith
  refine ⟨I, hI, J, hJ, ⟨a1, a2⟩, a3, a4, fun M hM x hx h1 h2 => ?_⟩
  have hle := hrel.req M hM x hx (by linarith) (by linarith)
  refine ⟨fun hcond => le_trans hle (a9 hcond), ?_⟩
  have hIs := (i1.good I hI).step_pos
  have hJs := (i1.good J hJ).step_pos
  by_cases hcond : I.step < 5 * ((min v s.hi - max u s.lo) / ((m : K) - 1))
  · refine le_trans (le_trans hle (a9 hcond)) ?_
    rw [div_le_div_iff_of_pos_right hm1]; linarith
  · rw [a10 (not_lt.mp hcond)] at hle
    refine le_trans hle ?_
    rw [div_le_div_iff_of_pos_right hm1]; linarith

/-- **C27.** Away from the refined region, more than one old step from it, the step does not change.
Missing: logarithmic lists (`C27_violated`). -/
theorem C27_elsewhere_partial {c : LogExp K} {lo hi : K} {n : ℤ} {s : RIL K} (h : Reached c lo hi n true s) (hlt : lo < hi) (u v : K) {m : ℤ} (hm : 2 ≤ m)
    {I M : Intv K} (hI : I ∈ s.ilist) (hM : M ∈ (s.update c u v m).1.ilist) {x : K} (h1 : I.has x) (h2 : M.has x)
    (hx : x ≤ max u lo - (hi - lo) / ((n : K) - 1) ∨ min v hi + (hi - lo) / ((n : K) - 1) ≤ x) : M.step = I.step := by
  have hbase := C27_base_partial h hlt
  obtain ⟨i1, i2, i3, i4, i5, _⟩ := reached_inv h ⟨hlt, by simp⟩
  by_cases hc : max u s.lo < min v s.hi
  · obtain ⟨s', e, _, _, hu⟩ := update_spec i1 i2 u v hm hc
    rw [e] at hM
    obtain ⟨I', hI', J, hJ, lo2, hi2, step, a1, a2, a3, a4, a5, a6, a7, a8, _, _, a9, a10, hrel⟩ := hu i5
    refine hrel.out I hI M hM x h1 h2 ?_
    have b1 := (hbase I' hI').2
    have b2 := (hbase J hJ).2
    rw [i3, i4] at *
    rcases hx with hx | hx
    · left; linarith
    · right; linarith
  · rw [update_empty i2 u v m (not_lt.mp hc)] at hM
    rw [tiles_unique i1.tiles hM hI h2 h1]

/-- Non-vacuity: requests above and below a fifth of the old step. -/
example : (demo.update noLog 3 5 5).1.ilist.map (fun I => I.step) = [1, 1 / 2, 1] ∧
    (demo.update noLog (7 / 2) (9 / 2) 11).1.ilist.map (fun I => (I.lo, I.hi, I.step)) = [(0, 3, 1), (3, 5, 1 / 5), (5, 10, 1)] := by
  decide +kernel

/-- **C27, violated** for logarithmic lists: `[1, e^10]` with 11 points has its second point at `e`; refining only `[e^8, e^9]`
replaces everything below by *linear* steps, and the interval that begins at 1 then has its second point beyond `e`. -/
theorem C27_violated : ∃ s : RIL ℝ, RIL.init realLog 1 (Real.exp 10) 11 false = .ok s ∧ s.ilist = [s.base] ∧ s.base.pt realLog 1 = Real.exp 1 ∧
    ∃ s', s.update realLog (Real.exp 8) (Real.exp 9) 11 = (s', none) ∧
    ∃ M ∈ s'.ilist, M.lo = 1 ∧ M.isLin = true ∧ Real.exp 1 < M.pt realLog 1 := by
  have hn : ¬ ((11 : ℤ) ≤ 1) := by norm_num
  have h10 : (1 : ℝ) < Real.exp 10 := Real.one_lt_exp_iff.mpr (by norm_num)
  have hb : mkIntv realLog 1 (Real.exp 10) 11 false = .ok ⟨1, Real.exp 10, 11, false, 1, Real.exp 1⟩ := by
    unfold mkIntv
    have : Real.log (Real.exp 10 / 1) / (((11 : ℤ) : ℝ) - 1) = 1 := by rw [div_one, Real.log_exp]; norm_num
    rw [if_neg hn]
    simp only [Bool.false_eq_true, if_false]
    rw [if_neg (by linarith)]
    simp only [realLog, this]
  have h0 : RIL.init realLog 1 (Real.exp 10) 11 false = .ok ⟨true, 1, Real.exp 10, false, ⟨1, Real.exp 10, 11, false, 1, Real.exp 1⟩,
      [⟨1, Real.exp 10, 11, false, 1, Real.exp 1⟩], 11, [11]⟩ := by
    unfold RIL.init
    rw [if_neg hn, if_neg (ne_of_lt h10)]
    simp only [decide_eq_true h10, if_true]
    rw [if_neg (by rintro ⟨_, h⟩; linarith), hb]
  obtain ⟨i1, i2, _⟩ := init_inv h0 h10 (fun _ => ⟨realLog_ok, one_pos⟩)
  set I : Intv ℝ := ⟨1, Real.exp 10, 11, false, 1, Real.exp 1⟩ with hI
  set s : RIL ℝ := ⟨true, 1, Real.exp 10, false, I, [I], 11, [11]⟩ with hs
  have hgI : Good realLog I := i1.good I (by simp [hs])
  have h89 : Real.exp 8 < Real.exp 9 := Real.exp_lt_exp.mpr (by norm_num)
  have h910 : Real.exp 9 < Real.exp 10 := Real.exp_lt_exp.mpr (by norm_num)
  have h18 : (1 : ℝ) < Real.exp 8 := Real.one_lt_exp_iff.mpr (by norm_num)
  have loc : ∀ k : ℤ, k < 10 → I.locate realLog (Real.exp k) = (k, Real.exp k, Real.exp k * Real.exp 1) := by
    intro k hk
    unfold Intv.locate
    simp only [hI, realLog, Bool.false_eq_true, if_false, div_one, Real.log_exp, mul_one, one_mul, Int.floor_intCast]
    rw [if_neg (by omega)]
  have l8 : I.locate realLog (Real.exp 8) = (8, Real.exp 8, Real.exp 8 * Real.exp 1) := by
    have := loc 8 (by norm_num); simpa using this
  have l9 : I.locate realLog (Real.exp 9) = (9, Real.exp 9, Real.exp 9 * Real.exp 1) := by
    have := loc 9 (by norm_num); simpa using this
  have hmax : max (Real.exp 8) s.lo = Real.exp 8 := max_eq_left (le_of_lt h18)
  have hmin : min (Real.exp 9) s.hi = Real.exp 9 := min_eq_left (le_of_lt h910)
  have hstep : s.stepSize realLog (Real.exp 8) (Real.exp 9) 11 = 1 / 10 := by
    unfold RIL.stepSize
    simp only [hs, Bool.false_eq_true, if_false, realLog]
    rw [← Real.exp_sub, Real.log_exp]
    norm_num
  have hs8 : (81 : ℝ) < Real.exp 8 := by
    have h2 : (3 : ℝ) ≤ Real.exp 2 := by have := Real.add_one_le_exp (2 : ℝ); linarith
    have e2 : Real.exp 8 = Real.exp 2 * Real.exp 2 * (Real.exp 2 * Real.exp 2) := by
      rw [← Real.exp_add, ← Real.exp_add]; norm_num
    have h3 : (3 : ℝ) < Real.exp 2 := by
      have := Real.add_one_lt_exp (show (2 : ℝ) ≠ 0 by norm_num); linarith
    have h9 : 9 < Real.exp 2 * Real.exp 2 := by nlinarith
    rw [e2]; nlinarith
  have he : Real.exp 1 < 3 := by have := Real.exp_one_lt_d9; linarith
  have he2 : (2 : ℝ) < Real.exp 1 := by have := Real.exp_one_gt_d9; linarith
  have hcell : ¬ (5 * (1 / 10 : ℝ) > Real.exp 8 * Real.exp 1 - Real.exp 8) := by nlinarith
  have hnum : s.numPts realLog 1 (Real.exp 8) 1 = 9 := by
    unfold RIL.numPts
    simp only [hs, Bool.false_eq_true, if_false, realLog, div_one, Real.log_exp]
    have : ⌈(8 : ℝ)⌉ = 8 := by exact_mod_cast Int.ceil_intCast (R := ℝ) 8
    rw [this]; norm_num
  -- the call
  have hupd : s.update realLog (Real.exp 8) (Real.exp 9) 11 =
      s.updateInside realLog 0 I (Real.exp 8) (Real.exp 9) 11 (1 / 10) := by
    unfold RIL.update
    rw [if_pos i2]
    dsimp only
    rw [if_pos i2, hmax, hmin, if_neg (not_le.mpr h89)]
    have f1 : s.ilist.findIdx? (fun I => decide (I.lo ≤ Real.exp 8 ∧ I.hi > Real.exp 8)) = some 0 := by
      have : (I.lo ≤ Real.exp 8 ∧ I.hi > Real.exp 8) := ⟨le_of_lt h18, by simp only [hI]; linarith⟩
      simp only [hs, List.findIdx?_cons, decide_eq_true this, if_true]
    have f2 : s.ilist.findIdx? (fun I => decide (I.lo < Real.exp 9 ∧ I.hi ≥ Real.exp 9)) = some 0 := by
      have : (I.lo < Real.exp 9 ∧ I.hi ≥ Real.exp 9) := ⟨by simp only [hI]; linarith, by simp only [hI]; linarith⟩
      simp only [hs, List.findIdx?_cons, decide_eq_true this, if_true]
    rw [f1, f2]
    have hg : s.ilist[0]? = some I := rfl
    simp only [hg]
    rw [if_neg (by norm_num), l8, l9]
    simp only [hstep, ne_eq, not_true_eq_false, if_false, if_true]
    rw [if_neg hcell, hstep]
  have hshape := updateInside_shape (c := realLog) (s := s) (A := []) (C := []) (I := I) rfl (lo := Real.exp 8) (hi := Real.exp 9) (n := 11)
    (step := 1 / 10) (by simp only [hI]; norm_num) (by simp only [hI]; norm_num) (le_of_lt h18) h89 (by norm_num) (fun _ => ⟨realLog_ok, one_pos⟩)
  have hpre : Pre realLog s.isLin (Real.exp 8) (Real.exp 9) (1 / 10) I.lo I.hi [I]
      (leftPiece realLog s I (Real.exp 8) ++ linI (Real.exp 8) (Real.exp 9) 11 :: rightPiece realLog s I (Real.exp 9)) :=
    pre_inside hgI (by norm_num) (fun h => by simp [hs] at h) (by simp only [hI]; norm_num) (fun _ => ⟨realLog_ok, one_pos⟩) (le_of_lt h18) h89
      (le_of_lt h910) (fun h => by simp [hs] at h) (fun h => by simp [hs] at h) (fun h => by simp [hs] at h)
  refine ⟨s, h0, rfl, ?_, ?_⟩
  · simp [Intv.pt, hs, hI, realLog]
  obtain ⟨s', e1, e2, e3, e4, e5, _⟩ := merge_spec (c := realLog)
    (s := withL s (leftPiece realLog s I (Real.exp 8) ++ linI (Real.exp 8) (Real.exp 9) 11 :: rightPiece realLog s I (Real.exp 9)))
    (a := I.lo) (b := I.hi) (by simp [withL]) hpre.good hpre.tiles hpre.lin
  refine ⟨s', ?_, ?_⟩
  · rw [hupd]
    change s.updateInside realLog ([] : List (Intv ℝ)).length I _ _ _ _ = _
    rw [hshape]
    simpa using e1
  obtain ⟨M, hM, hM1, hM2⟩ := tiles_cover e2 (le_refl I.lo) hgI.lt
  refine ⟨M, hM, le_antisymm hM1 (tiles_mem e2 hM).1, e5 M hM, ?_⟩
  obtain ⟨J, hJ, hJx, hJs⟩ := (e4 M hM).2 I.lo ⟨hM1, hM2⟩
  have hleft : leftPiece realLog s I (Real.exp 8) = [linI 1 (Real.exp 8) 9] := by
    unfold leftPiece
    rw [if_pos h18]
    change [linI 1 (Real.exp 8) (s.numPts realLog 1 (Real.exp 8) 1)] = _
    rw [hnum]
  have hJstep : J.step = (Real.exp 8 - 1) / 8 := by
    have hJ' : J ∈ leftPiece realLog s I (Real.exp 8) ++ linI (Real.exp 8) (Real.exp 9) 11 :: rightPiece realLog s I (Real.exp 9) := hJ
    rw [hleft] at hJ'
    simp only [List.singleton_append, List.mem_cons] at hJ'
    rcases hJ' with rfl | rfl | hJ'
    · simp [linI]; norm_num
    · exfalso
      have : Real.exp 8 ≤ 1 := hJx.1
      linarith
    · exfalso
      unfold rightPiece at hJ'
      rw [if_pos h910] at hJ'
      rw [List.mem_singleton.mp hJ'] at hJx
      have : Real.exp 9 ≤ 1 := hJx.1
      linarith
  unfold Intv.pt
  rw [e5 M hM, if_pos rfl, ← hJs, hJstep, le_antisymm hM1 (tiles_mem e2 hM).1]
  simp only [hI]
  push_cast
  linarith

/-! ### C28 -/

/-- The points of the grid: those of each interval without its upper end, which is the next one's lower end, and the end of the range. -/
def gridPoints (c : LogExp K) (s : RIL K) : List K := s.ilist.flatMap (Intv.pts c) ++ [s.hi]

/-- **C28.** The grid points are strictly increasing and `npts` is their number. -/
theorem C28_points {c : LogExp K} {lo hi : K} {n : ℤ} {isLin : Bool} {s : RIL K} (h : Reached c lo hi n isLin s) (hr : RangeOk c lo hi isLin) :
    (gridPoints c s).Pairwise (· < ·) ∧ ((gridPoints c s).length : ℤ) = s.npts ∧
    (∀ x, x ∈ gridPoints c s ↔ ∃ I ∈ s.ilist, ∃ i : ℤ, 0 ≤ i ∧ i ≤ I.n - 1 ∧ x = I.pt c i) := by
  obtain ⟨i1, _, i3, i4, _⟩ := reached_inv h hr
  have hne : s.ilist ≠ [] := fun e => by have := i1.tiles; rw [e] at this; exact absurd i1.lt (by rw [show s.lo = s.hi from this]; exact lt_irrefl _)
  have hn2 : ∀ I ∈ s.ilist, 2 ≤ I.n := fun I hI => (i1.good I hI).n
  refine ⟨?_, ?_, fun x => ⟨fun hx => ?_, ?_⟩⟩
  · unfold gridPoints
    rw [List.pairwise_append]
    refine ⟨flat_sorted i1.tiles i1.good, by simp, fun x hx y hy => ?_⟩
    rw [List.mem_singleton.mp hy]
    exact (flat_mem i1.tiles i1.good hx).2
  · rw [cum_npts i1.cum hne]
    unfold gridPoints
    rw [List.length_append]
    push_cast
    rw [flat_length hn2]
    rfl
  · unfold gridPoints at hx
    rcases List.mem_append.mp hx with hx | hx
    · obtain ⟨I, hI, hx⟩ := List.mem_flatMap.mp hx
      obtain ⟨i, hi, rfl⟩ := List.mem_map.mp hx
      have := List.mem_range.mp hi
      exact ⟨I, hI, i, by omega, by omega, rfl⟩
    · obtain ⟨A, I, e⟩ := (List.eq_nil_or_concat s.ilist).resolve_left hne
      have hI : I ∈ s.ilist := by rw [e]; simp
      refine ⟨I, hI, I.n - 1, by have := hn2 I hI; omega, le_refl _, ?_⟩
      rw [pt_last (i1.good I hI), List.mem_singleton.mp hx]
      have := i1.tiles
      rw [e, List.concat_eq_append] at this
      obtain ⟨_, _, _, _, h⟩ := tiles_append.mp this
      exact h.symm
  · rintro ⟨I, hI, i, h0, h1, rfl⟩
    unfold gridPoints
    have inside : ∀ J ∈ s.ilist, ∀ k : ℤ, 0 ≤ k → k < J.n - 1 → J.pt c k ∈ s.ilist.flatMap (Intv.pts c) := by
      intro J hJ k hk0 hk1
      refine List.mem_flatMap.mpr ⟨J, hJ, List.mem_map.mpr ⟨k.toNat, List.mem_range.mpr (by omega), ?_⟩⟩
      rw [Int.toNat_of_nonneg hk0]
    rcases lt_or_eq_of_le h1 with h1 | h1
    · exact List.mem_append_left _ (inside I hI i h0 h1)
    · rw [h1, pt_last (i1.good I hI)]
      rcases lt_or_eq_of_le (tiles_mem i1.tiles hI).2.2 with hh | hh
      · obtain ⟨A, C, e⟩ := List.append_of_mem hI
        have ht := i1.tiles
        rw [e] at ht
        obtain ⟨_, _, _, _, ht⟩ := tiles_append.mp ht
        cases C with
        | nil => exact absurd hh (by rw [show I.hi = s.hi from ht]; exact lt_irrefl _)
        | cons J C =>
          have hJ : J ∈ s.ilist := by rw [e]; simp
          rw [← ht.1, ← pt_zero (i1.good J hJ)]
          exact List.mem_append_left _ (inside J hJ 0 (le_refl _) (by have := hn2 J hJ; omega))
      · rw [hh]; simp

/-- **C28.** `nlocate(k)` for `0 ≤ k < npts` names the `k`-th grid point: it returns an interval of the list, its position, and an index in it
whose abscissa is the `k`-th point. All other numbers are rejected. -/
theorem C28_nlocate {c : LogExp K} {lo hi : K} {n : ℤ} {isLin : Bool} {s : RIL K} (h : Reached c lo hi n isLin s) (hr : RangeOk c lo hi isLin)
    (k : ℤ) :
    (0 ≤ k → k < s.npts → ∃ j i I, s.nlocate k = .ok (j, i, I) ∧ s.ilist[j]? = some I ∧ 0 ≤ i ∧ i ≤ I.n - 1 ∧
      (gridPoints c s)[k.toNat]? = some (I.pt c i)) ∧
    (k < 0 ∨ s.npts ≤ k → s.nlocate k = .error .value) := by
  obtain ⟨i1, _, i3, i4, _⟩ := reached_inv h hr
  have hne : s.ilist ≠ [] := fun e => by have := i1.tiles; rw [e] at this; exact absurd i1.lt (by rw [show s.lo = s.hi from this]; exact lt_irrefl _)
  have hn2 : ∀ I ∈ s.ilist, 2 ≤ I.n := fun I hI => (i1.good I hI).n
  have hnp := cum_npts i1.cum hne
  constructor
  · intro h0 h1
    by_cases hk : k = s.npts - 1
    · obtain ⟨A, I, e⟩ := (List.eq_nil_or_concat s.ilist).resolve_left hne
      rw [List.concat_eq_append] at e
      have hI : I ∈ s.ilist := by rw [e]; simp
      have hI2 := hn2 I hI
      refine ⟨A.length, I.n - 1, I, by rw [hk]; exact nlocate_last i1 e, by rw [e]; simp, by omega, le_refl _, ?_⟩
      rw [pt_last (i1.good I hI)]
      have hlen := flat_length (c := c) hn2
      have hk' : k.toNat = (s.ilist.flatMap (Intv.pts c)).length := by omega
      unfold gridPoints
      rw [hk', List.getElem?_append_right (le_refl _)]
      have := i1.tiles
      rw [e] at this
      obtain ⟨_, _, _, _, h⟩ := tiles_append.mp this
      simp [show I.hi = s.hi from h]
    · obtain ⟨A, I, C, e, e1, e2⟩ := split_total hn2 h0 (by omega)
      refine ⟨A.length, k - total A, I, nlocate_spec i1 e e1 e2, by rw [e]; simp, by omega, by omega, ?_⟩
      unfold gridPoints
      have hA := flat_length (c := c) (l := A) (fun J hJ => hn2 J (by rw [e]; simp [hJ]))
      rw [e, List.flatMap_append, List.flatMap_cons, List.append_assoc, List.getElem?_append_right (by omega), List.append_assoc]
      rw [List.getElem?_append_left (by rw [pts_length]; omega)]
      have hk : k.toNat - (A.flatMap (Intv.pts c)).length = (k - total A).toNat := by omega
      rw [hk]
      unfold Intv.pts
      rw [List.getElem?_map, List.getElem?_range (by omega)]
      simp only [Option.map_some]
      rw [Int.toNat_of_nonneg (by omega)]
  · intro hk
    unfold RIL.nlocate
    rw [if_pos (by omega)]

/-- Non-vacuity: the points after a refinement. -/
example : gridPoints noLog (demo.update noLog 3 5 5).1 = [0, 1, 2, 3, 7 / 2, 4, 9 / 2, 5, 6, 7, 8, 9, 10] := by decide +kernel

/-! ### C29 -/

/-- **C29.** For every abscissa of the range, `locate` ends, within as many steps as there are intervals, and returns an interval of the list that
contains the abscissa; outside the range it raises `ValueError`. -/
theorem C29_locate {c : LogExp K} {lo hi : K} {n : ℤ} {isLin : Bool} {s : RIL K} (h : Reached c lo hi n isLin s) (hr : RangeOk c lo hi isLin)
    (x : K) (fuel : ℕ) (hf : s.ilist.length ≤ fuel) :
    (lo ≤ x → x ≤ hi → ∃ I ∈ s.ilist, s.locate x fuel = some (.ok I) ∧ I.lo ≤ x ∧ x ≤ I.hi ∧ (x < hi → x < I.hi)) ∧
    (x < lo ∨ hi < x → s.locate x fuel = some (.error .value)) := by
  obtain ⟨i1, _, i3, i4, _⟩ := reached_inv h hr
  have hne : s.ilist ≠ [] := fun e => by have := i1.tiles; rw [e] at this; exact absurd i1.lt (by rw [show s.lo = s.hi from this]; exact lt_irrefl _)
  rw [← i3, ← i4]
  constructor
  · intro h1 h2
    unfold RIL.locate
    rw [if_neg (by rintro (h | h) <;> linarith)]
    by_cases hx : x = s.hi
    · rw [if_pos hx]
      obtain ⟨A, I, e⟩ := (List.eq_nil_or_concat s.ilist).resolve_left hne
      rw [List.concat_eq_append] at e
      have hI : I ∈ s.ilist := by rw [e]; simp
      have := i1.tiles
      rw [e] at this
      obtain ⟨_, _, _, h3, h⟩ := tiles_append.mp this
      have h : I.hi = s.hi := h
      have hl : s.ilist.getLast? = some I := by rw [e]; simp
      rw [hl]
      exact ⟨I, hI, rfl, by linarith, by linarith, fun hlt => by linarith⟩
    · rw [if_neg hx]
      obtain ⟨I, hI, hx1, hx2⟩ := tiles_cover i1.tiles h1 (lt_of_le_of_ne h2 hx)
      obtain ⟨A, C, e⟩ := List.append_of_mem hI
      refine ⟨I, hI, ?_, hx1, le_of_lt hx2, fun _ => hx2⟩
      exact locateLoop_spec i1.tiles e hx1 hx2 fuel 0 s.ilist.length (Nat.zero_le _) (by rw [e]; simp) (le_refl _) (by omega)
  · intro hx
    unfold RIL.locate
    rw [if_pos hx]

/-- **C29.** Inside an interval, `locate` returns the number of the cell and its two end points. -/
theorem C29_cell {c : LogExp K} {lo hi : K} {n : ℤ} {isLin : Bool} {s : RIL K} (h : Reached c lo hi n isLin s) (hr : RangeOk c lo hi isLin)
    {I : Intv K} (hI : I ∈ s.ilist) {x : K} (h1 : I.lo ≤ x) (h2 : x < I.hi) :
    ∃ i l u, I.locate c x = (i, l, u) ∧ 0 ≤ i ∧ i + 1 ≤ I.n - 1 ∧ l ≤ x ∧ x < u ∧ l = I.pt c i ∧ u = I.pt c (i + 1) := by
  obtain ⟨i1, _⟩ := reached_inv h hr
  obtain ⟨a1, a2, a3, a4, a5, a6, a7⟩ := locate_lt (i1.good I hI) h1 h2
  obtain ⟨b1, b2⟩ := locate_pt (i1.good I hI) h1 h2
  generalize I.locate c x = r at *
  obtain ⟨i, l, u⟩ := r
  exact ⟨i, l, u, rfl, a1, by simp only at a2; omega, a4, a5, b1, b2⟩

example : ((demo.update noLog 3 5 5).1.locate (9 / 2) 3).isSome = true := by decide +kernel

/-! ### C30 -/

/-- **C30, violated.** A list made with its bounds in reverse order rejects *every* refinement, forward or reversed, though it was
accepted by the constructor. -/
theorem C30_violated {c : LogExp K} {lo hi : K} {n : ℤ} {isLin : Bool} {s : RIL K} (h0 : RIL.init c hi lo n isLin = .ok s) (hlt : lo < hi)
    (ops : List (K × K × ℤ)) (u v : K) (m : ℤ) : s.run c ops = s ∧ s.update c u v m = (s, some .value) := by
  have hpos : s.isPos = false := by
    unfold RIL.init at h0
    split_ifs at h0 with h1 h2 h3
    dsimp only at h0
    split at h0
    · exact absurd h0 (by simp)
    · injection h0 with h0
      rw [← h0]
      simp [le_of_lt hlt]
  have key : ∀ u v m, s.update c u v m = (s, some .value) := by
    intro u v m
    unfold RIL.update
    have hp : ¬ s.isPos = true := by rw [hpos]; simp
    rw [if_neg hp]
    dsimp only
    rw [if_neg hp, if_pos (min_le_left _ _)]
    rfl
  refine ⟨?_, key u v m⟩
  induction ops with
  | nil => rfl
  | cons o ops ih => rw [run_cons, key]; exact ih

/-- **C30, violated.** On a list with its bounds in order a reversed range is always rejected. -/
theorem C30_violated_reversed {c : LogExp K} {lo hi : K} {n : ℤ} {isLin : Bool} {s : RIL K} (h : Reached c lo hi n isLin s) (hr : RangeOk c lo hi isLin)
    (u v : K) (hvu : v ≤ u) (m : ℤ) : s.update c u v m = (s, some .value) := by
  obtain ⟨_, i2, _⟩ := reached_inv h hr
  exact update_empty i2 u v m (le_trans (min_le_left _ _) (le_trans hvu (le_max_left _ _)))

/-- **C30, what remains.** On a list with its bounds in order, a range in order that lies inside is accepted. Missing: reversed ranges. -/
theorem C30_forward_partial {c : LogExp K} {lo hi : K} {n : ℤ} {isLin : Bool} {s : RIL K} (h : Reached c lo hi n isLin s) (hr : RangeOk c lo hi isLin)
    {u v : K} (h1 : lo ≤ u) (h2 : u < v) (h3 : v ≤ hi) {m : ℤ} (hm : 2 ≤ m) : (s.update c u v m).2 = none :=
  (C26_accepted h hr u v hm).1 (by rw [max_eq_left h1, min_eq_left h3]; exact h2)

example : ∃ s, RIL.init noLog 10 0 11 true = .ok s := ⟨⟨false, 0, 10, true, ⟨0, 10, 11, true, 1, 0⟩, [⟨0, 10, 11, true, 1, 0⟩], 11, [11]⟩, by
  simp [RIL.init, mkIntv]; norm_num⟩

end
end Verif.Grid1
