import Verif.Grid.GridHist
import Verif.Grid.FillProps
import Mathlib.Analysis.SpecialFunctions.Pow.Real

/-!
# C31, C32, C74, C75: integrals over one-dimensional grids
-/

set_option linter.unusedSectionVars false
set_option linter.unusedSimpArgs false

namespace Verif.Grid1

open MeasureTheory intervalIntegral

/-- The functions of numpy over the reals. -/
noncomputable def realFns : Fns ℝ := { realLog with sqrt := Real.sqrt, rt2pi := Real.sqrt (2 * Real.pi) }

theorem realFns_sqrt : ∀ x, 0 < x → 0 < realFns.sqrt x := fun _ h => Real.sqrt_pos.mpr h

/-- `n` abscissas from `lo` to `hi`: equally spaced, or with equal ratios. -/
noncomputable def absc (lo hi : ℝ) (n : ℤ) (isLin : Bool) : List ℝ :=
  (List.range n.toNat).map fun i : ℕ => if isLin then lo + i * ((hi - lo) / (n - 1)) else lo * (hi / lo) ^ ((i : ℝ) / (n - 1))

/-- Ranges that make sense: increasing, and positive for logarithmic spacing. -/
def RealRange (lo hi : ℝ) (isLin : Bool) : Prop := lo < hi ∧ (isLin = false → 0 < lo)

theorem points_absc {g : BGrid ℝ} (h : GOk realLog g) : g.points realLog = absc g.lo g.hi g.n g.isLin := by
  unfold BGrid.points absc
  apply List.map_congr_left
  intro i _
  unfold BGrid.x
  cases hl : g.isLin with
  | true => simp only [if_true]; rw [h.lin hl]
  | false =>
    simp only [Bool.false_eq_true, if_false]
    obtain ⟨_, h0, hs⟩ := h.log hl
    have hp : 0 < g.hi / g.lo := div_pos (lt_trans h0 h.lt) h0
    rw [Real.rpow_def_of_pos hp, hs]
    simp only [realLog]
    congr 2
    ring

/-- A grid made by the constructor and filled with a function of one point (`stepfunc`, with or without a list of maxima, without exception) or with a function of
the array of abscissas (`vecfunc`), where it got the values `v`. -/
def Filled (lo hi : ℝ) (n : ℤ) (isLin : Bool) (v : List ℝ) (g : BGrid ℝ) : Prop :=
  ∃ g0 rp lml, mkGrid realLog lo hi n isLin rp = .ok g0 ∧
    ((∃ f, (g0.stepfunc realFns f lml).2 = none ∧ g = (g0.stepfunc realFns f lml).1.1 ∧ v = (absc lo hi n isLin).map f) ∨
     (∃ func, g = (g0.vecfunc realFns func lml).1.1 ∧ v = func (absc lo hi n isLin) ∧ v.length = n.toNat))

theorem Filled.ok {lo hi : ℝ} {n : ℤ} {isLin : Bool} {v : List ℝ} {g : BGrid ℝ} (h : Filled lo hi n isLin v g) (hr : RealRange lo hi isLin) :
    FOk realLog g v ∧ g.lo = lo ∧ g.hi = hi ∧ g.n = n ∧ g.isLin = isLin ∧ g.points realLog = absc lo hi n isLin := by
  obtain ⟨g0, rp, lml, hm, h⟩ := h
  obtain ⟨o1, o2, o3, o4, o5, o6, o7, o8⟩ := mkGrid_ok hm hr.1 (fun hl => ⟨realLog_ok, hr.2 hl⟩)
  have hpts := points_absc o1
  rw [o2, o3, o4, o5] at hpts
  rcases h with ⟨f, e1, e2, e3⟩ | ⟨func, e2, e3, e4⟩
  · have hst : g = { g0 with vals := some ((g0.points realLog).map f) } := by
      cases lml with
      | none => rw [e2, stepfunc_none]; rfl
      | some l =>
        have h2 := (stepfunc_lml realFns g0 f l).2
        rw [e1] at h2
        have : l.updates (g0.allOffers realFns f) = Verif.ok (l.updates (g0.allOffers realFns f)).1 := by
          generalize l.updates (g0.allOffers realFns f) = r at h2 ⊢
          obtain ⟨a, b⟩ := r
          rw [show b = none from h2.symm]
          rfl
        rw [e2, stepfunc_some realFns g0 f l this]
        rfl
    rw [hst]
    refine ⟨⟨⟨o1.n, o1.lt, o1.lin, o1.log⟩, Or.inl o7, ?_, ?_⟩, o2, o3, o4, o5, hpts⟩
    · rw [e3, ← hpts]
    · rw [e3]; simp [absc, o4]
  · have hst : g = { g0 with absc := some (g0.vecAbsc realLog), vals := some (func (g0.vecAbsc realLog)) } := by
      rw [e2]
      unfold BGrid.vecfunc
      cases lml with
      | none => rfl
      | some l =>
        dsimp only
        split_ifs <;> rfl
    have hva := o1.vecAbsc
    rw [hst, hva]
    refine ⟨⟨⟨o1.n, o1.lt, o1.lin, o1.log⟩, Or.inr rfl, ?_, ?_⟩, o2, o3, o4, o5, hpts⟩
    · rw [e3, ← hpts]
    · rw [e4]; simp [o4]

/-! ### C31 -/

/-- **C31.** `trapzd` of a filled grid is the integral, over its range, of the piecewise-linear interpolant of its values. -/
theorem C31_basic {lo hi : ℝ} {n : ℤ} {isLin : Bool} {v : List ℝ} {g : BGrid ℝ} (h : Filled lo hi n isLin v g) (hr : RealRange lo hi isLin) :
    ∃ q, g.trapzd realLog = .ok q ∧ ∀ p, Interp (absc lo hi n isLin) v p → IntervalIntegrable p volume lo hi ∧ q = ∫ x in lo..hi, p x := by
  obtain ⟨h1, h2, h3, h4, h5, h6⟩ := h.ok hr
  refine ⟨_, h1.trapzd, fun p hp => ?_⟩
  obtain ⟨e1, e2⟩ := points_head h1.ok
  have hs := h1.ok.sorted
  rw [h6] at e1 e2 hs
  rw [h2] at e1
  rw [h3] at e2
  obtain ⟨i1, i2, i3⟩ := interp_integral e1 e2 hs hp
  exact ⟨i2, by rw [h6]; exact i3.symm⟩

/-- The abscissas are strictly increasing and there are as many as values, so that the interpolant exists. -/
theorem C31_interpolant_exists {lo hi : ℝ} {n : ℤ} {isLin : Bool} {v : List ℝ} {g : BGrid ℝ} (h : Filled lo hi n isLin v g) (hr : RealRange lo hi isLin) :
    ∃ p, Interp (absc lo hi n isLin) v p := by
  obtain ⟨h1, h2, h3, h4, h5, h6⟩ := h.ok hr
  have hs := h1.ok.sorted
  have hn := h1.ok.n
  have hl := points_length realLog g
  rw [h6] at hs hl
  exact interp_exists _ _ (fun e => by rw [e] at hl; simp at hl; omega) (by rw [hl, h1.len]) hs

/-- **C31.** `trapzd` is exact for linear functions. -/
theorem C31_linear {lo hi : ℝ} {n : ℤ} {isLin : Bool} {g : BGrid ℝ} (α β : ℝ) (h : Filled lo hi n isLin ((absc lo hi n isLin).map fun x => α + β * x) g)
    (hr : RealRange lo hi isLin) : g.trapzd realLog = .ok (∫ x in lo..hi, (α + β * x)) := by
  obtain ⟨q, e, hq⟩ := C31_basic h hr
  obtain ⟨h1, h2, h3, h4, h5, h6⟩ := h.ok hr
  have hs := h1.ok.sorted
  have hn := h1.ok.n
  have hl := points_length realLog g
  rw [h6] at hs hl
  rw [e, (hq _ (interp_line α β _ (fun e => by rw [e] at hl; simp at hl; omega) hs)).2]

/-- A refinable grid with linear sampling on `[lo, hi]`, as its constructor makes it with a capacity (if any) of at least one maximum, a dynamic range (if any) greater than one (logarithm `> 0`), at
least two points per standard deviation and at least one standard deviation. -/
def Fresh (lo hi : ℝ) (n : ℤ) (g : Grid1D ℝ) : Prop :=
  ∃ nmax dyn sigpts nsig rp, Grid1D.init realLog lo hi n true nmax dyn sigpts nsig rp = .ok g ∧ (∀ m, nmax = some m → 1 ≤ m) ∧ (∀ d, dyn = some d → 0 < d) ∧
    2 ≤ sigpts ∧ 1 ≤ nsig

/-- The grid after a first pass and then any sequence of first passes and refinements with the function `f`. -/
def Done (lo hi : ℝ) (n : ℤ) (f : ℝ → ℝ) (g : Grid1D ℝ) : Prop :=
  ∃ g0 os, Fresh lo hi n g0 ∧ runOps realFns f (.first :: os) g0 = ok g

theorem Fresh.done {lo hi : ℝ} {n : ℤ} {f : ℝ → ℝ} {g0 : Grid1D ℝ} (h : Fresh lo hi n g0) (hlt : lo < hi) (os : List GOp) :
    ∃ g, runOps realFns f (.first :: os) g0 = ok g ∧ GFull realLog f lo hi n g := by
  obtain ⟨nmax, dyn, sigpts, nsig, rp, h1, h2, h3, h4, h5⟩ := h
  obtain ⟨g1, e1, f1⟩ := init_full (fn := realFns) realFns_sqrt (f := f) h1 hlt h2 h3 h4 h5
  obtain ⟨g2, e2, f2⟩ := run_full (fn := realFns) realFns_sqrt os f1
  refine ⟨g2, ?_, f2⟩
  unfold runOps
  rw [show GOp.first.apply realFns f g0 = g0.firstpass realFns f from rfl, e1]
  exact e2

theorem Done.full {lo hi : ℝ} {n : ℤ} {f : ℝ → ℝ} {g : Grid1D ℝ} (h : Done lo hi n f g) (hlt : lo < hi) : GFull realLog f lo hi n g := by
  obtain ⟨g0, os, hf, e⟩ := h
  obtain ⟨g', e', h'⟩ := hf.done hlt os (f := f)
  rw [e] at e'
  have : g = g' := congrArg Prod.fst e'
  rw [this]; exact h'

/-- **C31.** On a refinable linear grid, first passes and refinements never raise, whatever the function. -/
theorem C31_never_raises {lo hi : ℝ} {n : ℤ} {g0 : Grid1D ℝ} (h : Fresh lo hi n g0) (hlt : lo < hi) (f : ℝ → ℝ) (os : List GOp) :
    ∃ g, runOps realFns f (.first :: os) g0 = ok g := by
  obtain ⟨g, e, _⟩ := h.done hlt os (f := f)
  exact ⟨g, e⟩

/-- **C31.** After a first pass and any refinements, numbering the points from 0 gives strictly increasing abscissas from `lo` to `hi` with the distances to the next ones and the
function's values there, and `trapzd` is the integral over the range of the function that interpolates exactly these values linearly. -/
theorem C31_refined {lo hi : ℝ} {n : ℤ} {f : ℝ → ℝ} {g : Grid1D ℝ} (h : Done lo hi n f g) (hlt : lo < hi) :
    ∃ xs : List ℝ, (xs.length : ℤ) = g.totpts ∧ xs.Pairwise (· < ·) ∧ xs.head? = some lo ∧ xs.getLast? = some hi ∧
      (∀ k (hk : k < xs.length), g.point realLog k = .ok (xs[k], xs.getD (k + 1) hi - xs[k], some (f xs[k]))) ∧
      (∀ k : ℤ, k < 0 ∨ g.totpts ≤ k → g.point realLog k = .error .value) ∧
      (∃ p, Interp xs (xs.map f) p) ∧
      ∃ q, g.trapzd realLog = .ok q ∧ ∀ p, Interp xs (xs.map f) p → IntervalIntegrable p volume lo hi ∧ q = ∫ x in lo..hi, p x := by
  have hg := h.full hlt
  obtain ⟨e1, e2, e3⟩ := hg.ends
  have hR : RangeOk realLog lo hi true := ⟨hlt, by simp⟩
  obtain ⟨c1, c2, _⟩ := C28_points hg.reached hR
  refine ⟨gridPoints realLog g.ilist, by rw [hg.tot]; exact c2, e3, e1, e2, fun k hk => hg.point k hk, fun k hk => ?_, ?_, tz f (gridPoints realLog g.ilist), hg.trapzd, fun p hp => ?_⟩
  · have := (C28_nlocate hg.reached hR k).2 (by rw [← hg.tot]; exact hk)
    unfold Grid1D.point
    rw [this]
  · exact interp_exists _ _ (fun e => by rw [e] at e1; simp at e1) (by simp) e3
  · obtain ⟨i1, i2, i3⟩ := interp_integral e1 e2 e3 hp
    exact ⟨i2, i3.symm⟩

/-- **C31.** The integral over a refined grid is exact for linear functions. -/
theorem C31_refined_linear {lo hi : ℝ} {n : ℤ} {α β : ℝ} {g : Grid1D ℝ} (h : Done lo hi n (fun x => α + β * x) g) (hlt : lo < hi) :
    g.trapzd realLog = .ok (∫ x in lo..hi, (α + β * x)) := by
  obtain ⟨xs, _, hs, hh, _, _, _, _, q, e, hq⟩ := C31_refined h hlt
  rw [e, (hq _ (interp_line α β xs (fun e => by rw [e] at hh; simp at hh) hs)).2]

/-- **C31.** The integral over a refined grid is the sum of the integrals over its parts, one for each interval of the list. -/
theorem C31_additive {lo hi : ℝ} {n : ℤ} {f : ℝ → ℝ} {g : Grid1D ℝ} (h : Done lo hi n f g) (hlt : lo < hi) :
    ∃ qs : List ℝ, g.glist.map (fun b => b.trapzd realLog) = qs.map Except.ok ∧ g.trapzd realLog = .ok qs.sum ∧
      g.glist.map (fun b => (b.lo, b.hi)) = g.ilist.ilist.map fun I => (I.lo, I.hi) := by
  have hg := h.full hlt
  refine ⟨g.glist.map fun b => tz f (b.points realLog), ?_, ?_, ?_⟩
  · rw [List.map_map]
    apply List.map_congr_left
    intro b hb
    exact (hg.each b hb).trapzd
  · rw [hg.trapzd, hg.sum]
  · have := hg.glist
    clear h
    generalize g.glist = bs at this
    generalize g.ilist.ilist = is at this
    induction this with
    | nil => rfl
    | cons hm _ ih => simp only [List.map_cons, ih, hm.lo, hm.hi]

/-! ### C32 -/

/-- The values of which `logtrapzd` takes exponentials: nothing further than 725 below the maximum. -/
noncomputable def clipped (v : List ℝ) (y : ℝ) : ℝ := Real.exp (max y (listMax v - 725))

theorem clipExp_eq (v : List ℝ) : (clipExp realLog (listMax v) v).map (Real.exp (listMax v) * ·) = v.map (clipped v) := by
  unfold clipExp
  rw [List.map_map]
  apply List.map_congr_left
  intro y hy
  have hm := le_listMax hy
  simp only [Function.comp, realLog, clipped]
  rw [← Real.exp_add]
  congr 1
  rw [min_eq_left (max_le (by linarith) (by norm_num))]
  rcases le_total (y - listMax v) (-725) with h | h
  · rw [max_eq_right h, max_eq_right (by linarith)]; ring
  · rw [max_eq_left h, max_eq_left (by linarith)]; ring

theorem FOk.two {g : BGrid ℝ} {v : List ℝ} (h : FOk realLog g v) : 2 ≤ v.length ∧ diffs (g.points realLog) ≠ [] := by
  have hn := h.ok.n
  refine ⟨by rw [h.len]; omega, fun e => ?_⟩
  have := diffs_length (g.points realLog)
  rw [e, points_length] at this
  simp at this
  omega

theorem FOk.clip_pos {g : BGrid ℝ} {v : List ℝ} (h : FOk realLog g v) : 0 < trapSum (diffs (g.points realLog)) (v.map (clipped v)) :=
  trapSum_pos _ _ _ (diffs_pos h.ok.sorted) (fun _ _ => Real.exp_pos _) h.two.2 h.two.1

theorem FOk.logtrapzd {g : BGrid ℝ} {v : List ℝ} (h : FOk realLog g v) :
    g.logtrapzd realLog = .ok (Real.log (trapSum (diffs (g.points realLog)) (v.map (clipped v)))) := by
  unfold BGrid.logtrapzd
  rw [h.vals]
  dsimp only
  rw [h.widths]
  have e := trapSum_smul (Real.exp (listMax v)) (diffs (g.points realLog)) (clipExp realLog (listMax v) v)
  rw [clipExp_eq] at e
  have hp := h.clip_pos
  rw [e] at hp
  have hp' : 0 < trapSum (diffs (g.points realLog)) (clipExp realLog (listMax v) v) := (mul_pos_iff_of_pos_left (Real.exp_pos _)).mp hp
  rw [e, Real.log_mul (ne_of_gt (Real.exp_pos _)) (ne_of_gt hp'), Real.log_exp]
  rfl

/-- No value is more than 725 below another. -/
def Moderate (v : List ℝ) : Prop := ∀ y ∈ v, ∀ z ∈ v, z - y ≤ 725

theorem Moderate.clipped {v : List ℝ} (h : Moderate v) : v.map (clipped v) = v.map Real.exp := by
  apply List.map_congr_left
  intro y hy
  have := h y hy (listMax v) (listMax_mem (List.ne_nil_of_mem hy))
  unfold Grid1.clipped
  rw [max_eq_left (by linarith)]

theorem clip_bounds {xs : List ℝ} (hs : xs.Pairwise (· < ·)) {v : List ℝ} (hl : v.length = xs.length) {M : ℝ} (hM : ∀ y ∈ v, y ≤ M) :
    trapSum (diffs xs) (v.map Real.exp) ≤ trapSum (diffs xs) (v.map (clipped v)) ∧
    trapSum (diffs xs) (v.map (clipped v)) ≤ trapSum (diffs xs) (v.map Real.exp) + (xs.getLastD 0 - xs.headD 0) * Real.exp (M - 725) := by
  have hw : ∀ x ∈ diffs xs, 0 ≤ x := fun x hx => le_of_lt (diffs_pos hs x hx)
  constructor
  · exact trapSum_le _ _ _ _ hw fun y _ => Real.exp_le_exp.mpr (le_max_left _ _)
  · have h1 := trapSum_le (clipped v) (fun y => Real.exp y + Real.exp (M - 725)) (diffs xs) v hw (fun y hy => by
      unfold clipped
      rcases le_total y (listMax v - 725) with h | h
      · rw [max_eq_right h]
        have := hM _ (listMax_mem (List.ne_nil_of_mem hy))
        have := Real.exp_le_exp.mpr (show listMax v - 725 ≤ M - 725 by linarith)
        have := Real.exp_pos y
        linarith
      · rw [max_eq_left h]
        have := Real.exp_pos (M - 725)
        linarith)
    rw [trapSum_add, trapSum_one xs v _ hl] at h1
    linarith

/-- **C32, partial.** On values of which none is more than 725 below another, the exponential of `logtrapzd` is the integral of the interpolant of the exponentials,
that is, what `trapzd` gives for a grid filled with the exponentials. What is missing are larger ranges: `C32_bounds`. -/
theorem C32_basic_partial {lo hi : ℝ} {n : ℤ} {isLin : Bool} {v : List ℝ} {g : BGrid ℝ} (h : Filled lo hi n isLin v g) (hr : RealRange lo hi isLin) (hv : Moderate v) :
    ∃ l, g.logtrapzd realLog = .ok l ∧ (∀ p, Interp (absc lo hi n isLin) (v.map Real.exp) p → Real.exp l = ∫ x in lo..hi, p x) ∧
      ∀ g', Filled lo hi n isLin (v.map Real.exp) g' → g'.trapzd realLog = .ok (Real.exp l) := by
  obtain ⟨h1, h2, h3, h4, h5, h6⟩ := h.ok hr
  have hp := h1.clip_pos
  rw [hv.clipped] at hp
  refine ⟨_, h1.logtrapzd, fun p hip => ?_, fun g' hg' => ?_⟩
  · obtain ⟨e1, e2⟩ := points_head h1.ok
    have hs := h1.ok.sorted
    rw [h2] at e1
    rw [h3] at e2
    rw [← h6] at hip
    obtain ⟨i1, i2, i3⟩ := interp_integral e1 e2 hs hip
    rw [hv.clipped, Real.exp_log hp, i3]
  · obtain ⟨k1, k2, k3, k4, k5, k6⟩ := hg'.ok hr
    rw [k1.trapzd, hv.clipped, Real.exp_log hp, k6, h6]

/-- **C32.** In general, `logtrapzd` is never too small, and its exponential is too large by at most `(hi - lo) e^(M - 725)` for `M` the maximum. -/
theorem C32_bounds {lo hi : ℝ} {n : ℤ} {isLin : Bool} {v : List ℝ} {g : BGrid ℝ} (h : Filled lo hi n isLin v g) (hr : RealRange lo hi isLin) {M : ℝ} (hM : ∀ y ∈ v, y ≤ M) :
    ∃ l, g.logtrapzd realLog = .ok l ∧ ∀ p, Interp (absc lo hi n isLin) (v.map Real.exp) p →
      (∫ x in lo..hi, p x) ≤ Real.exp l ∧ Real.exp l ≤ (∫ x in lo..hi, p x) + (hi - lo) * Real.exp (M - 725) := by
  obtain ⟨h1, h2, h3, h4, h5, h6⟩ := h.ok hr
  refine ⟨_, h1.logtrapzd, fun p hip => ?_⟩
  obtain ⟨e1, e2⟩ := points_head h1.ok
  have hs := h1.ok.sorted
  obtain ⟨b1, b2⟩ := clip_bounds hs (v := v) (by rw [h1.len, points_length]) hM
  have el : (g.points realLog).getLastD 0 = hi := by rw [List.getLastD_eq_getLast?, e2, h3]; rfl
  have eh : (g.points realLog).headD 0 = lo := by rw [List.headD_eq_head?_getD, e1, h2]; rfl
  rw [h2] at e1
  rw [h3] at e2
  rw [← h6] at hip
  obtain ⟨i1, i2, i3⟩ := interp_integral e1 e2 hs hip
  rw [Real.exp_log h1.clip_pos, i3]
  rw [el, eh] at b2
  exact ⟨b1, b2⟩

/-- Two points, with the values 0 and -1000. -/
theorem far_filled : ∃ g, Filled 0 1 2 true [0, -1000] g := by
  refine ⟨_, _, true, none, rfl, Or.inr ⟨fun _ => [0, -1000], rfl, rfl, rfl⟩⟩

/-- **C32, violated** (in exact arithmetic): with the values 0 and -1000 on `[0, 1]`, `logtrapzd` is not the logarithm of the integral. -/
theorem C32_violated : ∃ g l, Filled 0 1 2 true [0, -1000] g ∧ g.logtrapzd realLog = .ok l ∧
    ∀ p, Interp (absc 0 1 2 true) [Real.exp 0, Real.exp (-1000)] p → (∫ x in (0 : ℝ)..1, p x) < Real.exp l := by
  obtain ⟨g, hg⟩ := far_filled
  have hr : RealRange 0 1 true := ⟨by norm_num, by simp⟩
  obtain ⟨h1, h2, h3, h4, h5, h6⟩ := hg.ok hr
  refine ⟨g, _, hg, h1.logtrapzd, fun p hip => ?_⟩
  obtain ⟨e1, e2⟩ := points_head h1.ok
  have hs := h1.ok.sorted
  rw [h2] at e1
  rw [h3] at e2
  rw [← h6] at hip
  obtain ⟨i1, i2, i3⟩ := interp_integral e1 e2 hs hip
  rw [Real.exp_log h1.clip_pos, i3, h6]
  have ea : absc 0 1 2 true = [0, 1] := by simp [absc, List.range_succ]; norm_num
  rw [ea]
  simp only [diffs, trapSum, List.map_cons, List.map_nil, clipped, listMax, List.foldl]
  have e0 : max (0 : ℝ) (-1000) = 0 := by norm_num
  rw [e0]
  have e3 : max (0 : ℝ) (0 - 725) = 0 := by norm_num
  have e4 : max (-1000 : ℝ) (0 - 725) = -725 := by norm_num
  rw [e3, e4]
  have := Real.exp_lt_exp.mpr (show (-1000 : ℝ) < -725 by norm_num)
  linarith

/-! #### Refined grids -/

theorem logAdd_real (a b : ℝ) : logAdd realLog a b = Real.log (Real.exp a + Real.exp b) := by
  unfold logAdd
  simp only [realLog]
  split_ifs with h
  · rw [show Real.exp a + Real.exp b = Real.exp b * (1 + Real.exp (a - b)) by rw [Real.exp_sub]; field_simp; ring,
      Real.log_mul (ne_of_gt (Real.exp_pos _)) (ne_of_gt (by positivity)), Real.log_exp]
  · rw [show Real.exp a + Real.exp b = Real.exp a * (1 + Real.exp (b - a)) by rw [Real.exp_sub]; field_simp,
      Real.log_mul (ne_of_gt (Real.exp_pos _)) (ne_of_gt (by positivity)), Real.log_exp]

/-- The clipped integral over one grid. -/
noncomputable def ctz (f : ℝ → ℝ) (b : BGrid ℝ) : ℝ :=
  trapSum (diffs (b.points realLog)) (((b.points realLog).map f).map (clipped ((b.points realLog).map f)))

theorem logSumLoop_eq {f : ℝ → ℝ} : ∀ (bs : List (BGrid ℝ)) (l : ℝ), (∀ b ∈ bs, FOk realLog b ((b.points realLog).map f)) →
    logSumLoop realLog l bs = .ok (Real.log (Real.exp l + (bs.map (ctz f)).sum))
  | [], l, _ => by simp [logSumLoop, Real.log_exp]
  | b :: bs, l, h => by
    have hb := h b (by simp)
    unfold logSumLoop
    rw [hb.logtrapzd]
    dsimp only
    rw [logSumLoop_eq bs _ fun b hb => h b (by simp [hb]), logAdd_real, Real.exp_log hb.clip_pos,
      Real.exp_log (add_pos (Real.exp_pos _) hb.clip_pos), List.map_cons, List.sum_cons, ← add_assoc]
    rfl

theorem GFull.logtrapzd {f : ℝ → ℝ} {lo hi : ℝ} {n : ℤ} {g : Grid1D ℝ} (h : GFull realLog f lo hi n g) :
    g.logtrapzd realLog = .ok (Real.log ((g.glist.map (ctz f)).sum)) ∧ 0 < (g.glist.map (ctz f)).sum := by
  have he := h.each
  have hne : g.glist ≠ [] := by
    intro e
    have h1 := h.glist
    have hlt := h.inv.ril.lt
    rw [e] at h1
    have h2 := List.forall₂_nil_right_iff.mp h1
    have := h.inv.ril.tiles
    rw [h2] at this
    exact absurd hlt (by rw [show g.ilist.lo = g.ilist.hi from this]; exact lt_irrefl _)
  unfold Grid1D.logtrapzd
  cases hb : g.glist with
  | nil => exact absurd hb hne
  | cons b bs =>
    rw [hb] at he
    have h1 := he b (by simp)
    dsimp only
    rw [h1.logtrapzd]
    dsimp only
    rw [logSumLoop_eq bs _ fun b hb => he b (by simp [hb]), Real.exp_log h1.clip_pos]
    refine ⟨rfl, ?_⟩
    rw [List.map_cons, List.sum_cons]
    have : 0 ≤ (bs.map (ctz f)).sum := by
      apply List.sum_nonneg
      intro x hx
      obtain ⟨b', hb', rfl⟩ := List.mem_map.mp hx
      exact le_of_lt (he b' (by simp [hb'])).clip_pos
    have := h1.clip_pos
    unfold ctz
    unfold ctz at *
    linarith

theorem Matches.mem {f : ℝ → ℝ} {lo hi : ℝ} {n : ℤ} {g : Grid1D ℝ} (h : GFull realLog f lo hi n g) {b : BGrid ℝ} (hb : b ∈ g.glist) {x : ℝ}
    (hx : x ∈ b.points realLog) : x ∈ gridPoints realLog g.ilist := by
  obtain ⟨I, hI, hm⟩ : ∃ I ∈ g.ilist.ilist, Matches realLog f I b := by
    obtain ⟨k, hk, rfl⟩ := List.mem_iff_getElem.mp hb
    have hlen := h.glist.length_eq
    exact ⟨g.ilist.ilist[k], List.getElem_mem _, (List.forall₂_iff_get.mp h.glist).2 k (by omega) hk⟩
  have hR : RangeOk realLog lo hi true := ⟨by have := h.inv.ril.lt; rw [h.lo, h.hi] at this; exact this, by simp⟩
  obtain ⟨_, _, c3⟩ := C28_points h.reached hR
  have hgd := h.inv.ril.good I hI
  have hIl := h.inv.ril.lin h.inv.ilin I hI
  rw [hm.points hIl] at hx
  have hn := hgd.n
  refine (c3 x).mpr ⟨I, hI, ?_⟩
  rcases List.mem_append.mp hx with hx | hx
  · obtain ⟨i, hi, rfl⟩ := List.mem_map.mp hx
    have := List.mem_range.mp hi
    exact ⟨i, by omega, by omega, rfl⟩
  · exact ⟨I.n - 1, by omega, le_refl _, by rw [pt_last hgd, List.mem_singleton.mp hx]⟩

/-- `xs` are the abscissas of the grid, as its numbered points give them, and the values there are those of `f`. -/
def PointsOf (f : ℝ → ℝ) (g : Grid1D ℝ) (xs : List ℝ) : Prop :=
  (xs.length : ℤ) = g.totpts ∧ ∀ (k : ℕ) (hk : k < xs.length), ∃ w, g.point realLog k = .ok (xs[k], w, some (f xs[k]))

theorem GFull.pointsOf {f : ℝ → ℝ} {lo hi : ℝ} {n : ℤ} {g : Grid1D ℝ} (h : GFull realLog f lo hi n g) {xs : List ℝ} (hx : PointsOf f g xs) :
    xs = gridPoints realLog g.ilist := by
  have hR : RangeOk realLog lo hi true := ⟨by have := h.inv.ril.lt; rw [h.lo, h.hi] at this; exact this, by simp⟩
  obtain ⟨_, c2, _⟩ := C28_points h.reached hR
  obtain ⟨h1, h2⟩ := hx
  have := h.tot
  apply List.ext_getElem (by omega)
  intro k k1 k2
  obtain ⟨w, e⟩ := h2 k k1
  rw [h.point k k2] at e
  injection e with e
  exact (congrArg Prod.fst e).symm

/-- **C32, partial.** The same on refined grids: if no value is more than 725 below another, the exponential of `logtrapzd` is the integral of the
interpolant of the exponentials at all points. What is missing are larger ranges: `C32_refined_bounds`. -/
theorem C32_refined_partial {lo hi : ℝ} {n : ℤ} {f : ℝ → ℝ} {g : Grid1D ℝ} (h : Done lo hi n f g) (hlt : lo < hi) {xs : List ℝ} (hx : PointsOf f g xs)
    (hf : Moderate (xs.map f)) :
    ∃ l, g.logtrapzd realLog = .ok l ∧ ∀ p, Interp xs (xs.map fun x => Real.exp (f x)) p → Real.exp l = ∫ x in lo..hi, p x := by
  have hg := h.full hlt
  have e := hg.pointsOf hx
  obtain ⟨e1, e2, e3⟩ := hg.ends
  rw [← e] at e1 e2 e3
  obtain ⟨l1, l2⟩ := hg.logtrapzd
  refine ⟨_, l1, fun p hp => ?_⟩
  obtain ⟨_, _, i3⟩ := interp_integral e1 e2 e3 hp
  rw [Real.exp_log l2, i3]
  have key : g.glist.map (ctz f) = g.glist.map fun b => tz (fun x => Real.exp (f x)) (b.points realLog) := by
    apply List.map_congr_left
    intro b hb
    unfold ctz tz
    rw [Moderate.clipped, List.map_map]
    · rfl
    · intro y hy z hz
      obtain ⟨a, ha, rfl⟩ := List.mem_map.mp hy
      obtain ⟨c, hc, rfl⟩ := List.mem_map.mp hz
      refine hf _ (List.mem_map.mpr ⟨a, ?_, rfl⟩) _ (List.mem_map.mpr ⟨c, ?_, rfl⟩)
      · rw [e]; exact Matches.mem hg hb ha
      · rw [e]; exact Matches.mem hg hb hc
  rw [key, hg.sum, ← e]
  rfl

theorem ctz_sum_bounds {f : ℝ → ℝ} {lo hi : ℝ} {n : ℤ} {g : Grid1D ℝ} (h : GFull realLog f lo hi n g) {M : ℝ} (hM : ∀ x ∈ gridPoints realLog g.ilist, f x ≤ M) :
    tz (fun x => Real.exp (f x)) (gridPoints realLog g.ilist) ≤ (g.glist.map (ctz f)).sum ∧
    (g.glist.map (ctz f)).sum ≤ tz (fun x => Real.exp (f x)) (gridPoints realLog g.ilist) + (hi - lo) * Real.exp (M - 725) := by
  have h1 : ∀ b ∈ g.glist, tz (fun x => Real.exp (f x)) (b.points realLog) ≤ ctz f b ∧
      ctz f b ≤ tz (fun x => Real.exp (f x)) (b.points realLog) + tz (fun _ => Real.exp (M - 725)) (b.points realLog) := by
    intro b hb
    have hb' := h.each b hb
    have := clip_bounds hb'.ok.sorted (v := (b.points realLog).map f) (by simp) (M := M) (fun y hy => by
      obtain ⟨a, ha, rfl⟩ := List.mem_map.mp hy
      exact hM a (Matches.mem h hb ha))
    rw [List.map_map] at this
    have h2 : tz (fun _ => Real.exp (M - 725)) (b.points realLog) = ((b.points realLog).getLastD 0 - (b.points realLog).headD 0) * Real.exp (M - 725) := by
      unfold tz
      rw [trapSum_one _ _ _ rfl, mul_comm]
    rw [h2]
    exact this
  have h2 : tz (fun _ => Real.exp (M - 725)) (gridPoints realLog g.ilist) = (hi - lo) * Real.exp (M - 725) := by
    unfold tz
    obtain ⟨e1, e2, e3⟩ := h.ends
    rw [trapSum_one _ _ _ rfl, mul_comm, List.getLastD_eq_getLast?, e2, List.headD_eq_head?_getD, e1]
    rfl
  constructor
  · rw [← h.sum]
    exact List.sum_le_sum fun b hb => (h1 b hb).1
  · rw [← h2, ← h.sum, ← h.sum, ← List.sum_map_add]
    exact List.sum_le_sum fun b hb => (h1 b hb).2

/-- **C32.** In general, `logtrapzd` of a refined grid is never too small, and its exponential is too large by at most `(hi - lo) e^(M - 725)`. -/
theorem C32_refined_bounds {lo hi : ℝ} {n : ℤ} {f : ℝ → ℝ} {g : Grid1D ℝ} (h : Done lo hi n f g) (hlt : lo < hi) {xs : List ℝ} (hx : PointsOf f g xs)
    {M : ℝ} (hM : ∀ x ∈ xs, f x ≤ M) :
    ∃ l, g.logtrapzd realLog = .ok l ∧ ∀ p, Interp xs (xs.map fun x => Real.exp (f x)) p →
      (∫ x in lo..hi, p x) ≤ Real.exp l ∧ Real.exp l ≤ (∫ x in lo..hi, p x) + (hi - lo) * Real.exp (M - 725) := by
  have hg := h.full hlt
  have e := hg.pointsOf hx
  obtain ⟨e1, e2, e3⟩ := hg.ends
  rw [← e] at e1 e2 e3
  obtain ⟨l1, l2⟩ := hg.logtrapzd
  refine ⟨_, l1, fun p hp => ?_⟩
  obtain ⟨_, _, i3⟩ := interp_integral e1 e2 e3 hp
  rw [Real.exp_log l2, i3]
  have := ctz_sum_bounds hg (M := M) (by rw [← e]; exact hM)
  rw [← e] at this
  exact this

/-! ### C74 -/

theorem zip_smul (a : ℝ) : ∀ xs v : List ℝ, List.zipWith (· * ·) xs (v.map (a * ·)) = (List.zipWith (· * ·) xs v).map (a * ·)
  | [], v => by simp
  | _ :: _, [] => by simp
  | x :: xs, y :: v => by
    simp only [List.map_cons, List.zipWith_cons_cons, zip_smul a xs v]
    congr 1
    ring

theorem zip_twice (k : ℝ → ℝ) : ∀ xs v : List ℝ, List.zipWith (· * ·) xs (List.zipWith (fun x y => x * k y) xs v) = List.zipWith (fun x y => x * (x * k y)) xs v
  | [], v => by simp
  | _ :: _, [] => by simp
  | x :: xs, y :: v => by simp only [List.zipWith_cons_cons, zip_twice k xs v]

theorem zip_map (f : ℝ → ℝ) (k : ℝ → ℝ → ℝ) : ∀ xs : List ℝ, List.zipWith k xs (xs.map f) = xs.map fun x => k x (f x)
  | [] => rfl
  | x :: xs => by simp only [List.map_cons, List.zipWith_cons_cons, zip_map f k xs]

theorem FOk.moments {g : BGrid ℝ} {v : List ℝ} (h : FOk realLog g v) (hv : Moderate v) :
    g.logtrapzdMom realLog = .ok (Real.log (trapSum (diffs (g.points realLog)) (v.map Real.exp)),
      trapSum (diffs (g.points realLog)) (List.zipWith (fun x y => x * Real.exp y) (g.points realLog) v) / trapSum (diffs (g.points realLog)) (v.map Real.exp),
      trapSum (diffs (g.points realLog)) (List.zipWith (fun x y => x * (x * Real.exp y)) (g.points realLog) v) / trapSum (diffs (g.points realLog)) (v.map Real.exp)) := by
  have hl := h.logtrapzd
  unfold BGrid.logtrapzd at hl
  rw [h.vals, h.widths] at hl
  dsimp only at hl
  injection hl with hl
  have hp := h.clip_pos
  rw [hv.clipped] at hp hl
  unfold BGrid.logtrapzdMom
  rw [h.vals, h.abscissas]
  dsimp only
  rw [hl]
  have hS : ∃ S, S = trapSum (diffs (g.points realLog)) (v.map Real.exp) := ⟨_, rfl⟩
  obtain ⟨S, hS⟩ := hS
  rw [← hS] at hp ⊢
  have hfv : (clipExp realLog (listMax v) v).map (· * realLog.ex (listMax v - Real.log S)) = (v.map Real.exp).map (S⁻¹ * ·) := by
    rw [← hv.clipped, ← clipExp_eq, List.map_map]
    apply List.map_congr_left
    intro y _
    simp only [Function.comp, realLog]
    rw [Real.exp_sub, Real.exp_log hp]
    ring
  rw [hfv, zip_smul, List.zipWith_map_right, zip_smul, trapSum_smul, trapSum_smul]
  have e := zip_twice Real.exp (g.points realLog) v
  rw [e, div_eq_inv_mul, div_eq_inv_mul]

/-- **C74.** The moments of a filled grid whose values are not more than 725 apart: `logtrapzd_mom` returns `logtrapzd`'s value and the first and second moments `m1`, `m2` such that `m1` times the integral
of the interpolant of `e^v` is the integral of the interpolant of `x e^v`, and likewise `m2` with `x² e^v`. -/
theorem C74_basic {lo hi : ℝ} {n : ℤ} {isLin : Bool} {v : List ℝ} {g : BGrid ℝ} (h : Filled lo hi n isLin v g) (hr : RealRange lo hi isLin) (hv : Moderate v) :
    ∃ l m1 m2, g.logtrapzdMom realLog = .ok (l, m1, m2) ∧ g.logtrapzd realLog = .ok l ∧
      ∀ p p1 p2, Interp (absc lo hi n isLin) (v.map Real.exp) p →
        Interp (absc lo hi n isLin) (List.zipWith (fun x y => x * Real.exp y) (absc lo hi n isLin) v) p1 →
        Interp (absc lo hi n isLin) (List.zipWith (fun x y => x * (x * Real.exp y)) (absc lo hi n isLin) v) p2 →
        0 < (∫ x in lo..hi, p x) ∧ m1 = (∫ x in lo..hi, p1 x) / (∫ x in lo..hi, p x) ∧ m2 = (∫ x in lo..hi, p2 x) / (∫ x in lo..hi, p x) := by
  obtain ⟨h1, h2, h3, h4, h5, h6⟩ := h.ok hr
  have hp := h1.clip_pos
  rw [hv.clipped] at hp
  have hl := h1.logtrapzd
  rw [hv.clipped] at hl
  refine ⟨_, _, _, h1.moments hv, hl, fun p p1 p2 i i1 i2 => ?_⟩
  obtain ⟨e1, e2⟩ := points_head h1.ok
  have hs := h1.ok.sorted
  rw [h2] at e1
  rw [h3] at e2
  rw [← h6] at i i1 i2
  obtain ⟨_, _, j⟩ := interp_integral e1 e2 hs i
  obtain ⟨_, _, j1⟩ := interp_integral e1 e2 hs i1
  obtain ⟨_, _, j2⟩ := interp_integral e1 e2 hs i2
  rw [j, j1, j2]
  exact ⟨hp, rfl, rfl⟩

/-- **C74.** Without the argument `nmom`, `logtrapzd_mom` of a refinable grid always raises. -/
theorem C74_violated_default (g : Grid1D ℝ) : g.logtrapzdMom realLog none = .error .attribute := rfl

theorem collectMom_eq {f : ℝ → ℝ} : ∀ bs : List (BGrid ℝ), (∀ b ∈ bs, FOk realLog b ((b.points realLog).map f) ∧ Moderate ((b.points realLog).map f)) →
    collectMom realLog bs = .ok (bs.map fun b => (Real.log (tz (fun x => Real.exp (f x)) (b.points realLog)),
      tz (fun x => x * Real.exp (f x)) (b.points realLog) / tz (fun x => Real.exp (f x)) (b.points realLog),
      tz (fun x => x * (x * Real.exp (f x))) (b.points realLog) / tz (fun x => Real.exp (f x)) (b.points realLog)))
  | [], _ => rfl
  | b :: bs, h => by
    obtain ⟨h1, h2⟩ := h b (by simp)
    unfold collectMom
    rw [h1.moments h2, collectMom_eq bs fun b hb => h b (by simp [hb])]
    dsimp only
    rw [zip_map f (fun x y => x * Real.exp y), zip_map f (fun x y => x * (x * Real.exp y)), List.map_map]
    rfl

/-- **C74.** The same on refined grids with `nmom` given, over all points of the grid.
Missing: `nmom` left to its default, which raises (`C74_violated_default`). -/
theorem C74_refined_partial {lo hi : ℝ} {n : ℤ} {f : ℝ → ℝ} {g : Grid1D ℝ} (h : Done lo hi n f g) (hlt : lo < hi) {xs : List ℝ} (hx : PointsOf f g xs)
    (hf : Moderate (xs.map f)) (nmom : ℕ) :
    ∃ l m1 m2, g.logtrapzdMom realLog (some nmom) = .ok (l, m1, m2) ∧ g.logtrapzd realLog = .ok l ∧
      ∀ p p1 p2, Interp xs (xs.map fun x => Real.exp (f x)) p → Interp xs (xs.map fun x => x * Real.exp (f x)) p1 → Interp xs (xs.map fun x => x * (x * Real.exp (f x))) p2 →
        0 < (∫ x in lo..hi, p x) ∧ m1 = (∫ x in lo..hi, p1 x) / (∫ x in lo..hi, p x) ∧ m2 = (∫ x in lo..hi, p2 x) / (∫ x in lo..hi, p x) := by
  have hg := h.full hlt
  have e := hg.pointsOf hx
  obtain ⟨e1, e2, e3⟩ := hg.ends
  rw [← e] at e1 e2 e3
  have hmod : ∀ b ∈ g.glist, Moderate ((b.points realLog).map f) := by
    intro b hb y hy z hz
    obtain ⟨a, ha, rfl⟩ := List.mem_map.mp hy
    obtain ⟨c, hc, rfl⟩ := List.mem_map.mp hz
    refine hf _ (List.mem_map.mpr ⟨a, ?_, rfl⟩) _ (List.mem_map.mpr ⟨c, ?_, rfl⟩)
    · rw [e]; exact Matches.mem hg hb ha
    · rw [e]; exact Matches.mem hg hb hc
  have hpos : ∀ b ∈ g.glist, 0 < tz (fun x => Real.exp (f x)) (b.points realLog) := by
    intro b hb
    have := (hg.each b hb).clip_pos
    rw [(hmod b hb).clipped, List.map_map] at this
    exact this
  have key : g.glist.map (ctz f) = g.glist.map fun b => tz (fun x => Real.exp (f x)) (b.points realLog) := by
    apply List.map_congr_left
    intro b hb
    unfold ctz tz
    rw [(hmod b hb).clipped, List.map_map]
    rfl
  obtain ⟨l1, l2⟩ := hg.logtrapzd
  rw [key, hg.sum, ← e] at l1 l2
  -- the result
  have hc := collectMom_eq (f := f) g.glist fun b hb => ⟨hg.each b hb, hmod b hb⟩
  unfold Grid1D.logtrapzdMom
  dsimp only
  rw [hc]
  dsimp only
  simp only [List.map_map]
  have hq : ∀ qmax : ℝ, qmax + realLog.lg ((g.glist.map ((fun x => realLog.ex (x - qmax)) ∘ (fun m : ℝ × ℝ × ℝ => m.1) ∘
      fun b => (Real.log (tz (fun x => Real.exp (f x)) (b.points realLog)),
        tz (fun x => x * Real.exp (f x)) (b.points realLog) / tz (fun x => Real.exp (f x)) (b.points realLog),
        tz (fun x => x * (x * Real.exp (f x))) (b.points realLog) / tz (fun x => Real.exp (f x)) (b.points realLog)))).sum) =
      Real.log (tz (fun x => Real.exp (f x)) xs) := by
    intro qmax
    have h1 : g.glist.map ((fun x => realLog.ex (x - qmax)) ∘ (fun m : ℝ × ℝ × ℝ => m.1) ∘
      fun b => (Real.log (tz (fun x => Real.exp (f x)) (b.points realLog)),
        tz (fun x => x * Real.exp (f x)) (b.points realLog) / tz (fun x => Real.exp (f x)) (b.points realLog),
        tz (fun x => x * (x * Real.exp (f x))) (b.points realLog) / tz (fun x => Real.exp (f x)) (b.points realLog))) =
        g.glist.map fun b => (Real.exp qmax)⁻¹ * tz (fun x => Real.exp (f x)) (b.points realLog) := by
      apply List.map_congr_left
      intro b hb
      change Real.exp (Real.log (tz (fun x => Real.exp (f x)) (b.points realLog)) - qmax) = _
      rw [Real.exp_sub, Real.exp_log (hpos b hb), div_eq_inv_mul]
    rw [h1, List.sum_map_mul_left, hg.sum, ← e]
    change qmax + Real.log _ = _
    rw [Real.log_mul (ne_of_gt (inv_pos.mpr (Real.exp_pos _))) (ne_of_gt l2), Real.log_inv, Real.log_exp]
    ring
  rw [hq]
  have hm : ∀ k : ℝ → ℝ, (g.glist.map fun b => Real.exp (Real.log (tz (fun x => Real.exp (f x)) (b.points realLog)) - Real.log (tz (fun x => Real.exp (f x)) xs)) *
      (tz k (b.points realLog) / tz (fun x => Real.exp (f x)) (b.points realLog))).sum = tz k xs / tz (fun x => Real.exp (f x)) xs := by
    intro k
    rw [e, ← hg.sum k, ← e, div_eq_inv_mul, ← List.sum_map_mul_left]
    congr 1
    apply List.map_congr_left
    intro b hb
    have := hpos b hb
    rw [Real.exp_sub, Real.exp_log this, Real.exp_log l2]
    field_simp
  refine ⟨_, _, _, rfl, l1, fun p p1 p2 i i1 i2 => ?_⟩
  obtain ⟨_, _, j⟩ := interp_integral e1 e2 e3 i
  obtain ⟨_, _, j1⟩ := interp_integral e1 e2 e3 i1
  obtain ⟨_, _, j2⟩ := interp_integral e1 e2 e3 i2
  rw [j, j1, j2]
  exact ⟨l2, hm _, hm _⟩

/-! ### C75 -/

/-- First passes with several functions, one after the other. -/
noncomputable def firstPasses (fn : Fns ℝ) : List (ℝ → ℝ) → Grid1D ℝ → Res (Grid1D ℝ)
  | [], g => ok g
  | f :: fs, g => (g.firstpass fn f).andThen fun g => firstPasses fn fs g

theorem firstPasses_inv {lo hi : ℝ} {n : ℤ} : ∀ (fs : List (ℝ → ℝ)) (f : ℝ → ℝ) {g : Grid1D ℝ}, GInv realLog g → g.base.lo = lo → g.base.hi = hi → g.base.n = n → g.refined = false →
    ∃ g', firstPasses realFns (fs ++ [f]) g = ok g' ∧ g'.glist = [g'.base] ∧ FOk realLog g'.base ((g'.base.points realLog).map f) ∧ g'.base.lo = lo ∧ g'.base.hi = hi ∧ g'.base.n = n ∧ g'.base.isLin = true
  | [], f, g, h, h1, h2, h3, h4 => by
    obtain ⟨g', e, e1, e2, _, _, _, _, e7, e8⟩ := firstpass_spec (fn := realFns) realFns_sqrt h f
    refine ⟨g', by simp only [List.nil_append, firstPasses]; rw [e]; rfl, by rw [e8, h4]; rfl, e2, ?_, ?_, ?_, e1.lin⟩ <;> rw [e7] <;> assumption
  | f0 :: fs, f, g, h, h1, h2, h3, h4 => by
    obtain ⟨g', e, e1, e2, _, _, e5, _, e7, e8⟩ := firstpass_spec (fn := realFns) realFns_sqrt h f0
    obtain ⟨g2, k1, k2⟩ := firstPasses_inv fs f (g := g') (lo := lo) (hi := hi) (n := n) e1 (by rw [e7]; exact h1) (by rw [e7]; exact h2) (by rw [e7]; exact h3) (by rw [e5]; exact h4)
    refine ⟨g2, ?_, k2⟩
    simp only [List.cons_append, firstPasses]
    rw [e]
    exact k1

/-- **C75, partial.** Before any refinement, integrals are those of the last function passed to `firstpass`. What is missing is what happens after a refinement: `C75_violated`. -/
theorem C75_unrefined_partial {lo hi : ℝ} {n : ℤ} {g0 : Grid1D ℝ} (h : Fresh lo hi n g0) (hlt : lo < hi) (fs : List (ℝ → ℝ)) (f : ℝ → ℝ) :
    ∃ g q, firstPasses realFns (fs ++ [f]) g0 = ok g ∧ g.trapzd realLog = .ok q ∧
      ∀ p, Interp (absc lo hi n true) ((absc lo hi n true).map f) p → q = ∫ x in lo..hi, p x := by
  obtain ⟨nmax, dyn, sigpts, nsig, rp, h1, h2, h3, h4, h5⟩ := h
  obtain ⟨i1, i2, i3, i4, i5, i6, _⟩ := init_ginv h1 hlt h2 h3 h4 h5
  obtain ⟨g, e, e1, e2, e3, e4, e5, e6⟩ := firstPasses_inv fs f i1 i2 i3 i4 i6
  refine ⟨g, tz f (g.base.points realLog), e, ?_, fun p hp => ?_⟩
  · unfold Grid1D.trapzd
    rw [e1, foldl_trapzd (f := f) _ _ (by simpa using e2)]
    simp
  · have hpts := points_absc e2.ok
    rw [e3, e4, e5, e6] at hpts
    obtain ⟨k1, k2⟩ := points_head e2.ok
    have hs := e2.ok.sorted
    rw [e3] at k1
    rw [e4] at k2
    rw [← hpts] at hp
    exact (interp_integral k1 k2 hs hp).2.2.symm

/-- **C75, violated.** Once a grid has been refined, a first pass with another function changes neither its integrals nor its points. -/
theorem C75_violated {lo hi : ℝ} {n : ℤ} {f : ℝ → ℝ} {g0 g : Grid1D ℝ} {os : List GOp} (h : Fresh lo hi n g0) (hlt : lo < hi)
    (hg : runOps realFns f (.first :: (os ++ [.refine])) g0 = ok g) (f' : ℝ → ℝ) :
    ∃ g', g.firstpass realFns f' = ok g' ∧ g'.trapzd realLog = g.trapzd realLog ∧ g'.logtrapzd realLog = g.logtrapzd realLog ∧ ∀ k, g'.point realLog k = g.point realLog k := by
  obtain ⟨g1, e1, h1⟩ := h.done hlt os (f := f)
  have hr : g.refined = true := by
    have key : ∀ (os : List GOp) (g1 : Grid1D ℝ), runOps realFns f (os ++ [.refine]) g1 = (runOps realFns f os g1).andThen fun g => g.refine realFns f := by
      intro os
      induction os with
      | nil =>
        intro g1
        change (g1.refine realFns f).andThen _ = _
        change _ = g1.refine realFns f
        generalize g1.refine realFns f = r
        obtain ⟨a, _ | b⟩ := r <;> rfl
      | cons o os ih =>
        intro g1
        change (o.apply realFns f g1).andThen _ = ((o.apply realFns f g1).andThen _).andThen _
        generalize o.apply realFns f g1 = r
        obtain ⟨a, _ | b⟩ := r
        · exact ih a
        · rfl
    rw [← List.cons_append, key, e1] at hg
    obtain ⟨g2, k1, k2, k3, k4, k5, k6, k7, k8⟩ := refine_spec (fn := realFns) realFns_sqrt h1.inv h1.base
    have : g = g2 := by
      have : (ok g1 : Res (Grid1D ℝ)).andThen (fun g => g.refine realFns f) = g1.refine realFns f := rfl
      rw [this, k1] at hg
      exact (congrArg Prod.fst hg).symm
    rw [this]; exact k7
  have hfull : GFull realLog f lo hi n g := by
    have : Done lo hi n f g := ⟨g0, os ++ [.refine], h, hg⟩
    exact this.full hlt
  obtain ⟨g', e, _, _, _, e4, _, _, _, e8⟩ := firstpass_spec (fn := realFns) realFns_sqrt hfull.inv f'
  rw [hr, if_pos rfl] at e8
  refine ⟨g', e, ?_, ?_, fun k => ?_⟩
  · unfold Grid1D.trapzd; rw [e8]
  · unfold Grid1D.logtrapzd; rw [e8]
  · unfold Grid1D.point; rw [e8, e4]

/-! ### C33 for refinable grids -/

theorem firstPasses_lml {lo hi : ℝ} {n : ℤ} : ∀ (fs : List (ℝ → ℝ)) {g : Grid1D ℝ}, GInv realLog g → g.base.lo = lo → g.base.hi = hi → g.base.n = n →
    ∃ g' oss, firstPasses realFns fs g = ok g' ∧ g.lml.updates oss.flatten = ok g'.lml ∧
      List.Forall₂ (fun (f : ℝ → ℝ) (os : List (ℝ × Label ℝ)) => (os.map fun o => o.2.1).Nodup ∧
        ∀ i, i ∈ os.map (fun o => o.2.1) ↔ PeakAt n.toNat (fun i => f (lo + i * ((hi - lo) / (n - 1)))) i) fs oss
  | [], g, h, h1, h2, h3 => ⟨g, [], rfl, rfl, .nil⟩
  | f :: fs, g, h, h1, h2, h3 => by
    obtain ⟨g', e, e1, e2, e3, _, _, _, e7, _⟩ := firstpass_spec (fn := realFns) realFns_sqrt h f
    obtain ⟨g2, oss, k1, k2, k3⟩ := firstPasses_lml fs (g := g') (lo := lo) (hi := hi) (n := n) e1 (by rw [e7]; exact h1) (by rw [e7]; exact h2) (by rw [e7]; exact h3)
    refine ⟨g2, g.base.allOffers realFns f :: oss, ?_, ?_, .cons ?_ k3⟩
    · simp only [firstPasses]
      rw [e]
      exact k1
    · rw [List.flatten_cons, updates_append, e3]
      exact k2
    · obtain ⟨p1, p2⟩ := allOffers_idx realFns g.base h.base.n f
      refine ⟨p1, fun i => ?_⟩
      rw [p2, h3]
      have hx : ∀ i, g.base.x realFns.toLogExp i = lo + i * ((hi - lo) / (n - 1)) := by
        intro i
        unfold BGrid.x
        rw [if_pos h.lin, h.base.lin h.lin, h1, h2, h3]
      simp only [hx]

/-- **C33.** First passes over a refinable grid, with one function after the other, never raise, and the list of maxima is then what it was after being offered the local maxima of each function on the grid,
each once. -/
theorem C33_firstpass {lo hi : ℝ} {n : ℤ} {g0 : Grid1D ℝ} (h : Fresh lo hi n g0) (hlt : lo < hi) (fs : List (ℝ → ℝ)) :
    ∃ g oss, firstPasses realFns fs g0 = ok g ∧ g0.lml.updates oss.flatten = ok g.lml ∧ g0.lml.list = [] ∧
      List.Forall₂ (fun (f : ℝ → ℝ) (os : List (ℝ × Label ℝ)) => (os.map fun o => o.2.1).Nodup ∧
        ∀ i, i ∈ os.map (fun o => o.2.1) ↔ PeakAt n.toNat (fun i => f (lo + i * ((hi - lo) / (n - 1)))) i) fs oss := by
  obtain ⟨nmax, dyn, sigpts, nsig, rp, h1, h2, h3, h4, h5⟩ := h
  obtain ⟨i1, i2, i3, i4, i5, i6, i7, _⟩ := init_ginv h1 hlt h2 h3 h4 h5
  obtain ⟨g, oss, e1, e2, e3⟩ := firstPasses_lml fs i1 i2 i3 i4
  exact ⟨g, oss, e1, e2, by rw [i7], e3⟩

/-! ### Non-vacuity -/

/-- A grid of 11 points on `[0, 10]` can be made, so that the theorems about `Filled` and `Fresh` grids apply. -/
theorem fresh_exists : ∃ g, Fresh 0 10 11 g := by
  have h1 : mkGrid realLog 0 10 11 true true = .ok { lo := 0, hi := 10, n := 11, isLin := true, rankPeak := true, step := (10 - 0) / (((11 : ℤ) : ℝ) - 1) } := by
    unfold mkGrid
    rw [if_neg (by norm_num), if_neg (by simp)]
    rfl
  have h2 : ∃ r, RIL.init realLog 0 10 11 true = .ok r := by
    unfold RIL.init
    rw [if_neg (by norm_num), if_neg (by norm_num)]
    dsimp only
    rw [if_neg (by simp)]
    simp only [mkIntv]
    rw [if_neg (by norm_num)]
    exact ⟨_, rfl⟩
  obtain ⟨r, hr⟩ := h2
  have h3 : ∃ g, Grid1D.init realLog 0 10 11 true (some 5) (some 3) 5 2 true = .ok g := by
    unfold Grid1D.init
    rw [h1]
    dsimp only
    rw [hr]
    exact ⟨_, rfl⟩
  obtain ⟨g, hg⟩ := h3
  exact ⟨g, some 5, some 3, 5, 2, true, hg, by simp, by simp, by norm_num, by norm_num⟩

example : ∃ g, Done 0 10 11 (fun x => -(x - 3) ^ 2) g := by
  obtain ⟨g0, h⟩ := fresh_exists
  obtain ⟨g, e, _⟩ := h.done (by norm_num) [.refine, .refine] (f := fun x => -(x - 3) ^ 2)
  exact ⟨g, g0, _, h, e⟩

/-- Rational functions in place of the transcendental ones, to run the model. -/
def ratFns : Fns ℚ := { lg := fun x => x, ex := fun x => x, sqrt := fun x => x, rt2pi := 5 / 2 }

/-- A run of the model: a first pass finds the maximum at 3, and the refinement adds points around it. -/
def ratRun : Except Err (ℤ × ℕ × ℕ) :=
  match Grid1D.init ratFns.toLogExp 0 10 11 true (some 5) none 6 2 true with
  | .error e => .error e
  | .ok g =>
    let r := (g.firstpass ratFns fun x => -(x - 3) ^ 2).andThen fun g => g.refine ratFns fun x => -(x - 3) ^ 2
    match r.2 with
    | some e => .error e
    | none => .ok (r.1.totpts, r.1.glist.length, r.1.lml.list.length)

example : ratRun.toOption = some (19, 3, 1) := by decide +kernel

end Verif.Grid1
