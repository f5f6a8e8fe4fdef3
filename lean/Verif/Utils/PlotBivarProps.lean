import Verif.Utils.PlotBivar
import Verif.Grid.SigmaProps
import Mathlib.Analysis.SpecialFunctions.Gaussian.GaussianIntegral
import Mathlib.MeasureTheory.Measure.Lebesgue.EqHaar
import Mathlib.Tactic.Linarith
import Mathlib.Tactic.FieldSimp

/-!
# Property C212: plots of functions of two arguments and of grids
-/

set_option linter.unusedSectionVars false

noncomputable section

namespace Verif.PlotBivar

open Real MeasureTheory Set
open scoped ENNReal

/-! ### Specification -/

/-- The value drawn at the point of arguments number `i` and `j` is `f i j` less the greatest of all. -/
def Plots (x y : List ℝ) (f : ℕ → ℕ → ℝ) (pts : List (ℝ × ℝ × ℝ)) : Prop :=
  ∃ m, IsGreatest {v | ∃ i < x.length, ∃ j < y.length, v = f i j} m ∧
    ∀ p, p ∈ pts ↔ ∃ i, ∃ j, ∃ (hi : i < x.length) (hj : j < y.length), p = (x[i], y[j], f i j - m)

/-- The density at `z` of the normal distribution with mean `m` for which `B (z - m)` are two independent standard normal numbers. -/
def normal2 (B : (ℝ × ℝ) →ₗ[ℝ] ℝ × ℝ) (m z : ℝ × ℝ) : ℝ := |LinearMap.det B| * Sigma.dens2 (B (z - m))

/-- The probability that a standard normal number is within `k` of zero. -/
def within (k : ℝ) : ℝ := (∫ u in -k..k, exp (-u ^ 2 / 2)) / √(2 * π)

/-! ### Lemmas -/

theorem max_greatest (a : Arr2) (m : ℝ) (h : a.max? = some m) : IsGreatest {v | ∃ i < a.rows, ∃ j < a.cols, v = a.val i j} m := by
  obtain ⟨h1, h2⟩ := List.max?_eq_some_iff.1 h
  have hm : ∀ v, v ∈ a.elems ↔ ∃ i < a.rows, ∃ j < a.cols, v = a.val i j := by
    intro v
    unfold Arr2.elems
    simp [eq_comm]
  exact ⟨(hm m).1 h1, fun v hv => h2 v ((hm v).2 hv)⟩

theorem max_some (a : Arr2) (h1 : 0 < a.rows) (h2 : 0 < a.cols) : ∃ m, a.max? = some m := by
  rcases h : a.max? with _ | m
  · rw [Arr2.max?, List.max?_eq_none_iff] at h
    have : a.val 0 0 ∈ a.elems := by
      unfold Arr2.elems
      simp only [List.mem_flatMap, List.mem_map, List.mem_range]
      exact ⟨0, h1, 0, h2, rfl⟩
    rw [h] at this
    cases this
  · exact ⟨m, rfl⟩

theorem getD_lt (l : List ℝ) (i : ℕ) (h : i < l.length) : l.getD i 0 = l[i] := by simp [h]

/-- What is drawn when nothing is wrong. -/
theorem plotBivar_eq (x y : List ℝ) (f : Arr2) (iorder : String) (levels plevels : Option (List ℝ)) (hx : 2 ≤ x.length) (hy : 2 ≤ y.length)
    (h : (iorder = "xy" ∧ f.rows = x.length ∧ f.cols = y.length) ∨ (iorder = "yx" ∧ f.rows = y.length ∧ f.cols = x.length)) :
    ∃ g : Arr2, ∃ m, g = (if iorder = "xy" then f.transpose else f) ∧ g.rows = y.length ∧ g.cols = x.length ∧ g.max? = some m ∧
      ∀ cross gs, plotBivar x y f iorder levels plevels cross gs =
        let c := Draw.contour ((List.range y.length).flatMap fun i => (List.range x.length).map fun j => (x.getD j 0, y.getD i 0, g.val i j - m)) (theLevels levels plevels m)
        let fmt := formatCoord (x.getD 0 0) (x.getD (x.length - 1) 0) (y.getD 0 0) (y.getD (y.length - 1) 0) (g.sub m)
        let rest (d : List Draw) : Plot := if cross.isSome then (d ++ [c], .error .name) else (d ++ [c], .ok fmt)
        match gs.use with
        | none => rest []
        | some s => match (theLevels levels plevels m).min? with
          | none => ([], .error .value)
          | some l => rest [.image (g.sub m) (s * l) 0 (x.getD 0 0) (x.getD (x.length - 1) 0) (y.getD 0 0) (y.getD (y.length - 1) 0)] := by
  have hx0 : x ≠ [] := by rintro rfl; simp at hx
  have hy0 : y ≠ [] := by rintro rfl; simp at hy
  have hg : (if iorder = "xy" then f.transpose else f).rows = y.length ∧ (if iorder = "xy" then f.transpose else f).cols = x.length := by
    rcases h with ⟨rfl, h1, h2⟩ | ⟨rfl, h1, h2⟩
    · rw [if_pos rfl]
      exact ⟨h2, h1⟩
    · rw [if_neg (by decide)]
      exact ⟨h1, h2⟩
  obtain ⟨m, hm⟩ := max_some _ (show 0 < (if iorder = "xy" then f.transpose else f).rows by rw [hg.1]; omega) (by rw [hg.2]; omega)
  refine ⟨_, m, rfl, hg.1, hg.2, hm, fun cross gs => ?_⟩
  unfold plotBivar meshgrid
  have hio : ¬ (iorder ≠ "xy" ∧ iorder ≠ "yx") := by
    rcases h with ⟨rfl, -⟩ | ⟨rfl, -⟩ <;> simp
  simp only [hx0, hy0, or_self, if_false, hio, hm]
  have hc : contour ⟨y.length, x.length, fun _ j => x.getD j 0⟩ ⟨y.length, x.length, fun i _ => y.getD i 0⟩ ((if iorder = "xy" then f.transpose else f).sub m)
      (theLevels levels plevels m) = .ok (.contour ((List.range y.length).flatMap fun i => (List.range x.length).map fun j =>
        (x.getD j 0, y.getD i 0, (if iorder = "xy" then f.transpose else f).val i j - m)) (theLevels levels plevels m)) := by
    unfold contour
    have e1 : ((if iorder = "xy" then f.transpose else f).sub m).rows = y.length := hg.1
    have e2 : ((if iorder = "xy" then f.transpose else f).sub m).cols = x.length := hg.2
    rw [if_pos ⟨e1.symm, e2.symm, e1.symm, e2.symm, by omega, by omega⟩, e1, e2]
    rfl
  rw [hc]
  rcases gs.use with _ | q
  · rfl
  · rcases (theLevels levels plevels m).min? with _ | l <;> rfl

/-! ### C212 -/

/-- **C212** (points).  For grids of at least two values of either argument, the contours are those of the function less its greatest value, at the right points,
whichever index comes first, and with or without an image. -/
theorem C212_points (x y : List ℝ) (f : Arr2) (iorder : String) (levels plevels : Option (List ℝ)) (gs : GScale) (hx : 2 ≤ x.length) (hy : 2 ≤ y.length)
    (h : (iorder = "xy" ∧ f.rows = x.length ∧ f.cols = y.length) ∨ (iorder = "yx" ∧ f.rows = y.length ∧ f.cols = x.length))
    (hl : gs.use ≠ none → levels ≠ some [] ∧ plevels ≠ some []) :
    ∃ d pts lv fmt, plotBivar x y f iorder levels plevels none gs = (d ++ [.contour pts lv], .ok fmt) ∧
      Plots x y (fun i j => if iorder = "xy" then f.val i j else f.val j i) pts ∧ (gs.use = none → d = []) ∧
      (∀ L, levels = some L → ∃ m, IsGreatest {v | ∃ i < f.rows, ∃ j < f.cols, v = f.val i j} m ∧ lv = L.map (· - m)) := by
  obtain ⟨g, m, hg, h1, h2, hm, he⟩ := plotBivar_eq x y f iorder levels plevels hx hy h
  have hval : ∀ i j, g.val i j = if iorder = "xy" then f.val j i else f.val i j := by
    intro i j
    rw [hg]
    by_cases hi : iorder = "xy"
    · simp [hi, Arr2.transpose]
    · simp [hi]
  have hset : {v | ∃ i < g.rows, ∃ j < g.cols, v = g.val i j} = {v | ∃ i < x.length, ∃ j < y.length, v = if iorder = "xy" then f.val i j else f.val j i} := by
    ext v
    simp only [h1, h2, hval, mem_setOf_eq]
    constructor
    · rintro ⟨i, hi, j, hj, e⟩
      exact ⟨j, hj, i, hi, e⟩
    · rintro ⟨i, hi, j, hj, e⟩
      exact ⟨j, hj, i, hi, e⟩
  have hset' : {v | ∃ i < g.rows, ∃ j < g.cols, v = g.val i j} = {v | ∃ i < f.rows, ∃ j < f.cols, v = f.val i j} := by
    rw [hset]
    ext v
    rcases h with ⟨rfl, e1, e2⟩ | ⟨rfl, e1, e2⟩
    · simp [e1, e2]
    · simp only [mem_setOf_eq, e1, e2, show ("yx" : String) ≠ "xy" by decide, if_false]
      constructor
      · rintro ⟨i, hi, j, hj, e⟩
        exact ⟨j, hj, i, hi, e⟩
      · rintro ⟨i, hi, j, hj, e⟩
        exact ⟨j, hj, i, hi, e⟩
  have hgr := max_greatest g m hm
  have hpts : Plots x y (fun i j => if iorder = "xy" then f.val i j else f.val j i)
      ((List.range y.length).flatMap fun i => (List.range x.length).map fun j => (x.getD j 0, y.getD i 0, g.val i j - m)) := by
    refine ⟨m, hset ▸ hgr, fun p => ?_⟩
    simp only [List.mem_flatMap, List.mem_map, List.mem_range, hval]
    constructor
    · rintro ⟨i, hi, j, hj, rfl⟩
      exact ⟨j, i, hj, hi, by rw [getD_lt _ _ hi, getD_lt _ _ hj]⟩
    · rintro ⟨i, j, hi, hj, rfl⟩
      exact ⟨j, hj, i, hi, by rw [getD_lt _ _ hi, getD_lt _ _ hj]⟩
  have hlv : ∀ L, levels = some L → ∃ m', IsGreatest {v | ∃ i < f.rows, ∃ j < f.cols, v = f.val i j} m' ∧ theLevels levels plevels m = L.map (· - m') := by
    rintro L rfl
    exact ⟨m, hset' ▸ hgr, rfl⟩
  rcases hu : gs.use with _ | s
  · have e := he none gs
    simp only [hu, Option.isSome_none, Bool.false_eq_true, if_false] at e
    exact ⟨[], _, _, _, e, hpts, fun _ => rfl, hlv⟩
  · obtain ⟨l, hmin⟩ : ∃ l, (theLevels levels plevels m).min? = some l := by
      rcases hmin : (theLevels levels plevels m).min? with _ | l
      · rw [List.min?_eq_none_iff] at hmin
        obtain ⟨q1, q2⟩ := hl (by rw [hu]; simp)
        unfold theLevels normalPlevels at hmin
        rcases levels with _ | L
        · rcases plevels with _ | P
          · simp [List.range'] at hmin
          · simp only [List.map_eq_nil_iff] at hmin
            exact absurd (by rw [hmin]) q2
        · simp only [List.map_eq_nil_iff] at hmin
          exact absurd (by rw [hmin]) q1
      · exact ⟨l, rfl⟩
    have e := he none gs
    simp only [hu, hmin, Option.isSome_none, Bool.false_eq_true, if_false] at e
    exact ⟨_, _, _, _, e, hpts, fun hn => by simp at hn, hlv⟩

/-- A case: three values of one argument, two of the other. -/
example : ∃ (x y : List ℝ) (f : Arr2), 2 ≤ x.length ∧ 2 ≤ y.length ∧ f.rows = x.length ∧ f.cols = y.length ∧ f.val 2 1 ≠ f.val 1 2 :=
  ⟨[0, 1, 2], [5, 6], ⟨3, 2, fun i j => i + 10 * j⟩, by simp, by simp, rfl, rfl, by norm_num⟩

/-- The probability of the region where a normal density exceeds `exp l` times its greatest value. -/
theorem normal_region (B : (ℝ × ℝ) →ₗ[ℝ] ℝ × ℝ) (hB : LinearMap.det B ≠ 0) (m : ℝ × ℝ) {l : ℝ} (hl : l ≤ 0) :
    ∫⁻ z in {z | l < log (normal2 B m z) - log (normal2 B m m)}, ENNReal.ofReal (normal2 B m z) = ENNReal.ofReal (1 - exp l) := by
  have hpi := pi_pos
  have hd : 0 < |LinearMap.det B| := abs_pos.2 hB
  have hn : ∀ z, log (normal2 B m z) - log (normal2 B m m) = -((B (z - m)).1 ^ 2 + (B (z - m)).2 ^ 2) / 2 := by
    intro z
    have hp : ∀ w, 0 < normal2 B m w := fun w => by unfold normal2 Sigma.dens2; positivity
    rw [← log_div (hp z).ne' (hp m).ne']
    have : normal2 B m z / normal2 B m m = exp (-((B (z - m)).1 ^ 2 + (B (z - m)).2 ^ 2) / 2) := by
      unfold normal2 Sigma.dens2
      simp only [sub_self, map_zero, Prod.fst_zero, Prod.snd_zero]
      norm_num
      field_simp
    rw [this, log_exp]
  set s := √(-2 * l) with hs
  have hs2 : s ^ 2 = -2 * l := sq_sqrt (by linarith)
  set D := {w : ℝ × ℝ | w.1 ^ 2 + w.2 ^ 2 < s ^ 2} with hD
  have hDm : MeasurableSet D := (isOpen_lt (by fun_prop) (by fun_prop)).measurableSet
  have hcB : Continuous B := B.continuous_of_finiteDimensional
  have hset : {z | l < log (normal2 B m z) - log (normal2 B m m)} = {z | B (z - m) ∈ D} := by
    ext z
    simp only [mem_setOf_eq, hn, hD, hs2]
    constructor <;> intro h <;> linarith
  have hms : MeasurableSet {z | B (z - m) ∈ D} := (hcB.comp (continuous_id.sub continuous_const)).measurable hDm
  set G : ℝ × ℝ → ℝ≥0∞ := D.indicator fun w => ENNReal.ofReal (Sigma.dens2 w) with hG
  have hGm : Measurable G := by
    refine Measurable.indicator (ENNReal.measurable_ofReal.comp ?_) hDm
    unfold Sigma.dens2
    fun_prop
  have hint : ∀ z, {z | B (z - m) ∈ D}.indicator (fun z => ENNReal.ofReal (normal2 B m z)) z = ENNReal.ofReal |LinearMap.det B| * G (B (z - m)) := by
    intro z
    rw [hG]
    by_cases h : B (z - m) ∈ D
    · rw [indicator_of_mem (show z ∈ {z | B (z - m) ∈ D} from h), indicator_of_mem h, normal2, ENNReal.ofReal_mul hd.le]
    · rw [indicator_of_notMem (show z ∉ {z | B (z - m) ∈ D} from h), indicator_of_notMem h, mul_zero]
  rw [hset, ← lintegral_indicator hms, lintegral_congr hint, lintegral_const_mul _ (f := fun z => G (B (z - m))) (hGm.comp (hcB.comp (continuous_id.sub continuous_const)).measurable)]
  rw [lintegral_sub_right_eq_self (fun z => G (B z)) m, ← lintegral_map hGm hcB.measurable, Measure.map_linearMap_addHaar_eq_smul_addHaar _ hB, lintegral_smul_measure,
    smul_eq_mul, ← mul_assoc, ← ENNReal.ofReal_mul hd.le, abs_inv, mul_inv_cancel₀ hd.ne', ENNReal.ofReal_one, one_mul, hG, lintegral_indicator hDm,
    Sigma.C205_disc (sqrt_nonneg _)]
  unfold Sigma.sig2prob
  rw [← hs, neg_eq_neg_one_mul, hs2]
  congr 3
  ring

theorem within_lt_one {k : ℝ} (hk : 0 ≤ k) : within k < 1 ∧ 0 ≤ within k := by
  have hpi : 0 < √(2 * π) := sqrt_pos.2 (by positivity)
  have hg : ∫ u : ℝ, exp (-u ^ 2 / 2) = √(2 * π) := by
    have := integral_gaussian (1 / 2)
    rw [show π / (1 / 2) = 2 * π by ring] at this
    rw [← this]
    congr 1
    funext u
    congr 1
    ring
  have hi : Integrable fun u : ℝ => exp (-u ^ 2 / 2) := by
    have := integrable_exp_neg_mul_sq (b := 1 / 2) (by norm_num)
    refine this.congr (Filter.Eventually.of_forall fun u => ?_)
    simp only
    congr 1
    ring
  have hc : Continuous fun u : ℝ => exp (-u ^ 2 / 2) := by fun_prop
  have h1 : ∫ u in -k..k + 1, exp (-u ^ 2 / 2) ≤ √(2 * π) := by
    rw [intervalIntegral.integral_of_le (by linarith), ← hg]
    exact setIntegral_le_integral hi (Filter.Eventually.of_forall fun u => (exp_pos _).le)
  have h2 : (∫ u in -k..k, exp (-u ^ 2 / 2)) + ∫ u in k..k + 1, exp (-u ^ 2 / 2) = ∫ u in -k..k + 1, exp (-u ^ 2 / 2) :=
    intervalIntegral.integral_add_adjacent_intervals (hc.intervalIntegrable _ _) (hc.intervalIntegrable _ _)
  have h3 : 0 < ∫ u in k..k + 1, exp (-u ^ 2 / 2) :=
    intervalIntegral.intervalIntegral_pos_of_pos (hc.intervalIntegrable _ _) (fun u => exp_pos _) (by linarith)
  unfold within
  constructor
  · rw [div_lt_one hpi]
    linarith
  · exact div_nonneg (intervalIntegral.integral_nonneg (by linarith) fun u _ => (exp_pos _).le) hpi.le

theorem within_strictMono {j k : ℝ} (hj : 0 ≤ j) (h : j < k) : within j < within k := by
  have hpi : 0 < √(2 * π) := sqrt_pos.2 (by positivity)
  have hc : Continuous fun u : ℝ => exp (-u ^ 2 / 2) := by fun_prop
  have h2 : (∫ u in -k..-j, exp (-u ^ 2 / 2)) + ∫ u in -j..k, exp (-u ^ 2 / 2) = ∫ u in -k..k, exp (-u ^ 2 / 2) :=
    intervalIntegral.integral_add_adjacent_intervals (hc.intervalIntegrable _ _) (hc.intervalIntegrable _ _)
  have h3 : (∫ u in -j..j, exp (-u ^ 2 / 2)) + ∫ u in j..k, exp (-u ^ 2 / 2) = ∫ u in -j..k, exp (-u ^ 2 / 2) :=
    intervalIntegral.integral_add_adjacent_intervals (hc.intervalIntegrable _ _) (hc.intervalIntegrable _ _)
  have h4 : 0 < ∫ u in j..k, exp (-u ^ 2 / 2) := intervalIntegral.intervalIntegral_pos_of_pos (hc.intervalIntegrable _ _) (fun u => exp_pos _) h
  have h5 : 0 < ∫ u in -k..-j, exp (-u ^ 2 / 2) := intervalIntegral.intervalIntegral_pos_of_pos (hc.intervalIntegrable _ _) (fun u => exp_pos _) (by linarith)
  unfold within
  rw [div_lt_div_iff_of_pos_right hpi]
  linarith

theorem default_levels (m : ℝ) : theLevels none none m = [1, 2, 3, 4, 5, 6].map fun k : ℝ => log (1 - within k) := by
  have e : ∀ k : ℝ, 0 ≤ k → -0.5 * chi2ppf2 (chi2cdf1 (k ^ 2)) = log (1 - within k) := by
    intro k hk
    unfold chi2ppf2 chi2cdf1 within
    rw [sqrt_sq hk]
    ring
  unfold theLevels normalPlevels
  simp only [List.range', List.map_cons, List.map_nil, Nat.cast_one, Nat.cast_ofNat, Nat.reduceAdd]
  rw [e 1 (by norm_num), e 2 (by norm_num), e 3 (by norm_num), e 4 (by norm_num), e 5 (by norm_num), e 6 (by norm_num)]

/-- **C212** (levels).  Of any normal distribution of two numbers, the contour at a level made from a probability `p` encloses the probability `p`, and
the six default ones enclose the probabilities that a single normal number is within one to six standard deviations of its mean. -/
theorem C212_levels (B : (ℝ × ℝ) →ₗ[ℝ] ℝ × ℝ) (hB : LinearMap.det B ≠ 0) (m : ℝ × ℝ) (M : ℝ) (ps : List ℝ) (hps : ∀ p ∈ ps, 0 ≤ p ∧ p < 1) :
    List.Forall₂ (fun l p => ∫⁻ z in {z | l < log (normal2 B m z) - log (normal2 B m m)}, ENNReal.ofReal (normal2 B m z) = ENNReal.ofReal p)
      (theLevels none (some ps) M) ps ∧
    List.Forall₂ (fun l k => ∫⁻ z in {z | l < log (normal2 B m z) - log (normal2 B m m)}, ENNReal.ofReal (normal2 B m z) = ENNReal.ofReal (within k))
      (theLevels none none M) [1, 2, 3, 4, 5, 6] := by
  have key : ∀ p : ℝ, 0 ≤ p → p < 1 →
      ∫⁻ z in {z | log (1 - p) < log (normal2 B m z) - log (normal2 B m m)}, ENNReal.ofReal (normal2 B m z) = ENNReal.ofReal p := by
    intro p h0 h1
    rw [normal_region B hB m (log_nonpos (by linarith) (by linarith)), exp_log (by linarith)]
    congr 1
    ring
  constructor
  · show List.Forall₂ _ (ps.map fun p => -0.5 * chi2ppf2 p) ps
    rw [List.forall₂_map_left_iff, List.forall₂_same]
    intro p hp
    rw [show -0.5 * chi2ppf2 p = log (1 - p) by unfold chi2ppf2; ring]
    exact key p (hps p hp).1 (hps p hp).2
  · rw [default_levels, List.forall₂_map_left_iff, List.forall₂_same]
    intro k hk
    have hk0 : 0 ≤ k := by
      simp only [List.mem_cons, List.not_mem_nil, or_false] at hk
      rcases hk with rfl | rfl | rfl | rfl | rfl | rfl <;> norm_num
    exact key _ (within_lt_one hk0).2 (within_lt_one hk0).1

example : LinearMap.det (LinearMap.id : (ℝ × ℝ) →ₗ[ℝ] ℝ × ℝ) ≠ 0 := by simp

/-- **C212 is violated.**  The default levels are passed on in decreasing order, but Matplotlib's `contour` asks for increasing ones. -/
theorem C212_violated_order (m : ℝ) : (theLevels none none m).Pairwise (· > ·) ∧ ¬ (theLevels none none m).Pairwise (· ≤ ·) := by
  have hlt : ∀ j k : ℝ, 0 ≤ j → j < k → log (1 - within k) < log (1 - within j) := by
    intro j k hj h
    have h1 := within_strictMono hj h
    have h2 := (within_lt_one (hj.trans h.le)).1
    exact log_lt_log (by linarith) (by linarith)
  rw [default_levels]
  have h12 := hlt 1 2 (by norm_num) (by norm_num)
  constructor
  · rw [List.pairwise_map]
    simp only [List.pairwise_cons, List.mem_cons, List.not_mem_nil, or_false]
    refine ⟨?_, ?_, ?_, ?_, ?_, ?_, List.Pairwise.nil⟩ <;> intro a ha <;> refine hlt _ _ (by norm_num) ?_
    · rcases ha with rfl | rfl | rfl | rfl | rfl <;> norm_num
    · rcases ha with rfl | rfl | rfl | rfl <;> norm_num
    · rcases ha with rfl | rfl | rfl <;> norm_num
    · rcases ha with rfl | rfl <;> norm_num
    · rw [ha]; norm_num
    · exact absurd ha (by simp)
  · intro h
    simp only [List.map_cons, List.pairwise_cons, List.mem_cons] at h
    exact absurd (h.1 _ (Or.inl rfl)) (not_le.2 h12)

/-- **C212 is violated.**  Whenever crosshairs are asked for, a `NameError` follows the contours. -/
theorem C212_violated_cross (x y : List ℝ) (f : Arr2) (iorder : String) (levels plevels : Option (List ℝ)) (hx : 2 ≤ x.length) (hy : 2 ≤ y.length)
    (h : (iorder = "xy" ∧ f.rows = x.length ∧ f.cols = y.length) ∨ (iorder = "yx" ∧ f.rows = y.length ∧ f.cols = x.length)) (c : ℝ × ℝ) :
    ∃ d, plotBivar x y f iorder levels plevels (some c) .off = (d, .error .name) := by
  obtain ⟨g, m, -, -, -, -, he⟩ := plotBivar_eq x y f iorder levels plevels hx hy h
  have e := he (some c) .off
  simp only [GScale.use, Option.isSome_some, if_true] at e
  exact ⟨_, e⟩

/-! #### The image -/

/-- The argument at the centre of column `j` of an image of `n` columns between `left` and `right`, as Matplotlib draws it. -/
def centre (left right : ℝ) (n j : ℕ) : ℝ := left + (j + 1 / 2) * ((right - left) / n)

/-- **C212** (image).  The image drawn under the contours has the same values, on the scale asked for; on an equally spaced grid the centre of each of its columns is within half a
column's width of the value of the argument.  Missing: that it is at this value (`C212_violated_image`). -/
theorem C212_image_partial (x y : List ℝ) (f : Arr2) (gs : GScale) (s : ℝ) (hs : gs.use = some s) (hx : 2 ≤ x.length) (hy : 2 ≤ y.length)
    (h1 : f.rows = x.length) (h2 : f.cols = y.length) (lo w : ℝ) (hw : 0 < w) (hlin : ∀ (i : ℕ) (hi : i < x.length), x[i] = lo + i * w) :
    ∃ img vmin left right bottom top c fmt, plotBivar x y f "xy" none none none gs = ([.image img vmin 0 left right bottom top, c], .ok fmt) ∧
      vmin = s * log (1 - within 6) ∧
      (∃ m, IsGreatest {v | ∃ i < f.rows, ∃ j < f.cols, v = f.val i j} m ∧ img.rows = y.length ∧ img.cols = x.length ∧ ∀ i j, img.val j i = f.val i j - m) ∧
      ∀ (i : ℕ) (hi : i < x.length), |centre left right x.length i - x[i]| ≤ (right - left) / x.length / 2 := by
  obtain ⟨g, m, hg, q1, q2, hm, he⟩ := plotBivar_eq x y f "xy" none none hx hy (Or.inl ⟨rfl, h1, h2⟩)
  rw [if_pos rfl] at hg
  subst hg
  have hmin : (theLevels none none m).min? = some (log (1 - within 6)) := by
    rw [List.min?_eq_some_iff, default_levels]
    constructor
    · simp
    · intro b hb
      simp only [List.mem_map, List.mem_cons, List.not_mem_nil, or_false] at hb
      obtain ⟨k, hk, rfl⟩ := hb
      have hk0 : 0 ≤ k ∧ k ≤ 6 := by rcases hk with rfl | rfl | rfl | rfl | rfl | rfl <;> norm_num
      have h6 := (within_lt_one (k := 6) (by norm_num)).1
      refine log_le_log (by linarith) ?_
      rcases hk0.2.eq_or_lt with rfl | hlt
      · exact le_rfl
      · linarith [within_strictMono hk0.1 hlt]
  have e := he none gs
  simp only [hs, hmin, Option.isSome_none, Bool.false_eq_true, if_false] at e
  refine ⟨_, _, _, _, _, _, _, _, e, rfl, ⟨m, ?_, q1, q2, fun i j => rfl⟩, ?_⟩
  · have := max_greatest _ m hm
    convert this using 1
    ext v
    constructor
    · rintro ⟨i, hi, j, hj, e⟩
      exact ⟨j, hj, i, hi, e⟩
    · rintro ⟨i, hi, j, hj, e⟩
      exact ⟨j, hj, i, hi, e⟩
  · intro i hi
    rw [getD_lt _ _ (by omega), getD_lt _ _ (by omega), hlin 0 (by omega), hlin _ (show x.length - 1 < x.length by omega), hlin i hi]
    have hn : (2 : ℝ) ≤ x.length := by exact_mod_cast hx
    have hi' : (i : ℝ) + 1 ≤ x.length := by exact_mod_cast hi
    have hi0 : (0 : ℝ) ≤ i := Nat.cast_nonneg i
    rw [Nat.cast_sub (by omega)]
    unfold centre
    push_cast
    have e : lo + 0 * w + ((i : ℝ) + 1 / 2) * ((lo + ((x.length : ℝ) - 1) * w - (lo + 0 * w)) / x.length) - (lo + i * w) = w * (((x.length : ℝ) - 1) / 2 - i) / x.length := by
      field_simp
      ring
    rw [e, show (lo + ((x.length : ℝ) - 1) * w - (lo + 0 * w)) / (x.length : ℝ) / 2 = w * (((x.length : ℝ) - 1) / 2) / x.length by ring, abs_div, abs_mul, abs_of_pos hw,
      abs_of_pos (show (0 : ℝ) < x.length by linarith)]
    refine div_le_div_of_nonneg_right (mul_le_mul_of_nonneg_left ?_ hw.le) (by linarith)
    rw [abs_le]
    constructor <;> linarith

/-- **C212 is violated.**  The edges of the image are the first and last values of the arguments, so that of the columns only one in the middle is drawn where the contours have it. -/
theorem C212_violated_image (lo w : ℝ) (hw : 0 < w) (n i : ℕ) (hn : 2 ≤ n) : centre lo (lo + ((n : ℝ) - 1) * w) n i = lo + i * w ↔ 2 * i + 1 = n := by
  have hn' : (2 : ℝ) ≤ n := by exact_mod_cast hn
  unfold centre
  have e : lo + ((i : ℝ) + 1 / 2) * ((lo + ((n : ℝ) - 1) * w - lo) / n) - (lo + i * w) = w * (((n : ℝ) - 1) / 2 - i) / n := by
    field_simp
    ring
  constructor
  · intro h
    rw [h, sub_self] at e
    have h3 : ((n : ℝ) - 1) / 2 - i = 0 := by
      have := e.symm
      rw [div_eq_zero_iff] at this
      rcases this with h | h
      · exact (mul_eq_zero.1 h).resolve_left hw.ne'
      · linarith
    have : (2 * i + 1 : ℝ) = n := by linarith
    exact_mod_cast this
  · intro h
    have h3 : (n : ℝ) = 2 * i + 1 := by rw [← h]; push_cast; ring
    have : w * (((n : ℝ) - 1) / 2 - i) / n = 0 := by rw [h3]; ring
    linarith

/-! #### Coordinates -/

theorem pyInt_nonneg {t : ℝ} (h : 0 ≤ t) : pyInt t = ⌊t⌋ := if_pos h

/-- The index used for a coordinate. -/
theorem index_near {lo w x : ℝ} (hw : 0 < w) (n : ℕ) (hn : 2 ≤ n) (h1 : lo - w / 2 ≤ x) (h2 : x < lo + ((n : ℝ) - 1) * w + w / 2) :
    0 ≤ pyInt ((x - lo) / ((lo + ((n : ℝ) - 1) * w - lo) / (n - 1)) + 0.5) ∧ pyInt ((x - lo) / ((lo + ((n : ℝ) - 1) * w - lo) / (n - 1)) + 0.5) < n ∧
      |x - (lo + (pyInt ((x - lo) / ((lo + ((n : ℝ) - 1) * w - lo) / (n - 1)) + 0.5) : ℤ) * w)| ≤ w / 2 := by
  have hn' : (2 : ℝ) ≤ n := by exact_mod_cast hn
  have e : (lo + ((n : ℝ) - 1) * w - lo) / (n - 1) = w := by
    have : (n : ℝ) - 1 ≠ 0 := by linarith
    field_simp
    ring
  rw [e]
  have ht : 0 ≤ (x - lo) / w + 0.5 := by
    rw [show (0.5 : ℝ) = 1 / 2 by norm_num, show (x - lo) / w + 1 / 2 = (x - lo + w / 2) / w by field_simp]
    exact div_nonneg (by linarith) hw.le
  rw [pyInt_nonneg ht]
  have f1 := Int.floor_le ((x - lo) / w + 0.5)
  have f2 := Int.lt_floor_add_one ((x - lo) / w + 0.5)
  have f3 : (x - lo) / w < (n : ℝ) - 1 + 1 / 2 := by
    rw [div_lt_iff₀ hw]
    linarith
  have hx : x = lo + (x - lo) / w * w := by field_simp; ring
  refine ⟨Int.floor_nonneg.2 ht, ?_, ?_⟩
  · have : (⌊(x - lo) / w + 0.5⌋ : ℝ) < n := by norm_num at *; linarith
    exact_mod_cast this
  · generalize (⌊(x - lo) / w + 0.5⌋ : ℝ) = k at *
    generalize (x - lo) / w = t at *
    rw [hx, show lo + t * w - (lo + k * w) = (t - k) * w by ring, abs_mul, abs_of_pos hw]
    have : |t - k| ≤ 1 / 2 := by rw [abs_le]; norm_num at *; constructor <;> linarith
    nlinarith

/-- **C212** (coordinates).  On equally spaced grids the value shown for a pointer within half a step of the grid is that at a point of the grid nearest to it.
Missing: that nothing is shown farther away (`C212_violated_coord`). -/
theorem C212_coord_partial (xlo ylo w v x y : ℝ) (hw : 0 < w) (hv : 0 < v) (a : Arr2) (hc : 2 ≤ a.cols) (hr : 2 ≤ a.rows)
    (h1 : xlo - w / 2 ≤ x) (h2 : x < xlo + ((a.cols : ℝ) - 1) * w + w / 2) (h3 : ylo - v / 2 ≤ y) (h4 : y < ylo + ((a.rows : ℝ) - 1) * v + v / 2) :
    ∃ i < a.rows, ∃ j < a.cols, formatCoord xlo (xlo + ((a.cols : ℝ) - 1) * w) ylo (ylo + ((a.rows : ℝ) - 1) * v) a x y = .ok (some (a.val i j)) ∧
      |x - (xlo + j * w)| ≤ w / 2 ∧ |y - (ylo + i * v)| ≤ v / 2 := by
  obtain ⟨p1, p2, p3⟩ := index_near hw a.cols hc h1 h2
  obtain ⟨q1, q2, q3⟩ := index_near hv a.rows hr h3 h4
  unfold formatCoord
  rw [if_neg (by omega)]
  simp only
  generalize pyInt ((x - xlo) / ((xlo + ((a.cols : ℝ) - 1) * w - xlo) / (a.cols - 1)) + 0.5) = c at *
  generalize pyInt ((y - ylo) / ((ylo + ((a.rows : ℝ) - 1) * v - ylo) / (a.rows - 1)) + 0.5) = r at *
  rw [if_pos ⟨p1, p2, q1, q2⟩]
  have ec : (c.toNat : ℝ) = (c : ℝ) := by exact_mod_cast congrArg (Int.cast : ℤ → ℝ) (Int.toNat_of_nonneg p1)
  have er : (r.toNat : ℝ) = (r : ℝ) := by exact_mod_cast congrArg (Int.cast : ℤ → ℝ) (Int.toNat_of_nonneg q1)
  exact ⟨r.toNat, by omega, c.toNat, by omega, rfl, by rw [ec]; exact p3, by rw [er]; exact q3⟩

/-- **C212 is violated.**  Because `int` rounds towards zero, a pointer up to one and a half steps to the left of the grid is shown the value of its first column. -/
theorem C212_violated_coord (xlo ylo w v x : ℝ) (hw : 0 < w) (hv : 0 < v) (a : Arr2) (hc : 2 ≤ a.cols) (hr : 2 ≤ a.rows) (h1 : xlo - 3 / 2 * w < x) (h2 : x < xlo - w / 2) :
    formatCoord xlo (xlo + ((a.cols : ℝ) - 1) * w) ylo (ylo + ((a.rows : ℝ) - 1) * v) a x ylo = .ok (some (a.val 0 0)) := by
  have hn' : (2 : ℝ) ≤ a.cols := by exact_mod_cast hc
  have hn'' : (2 : ℝ) ≤ a.rows := by exact_mod_cast hr
  have e : (xlo + ((a.cols : ℝ) - 1) * w - xlo) / (a.cols - 1) = w := by
    have : (a.cols : ℝ) - 1 ≠ 0 := by linarith
    field_simp
    ring
  have e' : pyInt ((ylo - ylo) / ((ylo + ((a.rows : ℝ) - 1) * v - ylo) / (a.rows - 1)) + 0.5) = 0 := by
    rw [sub_self, zero_div, pyInt_nonneg (by norm_num)]
    norm_num
  have e'' : pyInt ((x - xlo) / w + 0.5) = 0 := by
    have t1 : (x - xlo) / w < -1 / 2 := by rw [div_lt_iff₀ hw]; linarith
    have t2 : -3 / 2 < (x - xlo) / w := by rw [lt_div_iff₀ hw]; linarith
    unfold pyInt
    rw [if_neg (by norm_num; linarith), Int.ceil_eq_zero_iff]
    norm_num
    constructor <;> linarith
  unfold formatCoord
  rw [if_neg (by omega)]
  simp only [e, e', e'']
  rw [if_pos (by omega)]
  rfl

/-! #### Grids of results -/

/-- The values a parameter steps through. -/
def stepValues (a : Axis) : List ℝ := (List.range a.steps).map fun i : ℕ => a.lo + i * (a.hi - a.lo) / (a.steps - 1)

theorem linspace_steps (a : Axis) : linspace a.lo a.hi a.steps = stepValues a := by
  unfold linspace stepValues
  refine List.map_congr_left fun i hi => ?_
  rw [List.mem_range] at hi
  split_ifs with h
  · have : i = 0 := by omega
    subst this
    simp
  · ring

/-- **C212** (grids of results).  For one parameter with linear steps, the curve drawn has the stored values at the values the parameter steps through; for two, the contours are those of the stored values
less the greatest at the pairs of values, and nothing else is drawn.  Missing: logarithmic steps (not implemented), images (`C212_violated_gscale`), labels (`C212_violated_label`) and `overlay=False`
(`C212_violated_overlay`). -/
theorem C212_grid_partial (a b : Axis) (vals : List ℕ → ℝ) (args : PlotArgs) (ha : a.linear = true) (hb : b.linear = true) :
    gridPlot [a] vals args = ((if args.overlay = none then [.figure] else []) ++ [.curve (stepValues a) ((List.range a.steps).map fun i => vals [i])], none) ∧
    (2 ≤ a.steps → 2 ≤ b.steps → args.ylabel = none → args.cross = none → args.iorder = "xy" →
      ∃ pts lv, gridPlot [a, b] vals args = ((if args.overlay = none then [.figure] else []) ++ [.contour pts lv], none) ∧
        Plots (stepValues a) (stepValues b) (fun i j => vals [i, j]) pts) := by
  constructor
  · unfold gridPlot
    simp only [ha, if_true, linspace_steps]
    rcases args.overlay with _ | _ <;> simp
  · intro h1 h2 hy hcr hi
    have l1 : (stepValues a).length = a.steps := by simp [stepValues]
    have l2 : (stepValues b).length = b.steps := by simp [stepValues]
    obtain ⟨d, pts, lv, fmt, he, hp, hd, -⟩ := C212_points (stepValues a) (stepValues b) ⟨a.steps, b.steps, fun i j => vals [i, j]⟩ "xy" args.levels args.plevels .off
      (by omega) (by omega) (Or.inl ⟨rfl, l1.symm, l2.symm⟩) (fun h => absurd rfl h)
    rw [hd rfl] at he
    refine ⟨pts, lv, ?_, by simpa using hp⟩
    unfold gridPlot
    simp only [ha, hb, Bool.and_self, if_true, hy, hcr, hi, Option.isSome_none, Bool.false_eq_true, if_false, linspace_steps, he]
    rcases args.overlay with _ | _ <;> simp

/-- **C212 is violated.**  `gscale` is never passed on: whatever is asked for, no image is drawn of a grid of results. -/
theorem C212_violated_gscale (axes : List Axis) (vals : List ℕ → ℝ) (args : PlotArgs) :
    gridPlot axes vals args = gridPlot axes vals { args with gscale := .on } ∧
      ∀ img vmin vmax l r b t, Draw.image img vmin vmax l r b t ∉ (gridPlot axes vals args).1 := by
  refine ⟨rfl, fun img vmin vmax l r b t hmem => ?_⟩
  have hfig : Draw.image img vmin vmax l r b t ∉ (if args.overlay.isSome then [] else [Draw.figure]) := by
    split_ifs <;> simp
  have hnot : ∀ (p q : List ℝ) (f : Arr2), Draw.image img vmin vmax l r b t ∉ (plotBivar p q f args.iorder args.levels args.plevels args.cross .off).1 := by
    intro p q f
    unfold plotBivar contour meshgrid
    simp only [GScale.use]
    split
    · simp
    · split
      · simp
      · split
        · simp
        · split
          · simp
          · rename_i c hc
            split_ifs at hc <;> cases hc <;> split_ifs <;> simp
  unfold gridPlot at hmem
  generalize (if args.overlay.isSome then [] else [Draw.figure]) = fig at hfig hmem
  rcases axes with _ | ⟨x, _ | ⟨y, _ | ⟨z, t⟩⟩⟩
  · simp at hmem
  · simp only at hmem
    split at hmem
    · rcases List.mem_append.1 hmem with h | h
      · exact hfig h
      · simp at h
    · simp at hmem
  · simp only at hmem
    split at hmem
    · split at hmem
      · exact hfig hmem
      · split at hmem
        · rename_i d e heq
          rcases List.mem_append.1 hmem with h | h
          · exact hfig h
          · exact hnot _ _ _ (by rw [heq]; exact h)
        · rename_i d e heq
          rcases List.mem_append.1 hmem with h | h
          · exact hfig h
          · exact hnot _ _ _ (by rw [heq]; exact h)
    · simp at hmem
  · simp at hmem

/-- **C212 is violated.**  `overlay=False` draws into the last figure just as `overlay=True` does. -/
theorem C212_violated_overlay (axes : List Axis) (vals : List ℕ → ℝ) (args : PlotArgs) :
    gridPlot axes vals { args with overlay := some false } = gridPlot axes vals { args with overlay := some true } := rfl

/-- **C212 is violated.**  The label that may be given for a grid over one parameter is a `TypeError` for one over two. -/
theorem C212_violated_label (a b : Axis) (vals : List ℕ → ℝ) (s : String) (ha : a.linear = true) (hb : b.linear = true) :
    (gridPlot [a] vals { ylabel := some s }).2 = none ∧ (gridPlot [a, b] vals { ylabel := some s }).2 = some .type := by
  unfold gridPlot
  simp [ha, hb]

end Verif.PlotBivar
