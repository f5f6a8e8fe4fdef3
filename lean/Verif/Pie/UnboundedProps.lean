import Verif.Pie.AtomicProps

/-!
# C13: the unbounded transform
-/

set_option linter.unusedSectionVars false
set_option linter.unusedSimpArgs false

namespace Verif.Pie

/-- `_unbounded_get_value`, realparam.py:254-270, over the reals. `none` stands for a NumPy infinity or NaN, the result
of a logarithm of a number that is not positive. (The parameter has a value whenever its status is not `undef`.) -/
noncomputable def Inf.unboundedGet (s : Inf ℝ) (i : ℕ) : Except Err (Option ℝ) :=
  match s.h i with
  | none => .error .value
  | some hd =>
    if hd.status = .undef then .error .value
    else if hd.status ≠ .varying then .error .runtime
    else
      match hd.bounds, hd.value with
      | none, _ => .error .value
      | some _, none => .error .attribute
      | some (lo, hi), some v =>
        if 0 < v - lo ∧ 0 < hi - v then .ok (some (Real.log (v - lo) - Real.log (hi - v))) else .ok none

/-- The inverse logistic map onto `(lo, hi)`. -/
theorem logistic_bounds {lo hi e : ℝ} (h : lo < hi) (he : 0 < e) :
    lo < (lo + hi * e) / (1 + e) ∧ (lo + hi * e) / (1 + e) < hi := by
  have h1 : 0 < 1 + e := by linarith
  rw [lt_div_iff₀ h1, div_lt_iff₀ h1]
  constructor <;> nlinarith

section
variable (default : ℕ → ℝ) (params : List ℕ)

/-- Setting through the transform, computed. -/
theorem unboundedSet_eq (s : Inf ℝ) {hd : Handler ℝ} {i : ℕ} {lo hi v : ℝ} (hh : s.h i = some hd)
    (hv : hd.value = some v) (hst : hd.status = .varying) (hb : hd.bounds = some (lo, hi)) (u : ℝ) :
    s.step (realCfg default params) (.unboundedSet i u) =
      (s.putValue i hd ((lo + hi * Real.exp u) / (1 + Real.exp u)), none) := by
  simp only [Inf.step, onHandler_of_value _ hh hv]
  unfold Inf.unboundedSetH
  rw [if_neg (not_not.mpr hst)]
  simp only [hb, realCfg]
  rfl

/-- **C13.** For a varying parameter with range `lo < hi` in any reachable state: setting its unbounded transform to
any real `u` succeeds, puts the value strictly between `lo` and `hi`, keeps status, range and every other parameter
as they were, and reading the transform back gives `u`; larger `u` give larger values; and every value strictly
between `lo` and `hi` is reached. -/
theorem C13_unbounded_bijection (s : Inf ℝ) (hr : Reachable (realCfg default params) s) (i : ℕ) (lo hi : ℝ)
    (hst : s.status i = .varying) (hb : s.bounds i = some (lo, hi)) (hlt : lo < hi) :
    ∃ f : ℝ → ℝ,
      (∀ u, ∃ s', s.step (realCfg default params) (.unboundedSet i u) = (s', none) ∧ s'.value i = some (f u) ∧
        s'.unboundedGet i = .ok (some u) ∧ s'.status i = .varying ∧ s'.bounds i = some (lo, hi) ∧
        ∀ j, j ≠ i → s'.h j = s.h j) ∧
      (∀ u, lo < f u ∧ f u < hi) ∧ StrictMono f ∧ (∀ v, lo < v → v < hi → ∃ u, f u = v) := by
  obtain ⟨hd, v, hh, hv, hbd, _⟩ := hr.bounded hb
  have hst' : hd.status = .varying := by rw [← status_eq_of_h hh]; exact hst
  have inv1 : ∀ u, lo < (lo + hi * Real.exp u) / (1 + Real.exp u) ∧ (lo + hi * Real.exp u) / (1 + Real.exp u) < hi :=
    fun u => logistic_bounds hlt (Real.exp_pos u)
  refine ⟨fun u => (lo + hi * Real.exp u) / (1 + Real.exp u), fun u => ?_, inv1, ?_, ?_⟩
  · refine ⟨_, unboundedSet_eq default params s hh hv hst' hbd u, by simp [Inf.value], ?_, ?_, ?_, ?_⟩
    · unfold Inf.unboundedGet
      have hu := inv1 u
      have he := Real.exp_pos u
      have hne : hi - lo ≠ 0 := (sub_pos.mpr hlt).ne'
      simp only [putValue_self, hst', hbd]
      rw [if_neg (by decide), if_neg (by simp), if_pos ⟨sub_pos.mpr hu.1, sub_pos.mpr hu.2⟩]
      congr 2
      have e1 : (lo + hi * Real.exp u) / (1 + Real.exp u) - lo = (hi - lo) * Real.exp u / (1 + Real.exp u) := by
        field_simp; ring
      have e2 : hi - (lo + hi * Real.exp u) / (1 + Real.exp u) = (hi - lo) / (1 + Real.exp u) := by
        field_simp; ring
      have h1 : (1 + Real.exp u) ≠ 0 := by linarith
      rw [e1, e2, Real.log_div (mul_ne_zero hne he.ne') h1, Real.log_div hne h1, Real.log_mul hne he.ne', Real.log_exp]
      ring
    · rw [status_eq_of_h (putValue_self _ _ _ _)]; exact hst'
    · simp [Inf.bounds, hbd]
    · intro j hj; exact putValue_ne _ _ _ hj
  · intro a b hab
    have ha := Real.exp_pos a
    have hb' := Real.exp_pos b
    have hab' := Real.exp_lt_exp.mpr hab
    show (lo + hi * Real.exp a) / (1 + Real.exp a) < (lo + hi * Real.exp b) / (1 + Real.exp b)
    rw [div_lt_div_iff₀ (by linarith) (by linarith)]
    nlinarith
  · intro w h1 h2
    refine ⟨Real.log ((w - lo) / (hi - w)), ?_⟩
    have hp : 0 < (w - lo) / (hi - w) := div_pos (sub_pos.mpr h1) (sub_pos.mpr h2)
    have h3 : hi - w ≠ 0 := (sub_pos.mpr h2).ne'
    have h4 : hi - lo ≠ 0 := (sub_pos.mpr hlt).ne'
    show (lo + hi * Real.exp _) / (1 + Real.exp _) = w
    rw [Real.exp_log hp]
    have h5 : 1 + (w - lo) / (hi - w) = (hi - lo) / (hi - w) := by field_simp; ring
    rw [h5]
    field_simp
    ring

/-- **C13 (read, then set).** If the value lies strictly inside the range, reading the transform gives a real number,
and setting the transform to that number restores the value exactly: the inference is as before, apart from the
notification. -/
theorem C13_read_then_set (s : Inf ℝ) (hr : Reachable (realCfg default params) s) (i : ℕ) (lo hi v : ℝ)
    (hst : s.status i = .varying) (hb : s.bounds i = some (lo, hi)) (hv : s.value i = some v)
    (h1 : lo < v) (h2 : v < hi) :
    ∃ u, s.unboundedGet i = .ok (some u) ∧
      s.step (realCfg default params) (.unboundedSet i u) = ({ s with changes := i :: s.changes }, none) := by
  obtain ⟨hd, w, hh, hw, hbd, _⟩ := hr.bounded hb
  have hst' : hd.status = .varying := by rw [← status_eq_of_h hh]; exact hst
  have hvw : w = v := by simpa [Inf.value, hh, hw] using hv
  subst hvw
  have a : 0 < w - lo := sub_pos.mpr h1
  have b : 0 < hi - w := sub_pos.mpr h2
  refine ⟨Real.log (w - lo) - Real.log (hi - w), ?_, ?_⟩
  · unfold Inf.unboundedGet
    simp only [hh, hst', hbd, hw]
    rw [if_neg (by decide), if_neg (by simp), if_pos ⟨a, b⟩]
  · rw [unboundedSet_eq default params s hh hw hst' hbd]
    have e : (lo + hi * Real.exp (Real.log (w - lo) - Real.log (hi - w))) /
        (1 + Real.exp (Real.log (w - lo) - Real.log (hi - w))) = w := by
      rw [Real.exp_sub, Real.exp_log a, Real.exp_log b]
      have h5 : 1 + (w - lo) / (hi - w) = (hi - lo) / (hi - w) := by field_simp; ring
      have h4 : hi - lo ≠ 0 := by linarith
      rw [h5]
      field_simp
      ring
    rw [e]
    have e2 : ({ hd with value := some w } : Handler ℝ) = hd := by rw [← hw]
    unfold Inf.putValue
    rw [e2, setH_same hh]

/-- **C13 (overflow).** When the exponential overflows (or is not a number), in any number field, the value becomes
exactly the upper end for positive `u` and exactly the lower end otherwise. -/
theorem C13_overflow {K : Type} [Field K] [LinearOrder K] (c : Cfg K) (s : Inf K) (hr : Reachable c s) (i : ℕ)
    (lo hi u : K) (hst : s.status i = .varying) (hb : s.bounds i = some (lo, hi)) (hu : c.exp u = none) :
    ∃ s', s.step c (.unboundedSet i u) = (s', none) ∧ s'.value i = some (if 0 < u then hi else lo) := by
  obtain ⟨hd, w, hh, hw, hbd, _⟩ := hr.bounded hb
  have hst' : hd.status = .varying := by rw [← status_eq_of_h hh]; exact hst
  simp only [Inf.step, onHandler_of_value _ hh hw]
  unfold Inf.unboundedSetH
  rw [if_neg (not_not.mpr hst')]
  simp only [hbd, hu, gt_iff_lt]
  by_cases h : 0 < u
  · rw [if_pos h, if_pos h]; exact ⟨_, rfl, by simp [Inf.value]⟩
  · rw [if_neg h, if_neg h]; exact ⟨_, rfl, by simp [Inf.value]⟩

/-- The transform is refused for parameters that are not varying. -/
theorem C13_only_varying {K : Type} [Field K] [LinearOrder K] (c : Cfg K) (s : Inf K) (hr : Reachable c s) (i : ℕ)
    (u : K) (hdef : s.status i ≠ .undef) (hst : s.status i ≠ .varying) :
    s.step c (.unboundedSet i u) = (s, some .param) := by
  obtain ⟨hd, hh, hu⟩ := h_of_defined hdef
  simp only [Inf.step, onHandler_of_inv c hr.inv hh hu]
  unfold Inf.unboundedSetH
  rw [if_pos (by rw [← status_eq_of_h hh]; exact hst)]
  rfl

end

/-- Non-vacuity: a reachable real state with a varying parameter inside its range. -/
example :
    let c := realCfg (fun _ => 1) [0]
    let s := (Inf.init : Inf ℝ).run c [.vary 0 (some 2) (some 1) (some (0, 5))]
    s.status 0 = .varying ∧ s.bounds 0 = some (0, 5) ∧ s.value 0 = some 2 := by
  simp [Inf.run, Inf.step, Inf.onHandler, Inf.access, Inf.init, Inf.fixH, Inf.setStatus, Inf.onStatusChange, Inf.varyH,
    Res.andThen, ok, raise, Inf.putValue, Inf.setH, Handler.withRange, Handler.range, pyRemove, Inf.setValueH,
    Inf.status, Inf.bounds, Inf.value]
  norm_num
example :
    let c : Cfg ℚ := { exCfg with exp := fun _ => none }
    let s := (Inf.init : Inf ℚ).run c [.vary 0 (some 2) (some 1) (some (0, 5))]
    s.status 0 = .varying ∧ s.bounds 0 = some (0, 5) ∧ (s.step c (.unboundedSet 0 (-3))).1.value 0 = some 0 := by
  decide +kernel

end Verif.Pie
