import Verif.Pie.UnboundedProps

/-!
# C206: whether a varying parameter is near the ends of its range
-/

set_option linter.unusedSectionVars false

namespace Verif.Pie

/-- `check(percent)`, realparam.py:248-252, called as `inf.x.check(percent)`: a parameter without a handler gets its default and is then fixed. -/
noncomputable def Inf.check (s : Inf ℝ) (i : ℕ) (percent : ℝ) : Except Err Bool :=
  match s.h i with
  | none => .error .runtime
  | some hd =>
    if hd.status ≠ .varying then .error .runtime
    else
      match hd.bounds, hd.value with
      | none, _ => .error .attribute
      | some _, none => .error .attribute
      | some (lo, hi), some v =>
        if hi - lo = 0 then .error .zeroDiv else .ok (decide (100 * min (v - lo) (hi - v) / (hi - lo) ≥ percent))

section
variable (default : ℕ → ℝ) (params : List ℕ)

/-- C206: `check` raises `RuntimeError` exactly for parameters that are not varying. -/
theorem C206_status (s : Inf ℝ) (i : ℕ) (p : ℝ) : s.check i p = .error .runtime ↔ s.status i ≠ .varying := by
  unfold Inf.check
  cases hh : s.h i with
  | none => simp [Inf.status, hh]
  | some hd =>
      rw [status_eq_of_h hh]
      simp only
      split_ifs with h
      · simp [h]
      · simp only [h, not_false_eq_true, iff_false]
        cases hd.bounds with
        | none => simp
        | some b =>
            cases hd.value with
            | none => simp
            | some v => simp only; split_ifs <;> simp

/-- C206: for a varying parameter with a range that is not a point, `check(percent)` tells whether the value is at least that percentage of the range away from both its ends. Missing: a range that is a point (`C206_violated_point`). -/
theorem C206_margin_partial (s : Inf ℝ) (hr : Reachable (realCfg default params) s) (i : ℕ) {lo hi v : ℝ} (hst : s.status i = .varying) (hb : s.bounds i = some (lo, hi)) (hv : s.value i = some v) (hlt : lo < hi) (p : ℝ) :
    ∃ b, s.check i p = .ok b ∧ (b = true ↔ lo + p / 100 * (hi - lo) ≤ v ∧ v ≤ hi - p / 100 * (hi - lo)) := by
  obtain ⟨hd, v', hh, hv', hbd, _⟩ := hr.bounded hb
  have e : v' = v := by
    have : s.value i = some v' := by simp [Inf.value, hh, hv']
    rw [this] at hv
    exact Option.some.inj hv
  subst e
  have hst' : hd.status = .varying := by rw [← status_eq_of_h hh]; exact hst
  have hd0 : 0 < hi - lo := by linarith
  refine ⟨decide (100 * min (v' - lo) (hi - v') / (hi - lo) ≥ p), ?_, ?_⟩
  · unfold Inf.check
    rw [hh]
    simp only [hst', ne_eq, not_true_eq_false, if_false, hbd, hv', hd0.ne']
  · rw [decide_eq_true_eq, ge_iff_le, le_div_iff₀ hd0, show (100 : ℝ) * min (v' - lo) (hi - v') = min (100 * (v' - lo)) (100 * (hi - v')) from mul_min_of_nonneg _ _ (by norm_num), le_min_iff]
    constructor
    · rintro ⟨h1, h2⟩; constructor <;> linarith
    · rintro ⟨h1, h2⟩; constructor <;> linarith

/-- C206: so a larger percentage asks for more, none over 50 is ever met, and none over 0 once the value has left the range. -/
theorem C206_monotone (s : Inf ℝ) (hr : Reachable (realCfg default params) s) (i : ℕ) {lo hi v : ℝ} (hst : s.status i = .varying) (hb : s.bounds i = some (lo, hi)) (hv : s.value i = some v) (hlt : lo < hi) {p : ℝ}
    (h : s.check i p = .ok true) : p ≤ 50 ∧ (0 ≤ p → lo ≤ v ∧ v ≤ hi) ∧ ∀ q, q ≤ p → s.check i q = .ok true := by
  obtain ⟨b, h1, h2⟩ := C206_margin_partial default params s hr i hst hb hv hlt p
  rw [h] at h1
  have hb' : b = true := (Except.ok.inj h1).symm
  obtain ⟨h3, h4⟩ := h2.1 hb'
  have hd0 : 0 < hi - lo := by linarith
  refine ⟨?_, fun hp => ?_, fun q hq => ?_⟩
  · by_contra hc
    push Not at hc
    nlinarith
  · have : 0 ≤ p / 100 * (hi - lo) := by positivity
    constructor <;> linarith
  · obtain ⟨b', h5, h6⟩ := C206_margin_partial default params s hr i hst hb hv hlt q
    rw [h5]
    congr 1
    have : q / 100 * (hi - lo) ≤ p / 100 * (hi - lo) := by gcongr
    exact h6.2 ⟨by linarith, by linarith⟩

/-- C206: after setting the unbounded transform to u, `check` of a percentage p from 0 to 50 tells whether |u| ≤ log((100-p)/p). -/
theorem C206_unbounded (s s' : Inf ℝ) (hr : Reachable (realCfg default params) s) (i : ℕ) {lo hi : ℝ} (hst : s.status i = .varying) (hb : s.bounds i = some (lo, hi)) (hlt : lo < hi) {p u : ℝ} (h0 : 0 < p) (h1 : p ≤ 50)
    (h : s.step (realCfg default params) (.unboundedSet i u) = (s', none)) : ∃ b, s'.check i p = .ok b ∧ (b = true ↔ |u| ≤ Real.log ((100 - p) / p)) := by
  obtain ⟨hd, v, hh, hv, hbd, _⟩ := hr.bounded hb
  have hst' : hd.status = .varying := by rw [← status_eq_of_h hh]; exact hst
  rw [unboundedSet_eq default params s hh hv hst' hbd u] at h
  have e := (Prod.mk.inj h).1
  subst e
  set w := (lo + hi * Real.exp u) / (1 + Real.exp u) with hw
  have hd0 : 0 < hi - lo := by linarith
  have he := Real.exp_pos u
  have hr' : 0 < (100 - p) / p := div_pos (by linarith) h0
  refine ⟨decide (100 * min (w - lo) (hi - w) / (hi - lo) ≥ p), ?_, ?_⟩
  · unfold Inf.check
    simp only [putValue_self, hst', ne_eq, not_true_eq_false, if_false, hbd, hd0.ne']
  · have e1 : 100 * (w - lo) = (hi - lo) * (100 * Real.exp u / (1 + Real.exp u)) := by rw [hw]; field_simp; ring
    have e2 : 100 * (hi - w) = (hi - lo) * (100 / (1 + Real.exp u)) := by rw [hw]; field_simp; ring
    rw [decide_eq_true_eq, ge_iff_le, le_div_iff₀ hd0, show (100 : ℝ) * min (w - lo) (hi - w) = min (100 * (w - lo)) (100 * (hi - w)) from mul_min_of_nonneg _ _ (by norm_num), le_min_iff, e1, e2, mul_comm p,
      mul_le_mul_iff_of_pos_left hd0, mul_le_mul_iff_of_pos_left hd0, le_div_iff₀ (by linarith), le_div_iff₀ (by linarith), abs_le, Real.le_log_iff_exp_le hr', le_div_iff₀ h0]
    have e3 : -Real.log ((100 - p) / p) ≤ u ↔ p * (1 + Real.exp u) ≤ 100 * Real.exp u := by
      rw [neg_le, Real.le_log_iff_exp_le hr', Real.exp_neg, le_div_iff₀ h0, inv_mul_le_iff₀ he]
      constructor <;> intro h <;> linarith
    rw [e3]
    constructor
    · rintro ⟨h3, h4⟩; exact ⟨h3, by linarith⟩
    · rintro ⟨h3, h4⟩; exact ⟨h3, by linarith⟩

end

/-- C206 fails for a range that is a point, which `vary` accepts: `check` raises `ZeroDivisionError`. -/
theorem C206_violated_point (default : ℕ → ℝ) (params : List ℕ) (p : ℝ) : ∃ s, Reachable (realCfg default params) s ∧ s.status 0 = .varying ∧ s.check 0 p = .error .zeroDiv := by
  refine ⟨(Inf.init : Inf ℝ).run (realCfg default params) [.vary 0 (some 1) (some 1) (some (1, 1))], ⟨_, rfl⟩, ?_, ?_⟩
  · simp [Inf.run, Inf.step, Inf.onHandler, Inf.access, Inf.init, Inf.fixH, Inf.setStatus, Inf.onStatusChange, Inf.varyH,
      Res.andThen, ok, raise, Inf.putValue, Inf.setH, Handler.withRange, Handler.range, pyRemove, Inf.setValueH,
      Inf.status]
  · simp [Inf.run, Inf.step, Inf.onHandler, Inf.access, Inf.init, Inf.fixH, Inf.setStatus, Inf.onStatusChange, Inf.varyH,
      Res.andThen, ok, raise, Inf.putValue, Inf.setH, Handler.withRange, Handler.range, pyRemove, Inf.setValueH,
      Inf.check]

/-- Non-vacuity: at 2 in the range from 0 to 5 the parameter is 40 percent away from the ends, not 41. -/
example :
    let c := realCfg (fun _ => 1) [0]
    let s := (Inf.init : Inf ℝ).run c [.vary 0 (some 2) (some 1) (some (0, 5))]
    s.check 0 40 = .ok true ∧ s.check 0 41 = .ok false ∧ s.check 1 41 = .error .runtime := by
  simp [Inf.run, Inf.step, Inf.onHandler, Inf.access, Inf.init, Inf.fixH, Inf.setStatus, Inf.onStatusChange, Inf.varyH,
    Res.andThen, ok, raise, Inf.putValue, Inf.setH, Handler.withRange, Handler.range, pyRemove, Inf.setValueH,
    Inf.check]
  norm_num

end Verif.Pie
