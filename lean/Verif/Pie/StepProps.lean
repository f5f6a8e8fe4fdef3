import Verif.Pie.StepLemmas
import Verif.Pie.StatusProps
import Mathlib.Analysis.SpecialFunctions.Pow.Real

/-!
# C02, C03: stepping one parameter
-/

set_option linter.unusedSectionVars false

namespace Verif.Pie
variable {K : Type} [Field K] [LinearOrder K]

theorem real_exp_zpow (x : ℝ) (n : ℤ) : Real.exp x ^ n = Real.exp (n * x) := by
  rw [← Real.rpow_intCast, ← Real.exp_mul, mul_comm]

theorem pos_of_mul_pos_right' [IsStrictOrderedRing K] {a b : K} (h : 0 < a * b) (ha : 0 < a) : 0 < b := by
  by_contra hc
  push Not at hc
  exact absurd h (not_lt.mpr (mul_nonpos_of_nonneg_of_nonpos ha.le hc))

/-- What `linstep` leaves behind when it succeeds. -/
theorem linstep_ok (c : Cfg K) {s s1 : Inf K} (hs : Inv s) {i : ℕ} {lo hi : Option K} {n : ℤ}
    (h : s.step c (.linstep i lo hi n) = (s1, none)) :
    ∃ l u, lo = some l ∧ hi = some u ∧ n ≠ 1 ∧ ∃ hd : Handler K, s1.h i = some hd ∧ hd.status = .stepping ∧
      hd.stype = .lin ∧ hd.slo = l ∧ hd.shi = u ∧ hd.steps = n ∧ hd.delta = some ((u - l) / ((n : K) - 1)) ∧
      hd.stepNum = 0 ∧ hd.value = some l := by
  obtain ⟨hn, hd0, v0, hh0, hv0, hu0, _⟩ := access_ok c hs i
  have hs' := (access_good c hs i).1
  have e : s.onHandler c i (fun s hd => s.linstepH i hd lo hi n) =
      (s.access c i).1.linstepH i hd0 lo hi n := by
    unfold Inf.onHandler
    rw [show s.access c i = ok (s.access c i).1 from Prod.ext rfl hn]
    simp [hh0]
  simp only [Inf.step, e] at h
  unfold Inf.linstepH at h
  by_cases hb : (!hd0.stepEndsOk lo hi) = true
  · rw [if_pos hb] at h; simp at h
  rw [if_neg hb] at h
  cases lo with
  | none =>
    dsimp only at h
    split at h
    · simp at h
    · split at h <;> simp at h
  | some l =>
    cases hi with
    | none =>
      dsimp only at h
      split at h <;> simp at h
    | some u =>
      dsimp only at h
      by_cases h1 : n = 1
      · rw [if_pos h1] at h; simp at h
      rw [if_neg h1, putValue_setStatus] at h
      obtain ⟨s', e1, hm⟩ := setStatus_moved (hs'.note i) (i := i) (st := .stepping)
        (hd := { hd0 with
          stype := .lin, slo := l, shi := u, steps := n, delta := some ((u - l) / ((n : K) - 1)), stepNum := 0,
          value := some l }) (status_eq_of_h hh0).symm rfl (by decide)
      have h2 : some s1 = some s' := by
        have := h.symm.trans e1
        simp only [ok, Prod.mk.injEq] at this
        rw [this.1]
      injection h2 with h2
      subst h2
      exact ⟨l, u, rfl, rfl, h1, _, hm.self, by simp [Handler.rst]⟩

/-- **C02 (linear).** Take any reachable state, let `linstep(lo, hi, n)` succeed with `n ≥ 2`, and then let any
operations follow that do not fix, vary or set up stepping of that parameter anew. Then the parameter is still
stepping, at an index between 0 and `n-1`, and its value is the index's point of the advertised grid. -/
theorem C02_linear_grid [IsStrictOrderedRing K] (c : Cfg K) (pre ops : List (Op K)) (i : ℕ) (lo hi : K) (n : ℤ)
    (hn : 2 ≤ n) (s1 : Inf K) (h : (Inf.init.run c pre).step c (.linstep i (some lo) (some hi) n) = (s1, none))
    (hops : ∀ op ∈ ops, ¬ op.reconfigures i) :
    ∃ hd k, (s1.run c ops).h i = some hd ∧ hd.status = .stepping ∧ hd.steps = n ∧ hd.stepNum = k ∧
      0 ≤ k ∧ k ≤ n - 1 ∧ hd.value = some (linPoint lo hi n k) ∧
      (k = 0 → hd.value = some lo) ∧ (k = n - 1 → hd.value = some hi) := by
  have hs := run_inv c pre (Inv.init (K := K))
  obtain ⟨l, u, hl, hu, hn1, hd, hh, h1, h2, h3, h4, h5, h6, h7, h8⟩ := linstep_ok c hs h
  injection hl with hl; injection hu with hu; subst hl; subst hu
  have hs1 : Inv s1 := by
    have := (step_good c hs (.linstep i (some lo) (some hi) n)).1
    rw [h] at this; exact this
  have hn' : ((n : K) - 1) ≠ 0 := by
    have : (1 : K) < n := by exact_mod_cast (by omega : 1 < n)
    exact sub_ne_zero.mpr this.ne'
  have hpt : ∀ k, hd.pt k = linPoint lo hi n k := by
    intro k; simp [Handler.pt, linPoint, h2, h3, h6]
  have hlast : linPoint lo hi n (n - 1) = hi := by
    unfold linPoint
    push_cast
    field_simp
    ring
  have hws : WS hd := by
    refine ⟨h1, by omega, by omega, by omega, fun _ => by simp [h6], fun e => ?_, fun _ => ?_, ?_⟩
    · rw [h2] at e; exact absurd e (by decide)
    · rw [hpt, h5, h4, hlast]
    · rw [h7, hd.pt_zero, h8, h3]
  obtain ⟨hd', hh', hws', hsg⟩ := run_has c (ws_stable i hd (by omega)) ops hs1
    ⟨hd, hh, hws, rfl, rfl, rfl, rfl, rfl, rfl⟩ hops
  have hval : hd'.value = some (linPoint lo hi n hd'.stepNum) := by rw [hws'.value, hsg.pt, hpt]
  have hst := hsg.steps
  refine ⟨hd', hd'.stepNum, hh', hws'.status, hst.trans h5, rfl, hws'.lo, ?_, hval, ?_, ?_⟩
  · have := hws'.hi; omega
  · intro e; rw [hval, e]; simp [linPoint]
  · intro e; rw [hval, e, hlast]

/-- What `logstep` leaves behind when it succeeds. -/
theorem logstep_ok (c : Cfg K) {s s1 : Inf K} (hs : Inv s) {i : ℕ} {lo hi : Option K} {n : ℤ}
    (h : s.step c (.logstep i lo hi n) = (s1, none)) :
    ∃ l u, lo = some l ∧ hi = some u ∧ 0 < l * u ∧ ∃ hd : Handler K, s1.h i = some hd ∧ hd.status = .stepping ∧
      hd.stype = .log ∧ hd.slo = l ∧ hd.shi = u ∧ hd.steps = n ∧ hd.fac = c.root (u / l) n ∧
      hd.stepNum = 0 ∧ hd.value = some l := by
  obtain ⟨hn, hd0, v0, hh0, hv0, hu0, _⟩ := access_ok c hs i
  have hs' := (access_good c hs i).1
  have e : s.onHandler c i (fun s hd => s.logstepH c i hd lo hi n) =
      (s.access c i).1.logstepH c i hd0 lo hi n := by
    unfold Inf.onHandler
    rw [show s.access c i = ok (s.access c i).1 from Prod.ext rfl hn]
    simp [hh0]
  simp only [Inf.step, e] at h
  unfold Inf.logstepH at h
  by_cases hb : (!hd0.stepEndsOk lo hi) = true
  · rw [if_pos hb] at h; simp at h
  rw [if_neg hb] at h
  cases lo with
  | none => simp at h
  | some l =>
    cases hi with
    | none => simp at h
    | some u =>
      dsimp only at h
      by_cases h1 : l * u ≤ 0
      · rw [if_pos h1] at h; simp at h
      rw [if_neg h1, putValue_setStatus] at h
      obtain ⟨s', e1, hm⟩ := setStatus_moved (hs'.note i) (i := i) (st := .stepping)
        (hd := { hd0 with
          stype := .log, slo := l, shi := u, steps := n, fac := c.root (u / l) n, stepNum := 0,
          value := some l }) (status_eq_of_h hh0).symm rfl (by decide)
      have h2 : some s1 = some s' := by
        have := h.symm.trans e1
        simp only [ok, Prod.mk.injEq] at this
        rw [this.1]
      injection h2 with h2
      subst h2
      exact ⟨l, u, rfl, rfl, not_le.mp h1, _, hm.self, by simp [Handler.rst]⟩

/-- `root` really is an `(n-1)`-th root. -/
def Cfg.RootOk (c : Cfg K) : Prop := ∀ (r : K) (n : ℤ), 0 < r → 2 ≤ n → c.root r n ^ (n - 1) = r

/-- **C02 (logarithmic), any field.** As `C02_linear_grid`, for `logstep`; the grid points are `lo * f^k` where `f`
is the `(n-1)`-th root of `hi/lo`. -/
theorem C02_log_grid [IsStrictOrderedRing K] (c : Cfg K) (hroot : c.RootOk) (pre ops : List (Op K)) (i : ℕ)
    (lo hi : K) (n : ℤ) (hn : 2 ≤ n) (s1 : Inf K)
    (h : (Inf.init.run c pre).step c (.logstep i (some lo) (some hi) n) = (s1, none))
    (hops : ∀ op ∈ ops, ¬ op.reconfigures i) :
    ∃ f hd k, f ^ (n - 1) = hi / lo ∧ f = c.root (hi / lo) n ∧
      (s1.run c ops).h i = some hd ∧ hd.status = .stepping ∧ hd.steps = n ∧ hd.stepNum = k ∧
      0 ≤ k ∧ k ≤ n - 1 ∧ hd.value = some (lo * f ^ k) ∧
      (k = 0 → hd.value = some lo) ∧ (k = n - 1 → hd.value = some hi) := by
  have hs := run_inv c pre (Inv.init (K := K))
  obtain ⟨l, u, hl, hu, hpos, hd, hh, h1, h2, h3, h4, h5, h6, h7, h8⟩ := logstep_ok c hs h
  injection hl with hl; injection hu with hu; subst hl; subst hu
  have hs1 : Inv s1 := by
    have := (step_good c hs (.logstep i (some lo) (some hi) n)).1
    rw [h] at this; exact this
  have hlo : lo ≠ 0 := by rintro rfl; simp at hpos
  have hr : 0 < hi / lo := by
    rcases lt_or_gt_of_ne hlo with hneg | hp
    · exact div_pos_of_neg_of_neg (by by_contra hc; push Not at hc; exact absurd hpos (not_lt.mpr (mul_nonpos_of_nonpos_of_nonneg hneg.le hc))) hneg
    · exact div_pos (pos_of_mul_pos_right' hpos hp) hp
  have hf := hroot _ n hr hn
  have hf0 : hd.fac ≠ 0 := by
    rw [h6]; intro e
    rw [e, zero_zpow _ (by omega)] at hf
    exact hr.ne hf
  have hpt : ∀ k, hd.pt k = lo * c.root (hi / lo) n ^ k := by
    intro k; simp [Handler.pt, h2, h3, h6]
  have hlast : lo * c.root (hi / lo) n ^ (n - 1) = hi := by rw [hf]; field_simp
  have hws : WS hd := by
    refine ⟨h1, by omega, by omega, by omega, fun e => ?_, fun _ _ => hf0, fun _ => ?_, ?_⟩
    · rw [h2] at e; exact absurd e (by decide)
    · rw [hpt, h5, h4, hlast]
    · rw [h7, hd.pt_zero, h8, h3]
  obtain ⟨hd', hh', hws', hsg⟩ := run_has c (ws_stable i hd (by omega)) ops hs1
    ⟨hd, hh, hws, rfl, rfl, rfl, rfl, rfl, rfl⟩ hops
  have hval : hd'.value = some (lo * c.root (hi / lo) n ^ hd'.stepNum) := by rw [hws'.value, hsg.pt, hpt]
  have hst := hsg.steps
  refine ⟨c.root (hi / lo) n, hd', hd'.stepNum, hf, rfl, hh', hws'.status, hst.trans h5, rfl, hws'.lo, ?_, hval, ?_, ?_⟩
  · have := hws'.hi; omega
  · intro e; rw [hval, e]; simp
  · intro e; rw [hval, e, hlast]

/-- The numeric environment over the reals: `root r n = exp(log r/(n-1))`, as realparam.py:167 computes it. -/
noncomputable def realCfg (default : ℕ → ℝ) (params : List ℕ) : Cfg ℝ :=
  { default, params, root := fun r n => Real.exp (Real.log r / ((n : ℝ) - 1)), exp := fun u => some (Real.exp u) }

/-- **C02 (logarithmic), reals.** With the factor computed as the code does, the value at index `k` is
`lo * (hi/lo)^(k/(n-1))`. -/
theorem C02_log_grid_real (default : ℕ → ℝ) (params : List ℕ) (pre ops : List (Op ℝ)) (i : ℕ)
    (lo hi : ℝ) (n : ℤ) (hn : 2 ≤ n) (s1 : Inf ℝ)
    (h : (Inf.init.run (realCfg default params) pre).step (realCfg default params)
      (.logstep i (some lo) (some hi) n) = (s1, none))
    (hops : ∀ op ∈ ops, ¬ op.reconfigures i) :
    ∃ hd k, (s1.run (realCfg default params) ops).h i = some hd ∧ hd.status = .stepping ∧ hd.steps = n ∧
      hd.stepNum = k ∧ 0 ≤ k ∧ k ≤ n - 1 ∧ hd.value = some (lo * (hi / lo) ^ ((k : ℝ) / ((n : ℝ) - 1))) ∧
      (k = 0 → hd.value = some lo) ∧ (k = n - 1 → hd.value = some hi) := by
  have hn1 : ∀ n : ℤ, 2 ≤ n → (n : ℝ) - 1 ≠ 0 := by
    intro n hn
    have : (1 : ℝ) < n := by exact_mod_cast (by omega : 1 < n)
    exact sub_ne_zero.mpr this.ne'
  have hroot : (realCfg default params).RootOk := by
    intro r n hr hn
    simp only [realCfg]
    rw [real_exp_zpow]
    push_cast
    rw [mul_div_cancel₀ _ (hn1 n hn), Real.exp_log hr]
  obtain ⟨f, hd, k, hf, hfd, h1, h2, h3, h4, h5, h6, h7, h8, h9⟩ :=
    C02_log_grid (realCfg default params) hroot pre ops i lo hi n hn s1 h hops
  refine ⟨hd, k, h1, h2, h3, h4, h5, h6, ?_, h8, h9⟩
  have hs := run_inv (realCfg default params) pre (Inv.init (K := ℝ))
  obtain ⟨l, u, hl, hu, hpos, _⟩ := logstep_ok _ hs h
  injection hl with hl; injection hu with hu; subst hl; subst hu
  have hr : 0 < hi / lo := by
    rcases mul_pos_iff.mp hpos with ⟨a, b⟩ | ⟨a, b⟩
    · exact div_pos b a
    · exact div_pos_of_neg_of_neg b a
  rw [h7, hfd]
  congr 2
  simp only [realCfg]
  rw [Real.rpow_def_of_pos hr, real_exp_zpow]
  congr 1
  ring

/-- **C02 (ends are exact whatever the increment).** Even if the stored increment `delta` or factor is off (as it
may be after rounding), as long as the parameter is stepping with at least two steps and its value agrees with its end
points where its index is an end, this stays so under any operations that do not set the parameter up anew: index 0
means exactly the first value, the last index exactly the last one. -/
theorem C02_ends_exact (c : Cfg K) (s : Inf K) (hr : Reachable c s) (ops : List (Op K)) (i : ℕ) (a : Handler K)
    (ha : s.h i = some a) (hn : 2 ≤ a.steps) (hst : a.status = .stepping)
    (hdelta : a.stype = .lin → a.delta.isSome) (hlo : 0 ≤ a.stepNum) (hhi : a.stepNum < a.steps)
    (hfirst : a.stepNum = 0 → a.value = some a.slo) (hlast : a.stepNum = a.steps - 1 → a.value = some a.shi)
    (hops : ∀ op ∈ ops, ¬ op.reconfigures i) :
    ∃ hd, (s.run c ops).h i = some hd ∧ 0 ≤ hd.stepNum ∧ hd.stepNum < a.steps ∧
      (hd.stepNum = 0 → hd.value = some a.slo) ∧ (hd.stepNum = a.steps - 1 → hd.value = some a.shi) := by
  have hs := hr.inv
  have hv := hs.val i a ha (by simp [hst])
  obtain ⟨hd, hh, h⟩ := run_has c (ends_stable i a hn) ops hs
    ⟨a, ha, hst, rfl, rfl, rfl, hv, hdelta, hlo, hhi, hfirst, hlast⟩ hops
  refine ⟨hd, hh, h.lo, h.steps ▸ h.hi, fun e => ?_, fun e => ?_⟩
  · rw [h.first e, h.slo]
  · rw [h.last (by rw [e, h.steps]), h.shi]

/-- Non-vacuity of C02: a linear set-up that succeeds, followed by next, next, prev, a set-up of another stepping
parameter (which resets), and last. -/
example : ((Inf.init.run exCfg [.get 0]).step exCfg (.linstep 1 (some 0) (some 1) 5)).2 = none := by decide +kernel
example :
    let s1 := ((Inf.init.run exCfg [.get 0]).step exCfg (.linstep 1 (some 0) (some 1) 5)).1
    (s1.run exCfg [.nextStepP 1, .nextStepP 1, .prevStepP 1]).value 1 = some (1/4) ∧
    (s1.run exCfg [.nextStepP 1, .nextStepP 1, .linstep 0 (some 1) (some 2) 2]).value 1 = some 0 ∧
    (s1.run exCfg [.lastStepP 1, .prevStepP 1]).value 1 = some (3/4) := by
  decide +kernel
/-- A field and root for which the hypothesis of `C02_log_grid` holds: the real environment. -/
example : (realCfg (fun _ => 1) [0]).RootOk := by
  intro r n hr hn
  have : (1 : ℝ) < n := by exact_mod_cast (by omega : 1 < n)
  simp only [realCfg]
  rw [real_exp_zpow]
  push_cast
  rw [mul_div_cancel₀ _ (sub_ne_zero.mpr this.ne'), Real.exp_log hr]
example : ((Inf.init : Inf ℚ).step exCfg (.logstep 1 (some 1) (some 8) 4)).2 = none := by decide +kernel

/-- **C03.** For a parameter that is not stepping, each of the four single-parameter stepping calls raises (a
`ParamError` or `RuntimeError`) and changes nothing at all, beyond what reading the parameter does. -/
theorem C03_not_stepping (c : Cfg K) (s : Inf K) (hr : Reachable c s) (i : ℕ) (h : s.status i ≠ .stepping) :
    let s0 := (s.step c (.get i)).1
    s.step c (.nextStepP i) = (s0, some .param) ∧ s.step c (.prevStepP i) = (s0, some .param) ∧
    s.step c (.firstStepP i) = (s0, some .runtime) ∧ s.step c (.lastStepP i) = (s0, some .runtime) ∧
    (s.status i ≠ .undef → s0 = s) := by
  have hs := hr.inv
  intro s0
  obtain ⟨hn, hd, v, hh, hv, hu, _⟩ := access_ok c hs i
  have e : ∀ f, s.onHandler c i f = f s0 hd := by
    intro f
    unfold Inf.onHandler
    rw [show s.access c i = ok (s.access c i).1 from Prod.ext rfl hn]
    simp only [ok, Res.andThen_ok, hh]
    rfl
  have hst : hd.status ≠ .stepping := by
    rcases access_cases c hs i with ⟨⟨hd', v', h1, h2⟩, h3⟩ | ⟨_, _, s', h3, hm⟩
    · rw [h3] at hh
      rw [← status_eq_of_h hh]; exact h
    · rw [h3] at hh
      have := hm.self.symm.trans hh
      injection this with this
      rw [← this]; simp
  have hh0 : s0.h i = some hd := hh
  refine ⟨?_, ?_, ?_, ?_, ?_⟩
  · simp only [Inf.step, e]; simp [Inf.nextStepP, hh0, hst]
  · simp only [Inf.step, e]; simp [Inf.prevStepP, hh0, hst]
  · simp only [Inf.step, e]; simp [Inf.firstStep, hh0, hst]
  · simp only [Inf.step, e]; simp [Inf.lastStep, hh0, hst]
  · intro hne
    rcases access_cases c hs i with ⟨_, h3⟩ | ⟨hu', _⟩
    · show (s.access c i).1 = s
      rw [h3]; rfl
    · exact absurd hu' hne

/-- **C03.** `next_step` at the last grid point and `prev_step` at the first raise `ParamRangeError`, and the state
(every parameter, list and direction) is exactly what it was. -/
theorem C03_at_the_ends (c : Cfg K) (s : Inf K) (hr : Reachable c s) (i : ℕ) (hd : Handler K) (hh : s.h i = some hd)
    (hst : hd.status = .stepping) :
    (hd.stepNum = hd.steps - 1 → s.step c (.nextStepP i) = (s, some .paramRange)) ∧
    (hd.stepNum = 0 → s.step c (.prevStepP i) = (s, some .paramRange)) := by
  have hs := hr.inv
  have hu : hd.status ≠ .undef := by rw [hst]; decide
  constructor
  · intro h
    simp only [Inf.step, onHandler_of_inv c hs hh hu]
    simp [Inf.nextStepP, hh, hst, h]
  · intro h
    simp only [Inf.step, onHandler_of_inv c hs hh hu]
    simp [Inf.prevStepP, hh, hst, h]

/-- **C03, converse.** Away from the ends, and with the increment in place, the step is taken: the index moves by
one, no exception is raised, and every other parameter, the lists and the directions are untouched. -/
theorem C03_step_taken (c : Cfg K) (s : Inf K) (hr : Reachable c s) (i : ℕ) (hd : Handler K) (hh : s.h i = some hd)
    (hst : hd.status = .stepping) (hdelta : hd.stype = .lin → hd.delta.isSome) :
    (hd.stepNum ≠ hd.steps - 1 → ∃ v, s.step c (.nextStepP i) =
      (s.putValue i { hd with stepNum := hd.stepNum + 1 } v, none)) ∧
    (hd.stepNum ≠ 0 → ∃ v, s.step c (.prevStepP i) =
      (s.putValue i { hd with stepNum := hd.stepNum - 1 } v, none)) := by
  have hs := hr.inv
  have hu : hd.status ≠ .undef := by rw [hst]; decide
  obtain ⟨v, hv⟩ := Option.isSome_iff_exists.mp (hs.val i hd hh hu)
  constructor
  · intro h
    simp only [Inf.step, onHandler_of_inv c hs hh hu]
    unfold Inf.nextStepP
    rw [hh]; dsimp only
    rw [if_neg (not_not.mpr hst), if_neg h]
    split_ifs
    · exact ⟨_, rfl⟩
    · simp only [hv]
      cases hty : hd.stype with
      | lin =>
        obtain ⟨d, hd'⟩ := Option.isSome_iff_exists.mp (hdelta hty)
        simp only [hd']
        exact ⟨_, rfl⟩
      | log => exact ⟨_, rfl⟩
  · intro h
    simp only [Inf.step, onHandler_of_inv c hs hh hu]
    unfold Inf.prevStepP
    rw [hh]; dsimp only
    rw [if_neg (not_not.mpr hst), if_neg h]
    split_ifs
    · exact ⟨_, rfl⟩
    · simp only [hv]
      cases hty : hd.stype with
      | lin =>
        obtain ⟨d, hd'⟩ := Option.isSome_iff_exists.mp (hdelta hty)
        simp only [hd']
        exact ⟨_, rfl⟩
      | log => exact ⟨_, rfl⟩

/-- Non-vacuity of C03: a reachable state with a fixed parameter 0 and a stepping parameter 1 at its last step. -/
example :
    let s := Inf.init.run exCfg [.get 0, .linstep 1 (some 0) (some 1) 3, .lastStepP 1]
    s.status 0 = .fixed ∧ (s.h 1).map (fun hd => (hd.status, hd.stepNum, hd.steps)) = some (.stepping, 2, 3) ∧
    (s.step exCfg (.nextStepP 1)).2 = some .paramRange ∧ (s.step exCfg (.nextStepP 0)).2 = some .param ∧
    (s.step exCfg (.prevStepP 1)).2 = none := by
  decide +kernel

end Verif.Pie
