import Verif.Pie.ValueLemmas

/-!
# C09, C10: values and declared ranges
-/

set_option linter.unusedSectionVars false
set_option linter.unusedSimpArgs false

namespace Verif.Pie
variable {K : Type} [Field K] [LinearOrder K]

theorem Reachable.bounded {c : Cfg K} {s : Inf K} (h : Reachable c s) {i : ℕ} {b : K × K} (hb : s.bounds i = some b) :
    ∃ hd v, s.h i = some hd ∧ hd.value = some v ∧ hd.bounds = some b ∧ hd.status ≠ .undef := by
  obtain ⟨ops, rfl⟩ := h
  have hs := run_inv c ops (Inv.init (K := K))
  unfold Inf.bounds at hb
  cases hh : (Inf.init.run c ops).h i with
  | none => rw [hh] at hb; simp at hb
  | some hd =>
    rw [hh] at hb
    simp only [Option.bind_some] at hb
    have hu : hd.status ≠ .undef := fun e => by
      have := run_blankOk c ops i hd hh e; rw [hb] at this; simp at this
    obtain ⟨v, hv⟩ := Option.isSome_iff_exists.mp (hs.val i hd hh hu)
    exact ⟨hd, v, rfl, hv, hb, hu⟩

/-- **C09 (rejection).** In any reachable state in which parameter `i` has the declared range `[lo, hi]`, assigning
or fixing a value `v` outside it raises `ParamRangeError`, setting it with `set_value` raises a `ParamError`, and
`linstep`/`logstep` from or to `v` raise `ParamRangeError`; each leaves the whole inference exactly as it was. -/
theorem C09_rejected (c : Cfg K) (s : Inf K) (hr : Reachable c s) (i : ℕ) (lo hi v : K)
    (hb : s.bounds i = some (lo, hi)) (hv : ¬ (lo ≤ v ∧ v ≤ hi)) :
    s.step c (.assign i (some v)) = (s, some .paramRange) ∧
    s.step c (.fix i (some v)) = (s, some .paramRange) ∧
    s.step c (.setValue i v) = (s, some (if s.status i = .varying then .paramRange else .param)) ∧
    (∀ (w : Option K) (n : ℤ), s.step c (.linstep i (some v) w n) = (s, some .paramRange) ∧
      s.step c (.linstep i w (some v) n) = (s, some .paramRange) ∧
      s.step c (.logstep i (some v) w n) = (s, some .paramRange) ∧
      s.step c (.logstep i w (some v) n) = (s, some .paramRange)) := by
  obtain ⟨hd, w, hh, hw, hbd, hu⟩ := hr.bounded hb
  have e1 : s.fixH i hd (some v) = raise .paramRange s := by
    simp only [Inf.fixH, hbd, ge_iff_le]; rw [if_neg hv]
  have hends : ∀ x : Option K, hd.stepEndsOk (some v) x = false ∧ hd.stepEndsOk x (some v) = false := by
    intro x
    have : (decide (v < lo) || decide (v > hi)) = true := by
      by_cases h : v < lo
      · simp [h]
      · have : ¬ v ≤ hi := fun h' => hv ⟨not_lt.mp h, h'⟩
        simp [not_le.mp this]
    constructor
    · simp only [Handler.stepEndsOk, hbd]; rw [this]; rfl
    · simp only [Handler.stepEndsOk, hbd]; rw [this]; simp
  refine ⟨?_, ?_, ?_, fun x n => ⟨?_, ?_, ?_, ?_⟩⟩
  · simp only [Inf.step, Inf.assign, hh, e1]; rfl
  · simp only [Inf.step, onHandler_of_value c hh hw, e1]; rfl
  · simp only [Inf.step, onHandler_of_value c hh hw, Inf.setValueH, status_eq_of_h hh]
    by_cases h : hd.status = .varying
    · rw [if_neg (not_not.mpr h)]
      simp only [hbd, ge_iff_le]
      rw [if_neg hv, if_pos h]; rfl
    · rw [if_pos h, if_neg h]; rfl
  · simp only [Inf.step, onHandler_of_value c hh hw, Inf.linstepH, (hends x).1]; rfl
  · simp only [Inf.step, onHandler_of_value c hh hw, Inf.linstepH, (hends x).2]; rfl
  · simp only [Inf.step, onHandler_of_value c hh hw, Inf.logstepH, (hends x).1]; rfl
  · simp only [Inf.step, onHandler_of_value c hh hw, Inf.logstepH, (hends x).2]; rfl

/-- **C09 (acceptance).** If such a call does not raise, what it was given lies in the declared range, the parameter
now has that value (the first step value for a step set-up), and the declared range is as before. -/
theorem C09_accepted (c : Cfg K) (s : Inf K) (hr : Reachable c s) (i : ℕ) (lo hi : K)
    (hb : s.bounds i = some (lo, hi)) :
    (∀ (v : K) (op : Op K) (s' : Inf K), op ∈ [Op.assign i (some v), .fix i (some v), .setValue i v] →
      s.step c op = (s', none) → lo ≤ v ∧ v ≤ hi ∧ s'.value i = some v ∧ s'.bounds i = some (lo, hi)) ∧
    (∀ (a b : Option K) (n : ℤ) (op : Op K) (s' : Inf K), op ∈ [Op.linstep i a b n, .logstep i a b n] →
      s.step c op = (s', none) → ∃ a' b', a = some a' ∧ b = some b' ∧ lo ≤ a' ∧ a' ≤ hi ∧ lo ≤ b' ∧ b' ≤ hi ∧
        s'.value i = some a' ∧ s'.bounds i = some (lo, hi)) := by
  have hs := hr.inv
  obtain ⟨hd, w, hh, hw, hbd, hu⟩ := hr.bounded hb
  have hst := (status_eq_of_h hh).symm
  constructor
  · intro v op s' hop he
    have hin : lo ≤ v ∧ v ≤ hi := by
      by_contra hv
      obtain ⟨h1, h2, h3, _⟩ := C09_rejected c s hr i lo hi v hb hv
      simp only [List.mem_cons, List.not_mem_nil, or_false] at hop
      rcases hop with rfl | rfl | rfl
      · rw [h1] at he; simp at he
      · rw [h2] at he; simp at he
      · rw [h3] at he; simp at he
    refine ⟨hin.1, hin.2, ?_⟩
    have efix : ∀ t, s.fixH i hd (some v) = (t, none) → t.value i = some v ∧ t.bounds i = some (lo, hi) := by
      intro t ht
      simp only [Inf.fixH, hbd, ge_iff_le] at ht
      rw [if_pos hin, putValue_setStatus] at ht
      obtain ⟨t', e, hm⟩ := setStatus_moved (hs.note i) (hd := { hd with value := some v }) (st := .fixed) hst rfl
        (by decide)
      rw [← hbd] at ht
      rw [e] at ht
      simp only [ok, Prod.mk.injEq, and_true] at ht
      subst ht
      have := hm.self
      rw [if_neg (by decide)] at this
      simp [Inf.value, Inf.bounds, this, hbd]
    simp only [List.mem_cons, List.not_mem_nil, or_false] at hop
    rcases hop with rfl | rfl | rfl
    · simp only [Inf.step, Inf.assign, hh] at he; exact efix _ he
    · simp only [Inf.step, onHandler_of_value c hh hw] at he; exact efix _ he
    · simp only [Inf.step, onHandler_of_value c hh hw, Inf.setValueH] at he
      by_cases h : hd.status = .varying
      · rw [if_neg (not_not.mpr h)] at he
        simp only [hbd, ge_iff_le] at he
        rw [if_pos hin] at he
        simp only [ok, Prod.mk.injEq, and_true] at he
        subst he
        simp [Inf.value, Inf.bounds, putValue_self, hbd]
      · rw [if_pos h] at he; simp [raise] at he
  · intro a b n op s' hop he
    have adm : ∀ {x : K}, hd.admits x → lo ≤ x ∧ x ≤ hi := fun h => h lo hi hbd
    simp only [List.mem_cons, List.not_mem_nil, or_false] at hop
    rcases hop with rfl | rfl
    · obtain ⟨l, u, rfl, rfl, h1, hd', hh', h2⟩ := linstep_ok c hs he
      have hch := step_paths c hs (.linstep i (some l) (some u) n)
      have hends : hd.stepEndsOk (some l) (some u) = true := by
        by_contra hc
        simp only [Inf.step, onHandler_of_value c hh hw, Inf.linstepH] at he
        rw [if_pos (by simpa using hc)] at he
        simp [raise] at he
      obtain ⟨hl, hu'⟩ := stepEnds_admits hends
      refine ⟨l, u, rfl, rfl, (adm hl).1, (adm hl).2, (adm hu').1, (adm hu').2, ?_⟩
      simp only [Inf.step, onHandler_of_value c hh hw] at he
      unfold Inf.linstepH at he
      rw [if_neg (by simp [hends])] at he
      dsimp only at he
      rw [if_neg h1, putValue_setStatus] at he
      obtain ⟨t', e, hm⟩ := setStatus_moved (hs.note i) (i := i) (st := .stepping)
        (hd := { hd with
          stype := .lin, slo := l, shi := u, steps := n, delta := some ((u - l) / ((n : K) - 1)), stepNum := 0,
          value := some l }) hst rfl (by decide)
      rw [e] at he
      simp only [ok, Prod.mk.injEq, and_true] at he
      subst he
      have := hm.self
      rw [if_pos rfl] at this
      simp [Inf.value, Inf.bounds, this, hbd, Handler.rst]
    · obtain ⟨l, u, rfl, rfl, h1, hd', hh', h2⟩ := logstep_ok c hs he
      have hends : hd.stepEndsOk (some l) (some u) = true := by
        by_contra hc
        simp only [Inf.step, onHandler_of_value c hh hw, Inf.logstepH] at he
        rw [if_pos (by simpa using hc)] at he
        simp [raise] at he
      obtain ⟨hl, hu'⟩ := stepEnds_admits hends
      refine ⟨l, u, rfl, rfl, (adm hl).1, (adm hl).2, (adm hu').1, (adm hu').2, ?_⟩
      simp only [Inf.step, onHandler_of_value c hh hw] at he
      unfold Inf.logstepH at he
      rw [if_neg (by simp [hends])] at he
      dsimp only at he
      rw [if_neg (not_le.mpr h1), putValue_setStatus] at he
      obtain ⟨t', e, hm⟩ := setStatus_moved (hs.note i) (i := i) (st := .stepping)
        (hd := { hd with
          stype := .log, slo := l, shi := u, steps := n, fac := c.root (u / l) n, stepNum := 0,
          value := some l }) hst rfl (by decide)
      rw [e] at he
      simp only [ok, Prod.mk.injEq, and_true] at he
      subst he
      have := hm.self
      rw [if_pos rfl] at this
      simp [Inf.value, Inf.bounds, this, hbd, Handler.rst]

/-- Non-vacuity: a reachable state with a declared range, one value outside it and one inside. -/
example :
    let s := (Inf.init : Inf ℚ).run exCfg [.range 2 0 5, .vary 2 (some 1) (some 1) none]
    s.bounds 2 = some (0, 5) ∧ ¬ ((0 : ℚ) ≤ 7 ∧ (7 : ℚ) ≤ 5) ∧ (s.step exCfg (.setValue 2 4)).2 = none ∧
    (s.step exCfg (.linstep 2 (some 1) (some 2) 3)).2 = none := by
  decide +kernel

/-! ### C10 -/

/-- Parameter `i`'s value lies in its declared range, if it has both. -/
def Inf.inRange (s : Inf K) (i : ℕ) : Prop :=
  ∀ v lo hi, s.value i = some v → s.bounds i = some (lo, hi) → lo ≤ v ∧ v ≤ hi

/-- **C10 is false of the code.** A range may be declared around anything: after `x.range(5, 6)` on a parameter whose
value is 1 the value lies outside; so it does after `x.vary(delta=1, range=(5, 6))`. -/
theorem C10_violated :
    ¬ ((Inf.init : Inf ℚ).run exCfg [.range 0 5 6]).inRange 0 ∧
    ¬ ((Inf.init : Inf ℚ).run exCfg [.vary 0 none (some 1) (some (5, 6))]).inRange 0 ∧
    ((Inf.init : Inf ℚ).step exCfg (.range 0 5 6)).2 = none ∧
    ((Inf.init : Inf ℚ).step exCfg (.vary 0 none (some 1) (some (5, 6)))).2 = none := by
  refine ⟨fun h => ?_, fun h => ?_, by decide +kernel, by decide +kernel⟩
  · exact absurd (h 1 5 6 (by decide +kernel) (by decide +kernel)).1 (by decide)
  · exact absurd (h 1 5 6 (by decide +kernel) (by decide +kernel)).1 (by decide)

/-- It is also violated by stepping with `n = 0` inside a declared range: the steps never reach an end. -/
theorem C10_violated_by_zero_steps :
    let s := (Inf.init : Inf ℚ).run exCfg
      [.assign 0 (some 1), .range 0 0 2, .linstep 0 (some 1) (some 2) 0, .nextStepP 0, .nextStepP 0]
    s.bounds 0 = some (0, 2) ∧ s.value 0 = some (-1) := by
  decide +kernel

/-- The range `[min a b, max a b]` about to be declared for `i` contains its current value (the default if it has none
yet) and, if it is stepping, the two ends of its steps. -/
def Inf.fits (c : Cfg K) (s : Inf K) (i : ℕ) (a b : K) : Prop :=
  (min a b ≤ s.read c i ∧ s.read c i ≤ max a b) ∧
  ∀ hd, s.h i = some hd → hd.status = .stepping →
    (min a b ≤ hd.slo ∧ hd.slo ≤ max a b) ∧ (min a b ≤ hd.shi ∧ hd.shi ≤ max a b)

/-- The operation, if it declares a range, declares one that fits; or it is a `vary` that also supplies an increment
and a start value inside the new range. -/
def Op.rangeFits (c : Cfg K) (s : Inf K) : Op K → Prop
  | .range i a b => s.fits c i a b
  | .vary i st d (some (a, b)) =>
    s.fits c i a b ∨ (d.isSome ∧ ∃ v, st = some v ∧ min a b ≤ v ∧ v ≤ max a b)
  | _ => True

/-- Every operation of the history declares fitting ranges at the time it is executed. -/
def Inf.fitting (c : Cfg K) : Inf K → List (Op K) → Prop
  | _, [] => True
  | s, op :: ops => op.rangeFits c s ∧ Inf.fitting c (s.step c op).1 ops

variable [IsStrictOrderedRing K]

theorem range_admits {hd : Handler K} {a b v : K} : (hd.range a b).admits v ↔ min a b ≤ v ∧ v ≤ max a b := by
  simp [Handler.admits, Handler.range]

theorem J.range {hd : Handler K} (h : J hd) {a b : K} (hv : ∀ v, hd.value = some v → min a b ≤ v ∧ v ≤ max a b)
    (hs : hd.status = .stepping → (min a b ≤ hd.slo ∧ hd.slo ≤ max a b) ∧ (min a b ≤ hd.shi ∧ hd.shi ≤ max a b)) :
    J (hd.range a b) := by
  refine ⟨fun v e => range_admits.mpr (hv v e), fun lo hi e => ?_, fun e => ?_⟩
  · simp only [Handler.range, Option.some.injEq, Prod.mk.injEq] at e
    rw [← e.1, ← e.2]; exact min_le_max
  · obtain ⟨h1, h2⟩ := hs e
    refine ⟨range_admits.mpr h1, range_admits.mpr h2, ?_⟩
    rcases (h.steps e).2.2 with d | ⟨d1, d2, d3⟩
    · exact Or.inl d
    · refine Or.inr ⟨d1, ⟨d2.status, d2.steps, d2.lo, d2.hi, d2.lin, d2.log, d2.shi, d2.value⟩, d3⟩

theorem J.default (c : Cfg K) (i : ℕ) : J (Handler.fresh c i) :=
  ⟨fun _ _ => admits_of_none rfl, fun _ _ e => by simp [Handler.fresh] at e, fun e => by simp [Handler.fresh] at e⟩

theorem J.blank : J ({} : Handler K) := ⟨fun _ _ => admits_of_none rfl, fun _ _ e => by simp at e, fun e => by simp at e⟩

/-- All handlers satisfy `J`. -/
def JI (s : Inf K) : Prop := ∀ i hd, s.h i = some hd → J hd

theorem J.rst {hd : Handler K} (h : J hd) (hst : hd.status = .stepping) : J hd.rst := by
  obtain ⟨a, b, d⟩ := h.steps hst
  refine ⟨fun v hv => ?_, h.ordered, fun _ => ⟨a, b, ?_⟩⟩
  · simp only [Handler.rst, Option.some.injEq] at hv; subst hv; exact a
  · rcases d with ⟨d, _⟩ | ⟨d, w, f⟩
    · exact Or.inl ⟨d, rfl⟩
    · refine Or.inr ⟨d, ?_, f⟩
      rw [Handler.rst_eq_at]; exact w.at (by omega) (by omega)

theorem JI.of_good {s s' : Inf K} (h : JI s) {i : ℕ} (hg : Good s i s') (hi : ∀ hd, s'.h i = some hd → J hd) : JI s' := by
  intro j hd hj
  by_cases hji : j = i
  · subst hji; exact hi hd hj
  · rcases hg.2 j hji with e | ⟨hst, e⟩
    · exact h j hd (e ▸ hj)
    · rw [hj] at e
      cases hh : s.h j with
      | none => rw [hh] at e; simp at e
      | some x =>
        rw [hh] at e
        simp only [Option.map_some, Option.some.injEq] at e
        subst e
        exact (h j x hh).rst (by rw [← status_eq_of_h hh]; exact hst)

/-- What `fits` says of the handler found after the first access. -/
theorem access_fits (c : Cfg K) {s : Inf K} (hs : Inv s) {i : ℕ} {a b : K} (hfit : s.fits c i a b) {hd : Handler K}
    (h3 : (s.access c i).1.h i = some hd) :
    (∀ v, hd.value = some v → min a b ≤ v ∧ v ≤ max a b) ∧
    (hd.status = .stepping → (min a b ≤ hd.slo ∧ hd.slo ≤ max a b) ∧ (min a b ≤ hd.shi ∧ hd.shi ≤ max a b)) := by
  rcases access_cases c hs i with ⟨_, e'⟩ | ⟨_, hn, s', e', hm⟩
  · rw [e'] at h3
    simp only [ok] at h3
    refine ⟨fun w hw => ?_, fun hst => hfit.2 hd h3 hst⟩
    have : s.read c i = w := by
      unfold Inf.read
      rw [h3, Option.bind_some, hw]
    rw [← this]; exact hfit.1
  · rw [e'] at h3
    have h6 := hm.self
    rw [if_neg (by decide)] at h6
    have h7 := h6.symm.trans h3
    injection h7 with h7
    subst h7
    refine ⟨fun w hw => ?_, fun hst => by simp at hst⟩
    simp only [Option.some.injEq] at hw
    have : s.read c i = w := by unfold Inf.read; rw [hn]; exact hw
    rw [← this]; exact hfit.1

theorem varyH_j {s : Inf K} (hs : Inv s) {i : ℕ} {hd : Handler K} (hh : s.h i = some hd) (hu : hd.status ≠ .undef)
    (h : J hd) (st d : Option K) (a b : K)
    (hfit : ((∀ v, hd.value = some v → min a b ≤ v ∧ v ≤ max a b) ∧
      (hd.status = .stepping → (min a b ≤ hd.slo ∧ hd.slo ≤ max a b) ∧ (min a b ≤ hd.shi ∧ hd.shi ≤ max a b))) ∨
      (d.isSome ∧ ∃ v, st = some v ∧ min a b ≤ v ∧ v ≤ max a b)) :
    ∀ x, (s.varyH i hd st d (some (a, b))).1.h i = some x → J x := by
  unfold Inf.varyH
  simp only [Option.isNone_some, Bool.false_and, Bool.false_eq_true, if_false, Handler.withRange]
  have hst := (status_eq_of_h hh).symm
  have hv := hs.val i hd hh hu
  intro x hx
  cases hdel : d.or (hd.range a b).delta with
  | none =>
    rw [hdel] at hx
    simp only [raise, setH_self, Option.some.injEq] at hx
    subst hx
    rcases hfit with ⟨f1, f2⟩ | ⟨f1, _⟩
    · exact h.range f1 f2
    · cases d with
      | none => simp at f1
      | some d => simp at hdel
  | some dd =>
    rw [hdel] at hx
    obtain ⟨s', h1, hm⟩ := setStatus_moved hs (i := i) (hd := { hd.range a b with delta := some dd }) (st := .varying)
      hst hv (by decide)
    have h2 := hm.self
    rw [if_neg (by decide)] at h2
    simp only [h1, ok, Res.andThen_ok] at hx
    have jv : ∀ v, min a b ≤ v ∧ v ≤ max a b →
        J { { { hd.range a b with delta := some dd } with status := .varying } with value := some v } := by
      intro v hv
      refine ⟨fun w hw => ?_, fun lo hi e => ?_, fun e => by simp at e⟩
      · simp only [Option.some.injEq] at hw; subst hw
        exact admits_of (hd := { hd.range a b with delta := some dd, status := .varying, value := some v }) rfl hv
      · simp only [Handler.range, Option.some.injEq, Prod.mk.injEq] at e
        rw [← e.1, ← e.2]; exact min_le_max
    have jo : (∀ v, hd.value = some v → min a b ≤ v ∧ v ≤ max a b) →
        J { { hd.range a b with delta := some dd } with status := .varying } := by
      intro f
      obtain ⟨v, hv'⟩ := Option.isSome_iff_exists.mp hv
      have := jv v (f v hv')
      rw [← hv'] at this
      exact this
    cases st with
    | none =>
      have hx' : s'.h i = some x := by
        dsimp only at hx
        have key : ∀ (p : Prop) [Decidable p], (if p then raise Err.attribute s' else (s', none)).1 = s' := by
          intro p _; split <;> rfl
        rw [← hx]; exact congrArg (fun t : Inf K => t.h i) (key _).symm
      rw [h2] at hx'
      injection hx' with hx'
      subst hx'
      rcases hfit with ⟨f1, f2⟩ | ⟨_, v, f, _⟩
      · exact jo f1
      · simp at f
    | some v =>
      dsimp only at hx
      unfold Inf.setValueH at hx
      rw [if_neg (by simp)] at hx
      simp only [Handler.range, ge_iff_le] at hx
      by_cases hin : min a b ≤ v ∧ v ≤ max a b
      · rw [if_pos hin] at hx
        simp only [ok, putValue_self, Option.some.injEq] at hx
        subst hx
        exact jv v hin
      · rw [if_neg hin] at hx
        simp only [raise] at hx
        rw [h2] at hx
        injection hx with hx
        subst hx
        rcases hfit with ⟨f1, f2⟩ | ⟨_, w, f, f'⟩
        · exact jo f1
        · injection f with f; subst f; exact absurd f' hin

theorem step_ji (c : Cfg K) (hroot : c.RootOk) (hpos : c.PosOk) {s : Inf K} (hs : Inv s) (h : JI s) (op : Op K)
    (hop : op.stepsOk) (hfit : op.rangeFits c s) : JI (s.step c op).1 := by
  have gen : (∀ i a b, op ≠ .range i a b) → (∀ i st d a b, op ≠ .vary i st d (some (a, b))) → JI (s.step c op).1 :=
    fun h1 h2 => step_keeps c hs op J J.blank (J.default c) (fun _ _ ht hp => ht.j hroot hpos hop h1 h2 hp) h
  have hja : ∀ i, JI (s.access c i).1 := fun i => step_keeps c hs (.get i) J J.blank (J.default c)
    (fun _ _ ht hp => ht.j hroot hpos (by simp [Op.stepsOk]) (by simp) (by simp) hp) h
  by_cases h1 : ∃ i a b, op = .range i a b
  · obtain ⟨i, a, b, rfl⟩ := h1
    have hacc := access_good c hs i
    obtain ⟨h2, hd, v, h3, h4, hu, h5⟩ := access_ok c hs i
    have e : (s.step c (.range i a b)).1 = (s.access c i).1.setH i (hd.range a b) := by
      simp only [Inf.step, Inf.onHandler]
      have : s.access c i = ok (s.access c i).1 := Prod.ext rfl h2
      rw [this]
      simp only [ok, Res.andThen_ok, h3]
    have hg : Good (s.access c i).1 i ((s.access c i).1.setH i (hd.range a b)) :=
      Good.setH hacc.1 (status_eq_of_h h3).symm (hacc.1.value_iff (hd := hd) h3)
    rw [e]
    refine (hja i).of_good hg fun x hx => ?_
    rw [setH_self] at hx; injection hx with hx; subst hx
    obtain ⟨f1, f2⟩ := access_fits c hs hfit h3
    exact (hja i i hd h3).range f1 f2
  · by_cases h2 : ∃ i st d a b, op = .vary i st d (some (a, b))
    · obtain ⟨i, st, d, a, b, rfl⟩ := h2
      have hacc := access_good c hs i
      obtain ⟨h2, hd, v, h3, h4, hu, h5⟩ := access_ok c hs i
      have e : (s.step c (.vary i st d (some (a, b)))).1 = ((s.access c i).1.varyH i hd st d (some (a, b))).1 := by
        simp only [Inf.step, Inf.onHandler]
        have : s.access c i = ok (s.access c i).1 := Prod.ext rfl h2
        rw [this]
        simp only [ok, Res.andThen_ok, h3]
      rw [e]
      refine (hja i).of_good (varyH_good hacc.1 st d _ (status_eq_of_h h3).symm (by simp [h4]) hu)
        (varyH_j hacc.1 h3 hu (hja i i hd h3) st d a b ?_)
      rcases hfit with hf | hf
      · exact Or.inl (access_fits c hs hf h3)
      · exact Or.inr hf
    · push Not at h1 h2
      exact gen h1 h2

/-- **C10, what does hold.** In every history in which stepping is set up with both ends and at least two steps (one
for `logstep`) and every newly declared range fits the parameter at the time (see `Inf.fits`; or comes with an
increment and a start value inside it), every parameter with a declared range has its value inside it at every point
— including after raising operations, grid stepping, optimiser steps through the unbounded transform, and
`set_params`. Missing from the full property: the two hypotheses, without which it is false (`C10_violated`,
`C10_violated_by_zero_steps`). -/
theorem C10_in_range_partial (c : Cfg K) (hroot : c.RootOk) (hpos : c.PosOk) (ops : List (Op K))
    (hops : ∀ op ∈ ops, op.stepsOk) (hfit : Inf.init.fitting c ops) (i : ℕ) : (Inf.init.run c ops).inRange i := by
  have key : ∀ (ops : List (Op K)) (s : Inf K), Inv s → JI s → (∀ op ∈ ops, op.stepsOk) → s.fitting c ops →
      JI (s.run c ops) := by
    intro ops
    induction ops with
    | nil => intro s _ h _ _; exact h
    | cons op ops ih =>
      intro s hs h hops hf
      exact ih _ (step_good c hs op).1 (step_ji c hroot hpos hs h op (hops op (by simp)) hf.1)
        (fun o ho => hops o (by simp [ho])) hf.2
  have hj := key ops Inf.init Inv.init (fun i hd h => by simp [Inf.init] at h) hops hfit
  intro v lo hi hv hb
  unfold Inf.value at hv
  unfold Inf.bounds at hb
  cases hh : (Inf.init.run c ops).h i with
  | none => rw [hh] at hv; simp at hv
  | some hd =>
    rw [hh] at hv hb
    exact (hj i hd hh).value v hv lo hi hb

/-- The hypotheses on the numeric environment hold for the code's own formulas over the reals. -/
example : (realCfg (fun _ => 1) [0]).PosOk :=
  ⟨fun _ _ _ _ => Real.exp_pos _, fun u e h => by
    simp only [realCfg, Option.some.injEq] at h; rw [← h]; exact (Real.exp_pos u).le⟩

/-- Non-vacuity: a history that declares ranges, one of them through `vary`, and satisfies the hypotheses. -/
example :
    let ops : List (Op ℚ) := [.range 0 0 5, .vary 1 (some 7) (some 1) (some (6, 9)), .setValue 1 8,
      .linstep 0 (some 1) (some 4) 4, .range 0 0 4, .nextStep]
    (∀ op ∈ ops, op.stepsOk) ∧ (Inf.init.run exCfg ops).value 0 = some 2 ∧ (Inf.init.run exCfg ops).bounds 0 = some (0, 4) := by
  refine ⟨?_, by decide +kernel, by decide +kernel⟩
  intro op hop
  simp only [List.mem_cons, List.not_mem_nil, or_false] at hop
  rcases hop with rfl | rfl | rfl | rfl | rfl | rfl <;> simp [Op.stepsOk]
example : (Inf.init : Inf ℚ).fitting exCfg [.range 0 0 5, .vary 1 (some 7) (some 1) (some (6, 9)), .setValue 1 8] := by
  refine ⟨⟨by decide +kernel, fun hd h => by simp [Inf.init] at h⟩, Or.inr ⟨rfl, 7, rfl, by decide, by decide⟩, trivial, trivial⟩

end Verif.Pie
