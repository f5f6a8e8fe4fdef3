import Verif.Pie.InvLemmas
import Mathlib.Algebra.Order.Ring.Rat
import Mathlib.Data.List.Nodup

/-!
# C01: status lists
-/

set_option linter.unusedSectionVars false

namespace Verif.Pie
variable {K : Type} [Field K] [LinearOrder K]

/-- **C01.** After any history of operations, including raising ones, each parameter occurs in the three status
lists exactly as its own status says (once, in one of them, if it has been given a value; nowhere otherwise), and
stepping directions are recorded for exactly the stepping parameters. -/
theorem C01_status_lists (c : Cfg K) (ops : List (Op K)) (i : ℕ) :
    let s := Inf.init.run c ops
    s.occurrences i = (s.status i).belongs ∧
    ((s.value i).isSome ↔ s.status i ≠ .undef) ∧
    ((s.info i).isSome ↔ s.status i = .stepping) := by
  intro s
  have hs : Inv s := run_inv c ops Inv.init
  refine ⟨?_, ?_, ?_⟩
  · have h1 := hs.mem_fixed i
    have h2 := hs.mem_varying i
    have h3 := hs.mem_stepping i
    have e : ∀ {l : List ℕ}, l.Nodup → ∀ {p : Prop} [Decidable p], (i ∈ l ↔ p) → l.count i = if p then 1 else 0 := by
      intro l hl p _ hp
      by_cases h : p
      · rw [if_pos h]; exact List.count_eq_one_of_mem hl (hp.mpr h)
      · rw [if_neg h]; exact List.count_eq_zero_of_not_mem fun hm => h (hp.mp hm)
    unfold Inf.occurrences
    rw [e hs.fixed_nd h1, e hs.varying_nd h2, e hs.stepping_nd h3]
    cases s.status i <;> simp [Status.belongs]
  · unfold Inf.value
    cases hh : s.h i with
    | none => simp [Inf.status, hh]
    | some hd => simpa [Inf.status, hh] using hs.value_iff hh
  · rw [hs.info i, hs.mem_stepping i]

/-- A parameter no operation of the history mentions is in no list and has no handler. -/
theorem C01_untouched (c : Cfg K) (ops : List (Op K)) (i : ℕ) (h : ∀ op ∈ ops, i ∉ op.names c) :
    let s := Inf.init.run c ops
    s.h i = none ∧ s.occurrences i = (0, 0, 0) := by
  have key : ∀ (ops : List (Op K)) (s : Inf K), Inv s → s.h i = none → (∀ op ∈ ops, i ∉ op.names c) →
      (s.run c ops).h i = none := by
    intro ops
    induction ops with
    | nil => intro s _ hn _; exact hn
    | cons op ops ih =>
      intro s hs hn hops
      have hg := step_good c hs op
      refine ih _ hg.1 ?_ (fun o ho => hops o (by simp [ho]))
      have hu : s.status i = .undef := by simp [Inf.status, hn]
      have hni : i ∉ op.targets c s := by
        have hnm := hops op (by simp)
        cases op <;> simp only [Op.targets, Op.names] at hnm ⊢ <;> try exact hnm
        · rw [hs.mem_stepping i, hu]; decide
        · rw [hs.mem_varying i, hu]; decide
        · rw [hs.mem_varying i, hu]; decide
        · rw [hs.mem_varying i, hu]; decide
      rcases hg.2 i hni with hf | ⟨hf, _⟩
      · rw [hf, hn]
      · rw [hu] at hf; exact absurd hf (by decide)
  have hn := key ops Inf.init Inv.init rfl h
  refine ⟨hn, ?_⟩
  have := (C01_status_lists c ops i).1
  rw [this]
  simp [Inf.status, hn, Status.belongs]

/-- A configuration for examples: parameters 0,1,2 with defaults 1,2,3. -/
def exCfg : Cfg ℚ := { default := fun i => i + 1, params := [0, 1, 2], root := fun r _ => r, exp := fun _ => some 1 }

/-- Non-vacuity: a history that uses all three lists and in which one operation raises. -/
example :
    let s := Inf.init.run exCfg [.get 0, .linstep 1 (some 0) (some 1) 3, .vary 2 (some 1) (some 1) (some (0, 5)),
      .setValue 2 7, .nextStep]
    (s.status 0, s.status 1, s.status 2) = (.fixed, .stepping, .varying) ∧ s.value 1 = some (1/2) ∧
    s.occurrences 1 = (0, 0, 1) ∧ (s.step exCfg (.setValue 2 7)).2 = some .paramRange := by
  decide +kernel

end Verif.Pie
