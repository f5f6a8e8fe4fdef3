import Verif.Fsm.Fsm
import Mathlib.Algebra.Order.Ring.Int
import Mathlib.Data.List.Induction
import Mathlib.Tactic.IntervalCases
import Mathlib.Tactic.Tauto

/-!
# C145-C147: finite state machines and the calculator
-/

set_option linter.unusedSectionVars false

namespace Verif.Fsm

section
variable {S Q A D : Type} [DecidableEq S] [DecidableEq Q]

/-! ## Specification -/

/-- What a call defines for a symbol in a state. -/
def sets (s : S) (q : Q) : Op S Q A → Option (Target Q A)
  | .add s' q' a n => if s' = s ∧ q' = q then some (a, n) else none
  | .addList l q' a n => if s ∈ l ∧ q' = q then some (a, n) else none
  | _ => none

/-- What a call defines for all symbols in a state. -/
def setsAny (q : Q) : Op S Q A → Option (Target Q A)
  | .addAny q' a n => if q' = q then some (a, n) else none
  | _ => none

/-- What a call defines for all symbols and states. -/
def setsAll : Op S Q A → Option (Target Q A)
  | .setDefault a n => some (a, n)
  | _ => none

/-- The last definition in a history. -/
def lastDef (f : Op S Q A → Option (Target Q A)) (h : List (Op S Q A)) : Option (Target Q A) := (h.filterMap f).getLast?

/-- The definition that applies: the most specific one. -/
def applies (h : List (Op S Q A)) (s : S) (q : Q) : Option (Target Q A) :=
  (lastDef (sets s q) h).or ((lastDef (setsAny q) h).or (lastDef setsAll h))

/-! ## Lemmas -/

theorem lastDef_snoc (f : Op S Q A → Option (Target Q A)) (h : List (Op S Q A)) (o : Op S Q A) :
    lastDef f (h ++ [o]) = (f o).or (lastDef f h) := by
  unfold lastDef
  rw [List.filterMap_append, List.getLast?_append]
  cases ho : f o <;> simp [ho]

theorem process_tables (act : A → S → D → D × Option Err) (m : Machine S Q A D) (s : S) :
    (m.process act s).1.specific = m.specific ∧ (m.process act s).1.anyOf = m.anyOf ∧ (m.process act s).1.default = m.default ∧ (m.process act s).1.initial = m.initial := by
  unfold Machine.process
  simp only []
  split
  · exact ⟨rfl, rfl, rfl, rfl⟩
  · exact ⟨rfl, rfl, rfl, rfl⟩
  · split <;> exact ⟨rfl, rfl, rfl, rfl⟩

theorem addList_spec : ∀ (l : List S) (m : Machine S Q A D) (q : Q) (a : Option A) (n : Q),
    (∀ s q', (m.addList l q a n).specific (s, q') = if s ∈ l ∧ q = q' then some (a, n) else m.specific (s, q')) ∧
    (m.addList l q a n).anyOf = m.anyOf ∧ (m.addList l q a n).default = m.default ∧ (m.addList l q a n).initial = m.initial ∧
    (m.addList l q a n).current = m.current ∧ (m.addList l q a n).something = m.something
  | [], m, q, a, n => by simp [Machine.addList]
  | s :: l, m, q, a, n => by
    obtain ⟨h1, h2, h3, h4, h5, h6⟩ := addList_spec l (m.add s q a n) q a n
    rw [Machine.addList]
    refine ⟨fun t q' => ?_, h2, h3, h4, h5, h6⟩
    rw [h1]
    simp only [Machine.add, Function.update_apply, Prod.mk.injEq, List.mem_cons]
    by_cases ht : t = s <;> by_cases hl : t ∈ l <;> by_cases hq : q = q' <;> simp [ht, hl, hq, eq_comm]

theorem calls_tables (act : A → S → D → D × Option Err) (i : Q) (d : D) (h : List (Op S Q A)) :
    (∀ s q, ((Machine.new i d).calls act h).specific (s, q) = lastDef (sets s q) h) ∧
    (∀ q, ((Machine.new i d).calls act h).anyOf q = lastDef (setsAny q) h) ∧
    ((Machine.new i d).calls act h).default = lastDef setsAll h ∧ ((Machine.new i d).calls act h).initial = i := by
  induction h using List.reverseRecOn with
  | nil => exact ⟨fun _ _ => rfl, fun _ => rfl, rfl, rfl⟩
  | append_singleton h o ih =>
    obtain ⟨h1, h2, h3, h4⟩ := ih
    have hc : (Machine.new i d).calls act (h ++ [o]) = ((Machine.new i d).calls act h).call act o := by
      unfold Machine.calls; rw [List.foldl_append]; rfl
    rw [hc]
    simp only [lastDef_snoc]
    cases o with
    | add s' q' a n =>
      refine ⟨fun s q => ?_, fun q => by simp [Machine.call, Machine.add, setsAny, h2], by simp [Machine.call, Machine.add, setsAll, h3], h4⟩
      simp only [Machine.call, Machine.add, Function.update_apply, Prod.mk.injEq, sets, h1]
      split_ifs <;> grind
    | addList l q' a n =>
      obtain ⟨g1, g2, g3, g4, _⟩ := addList_spec l ((Machine.new i d).calls act h) q' a n
      refine ⟨fun s q => ?_, fun q => by simp [Machine.call, g2, setsAny, h2], by simp [Machine.call, g3, setsAll, h3], g4.trans h4⟩
      simp only [Machine.call, g1, sets, h1]
      split_ifs <;> simp
    | addAny q' a n =>
      refine ⟨fun s q => by simp [Machine.call, Machine.addAny, sets, h1], fun q => ?_, by simp [Machine.call, Machine.addAny, setsAll, h3], h4⟩
      simp only [Machine.call, Machine.addAny, Function.update_apply, setsAny, h2]
      split_ifs <;> grind
    | setDefault a n =>
      exact ⟨fun s q => by simp [Machine.call, Machine.setDefault, sets, h1], fun q => by simp [Machine.call, Machine.setDefault, setsAny, h2],
        by simp [Machine.call, Machine.setDefault, setsAll], h4⟩
    | reset =>
      exact ⟨fun s q => by simp [Machine.call, Machine.reset, sets, h1], fun q => by simp [Machine.call, Machine.reset, setsAny, h2],
        by simp [Machine.call, Machine.reset, setsAll, h3], h4⟩
    | process s' =>
      obtain ⟨g1, g2, g3, g4⟩ := process_tables act ((Machine.new i d).calls act h) s'
      exact ⟨fun s q => by simp [Machine.call, g1, sets, h1], fun q => by simp [Machine.call, g2, setsAny, h2],
        by simp [Machine.call, g3, setsAll, h3], g4.trans h4⟩

theorem get_applies (act : A → S → D → D × Option Err) (i : Q) (d : D) (h : List (Op S Q A)) (s : S) (o : Option S) (q' : Q) :
    ({ ((Machine.new i d).calls act h) with symbol := o } : Machine S Q A D).get s q' = applies h s ((Machine.new i d).calls act h).current := by
  obtain ⟨h1, h2, h3, _⟩ := calls_tables act i d h
  unfold Machine.get applies
  simp only [h1, h2, h3]
  cases lastDef (sets s ((Machine.new i d).calls act h).current) h with
  | some t => rfl
  | none =>
    cases lastDef (setsAny ((Machine.new i d).calls act h).current) h with
    | some t => rfl
    | none => rfl

/-! ## C145 -/

/-- **C145 (part).** After any history of calls, a symbol is processed by the last transition defined for the symbol in the current state, or else for the state, or else by the last default; without one `ExceptionFSM` is raised and the state is kept.  The action is run once with the symbol; if it raises, the state is kept.  `reset` always returns to the state given to the constructor.  Missing: `get_transition` for another state, see `C145_violated_state`. -/
theorem C145_transitions_partial (act : A → S → D → D × Option Err) (i : Q) (d : D) (h : List (Op S Q A)) (s : S) :
    let m := (Machine.new i d).calls act h
    let r := m.process act s
    r.1.symbol = some s ∧ m.reset.current = i ∧ m.get s m.current = applies h s m.current ∧
    (applies h s m.current = none → r.2 = some .fsm ∧ r.1.current = m.current ∧ r.1.something = m.something) ∧
    (∀ q, applies h s m.current = some (none, q) → r.2 = none ∧ r.1.current = q ∧ r.1.something = m.something) ∧
    (∀ a q, applies h s m.current = some (some a, q) → r.1.something = (act a s m.something).1 ∧
      ((act a s m.something).2 = none → r.2 = none ∧ r.1.current = q) ∧
      ∀ e, (act a s m.something).2 = some e → r.2 = some (.py e) ∧ r.1.current = m.current) := by
  intro m r
  have hg := fun o => get_applies act i d h s o m.current
  have hr : r = m.process act s := rfl
  unfold Machine.process at hr
  simp only [show ({ m with symbol := some s } : Machine S Q A D).get s m.current = applies h s m.current from hg (some s)] at hr
  refine ⟨?_, (calls_tables act i d h).2.2.2, hg m.symbol, ?_, ?_, ?_⟩
  · rw [hr]; split
    · rfl
    · rfl
    · split <;> rfl
  · intro ha; rw [ha] at hr; rw [hr]; exact ⟨rfl, rfl, rfl⟩
  · intro q ha; rw [ha] at hr; rw [hr]; exact ⟨rfl, rfl, rfl⟩
  · intro a q ha
    rw [ha] at hr
    simp only [] at hr
    rcases hx : act a s m.something with ⟨d', e'⟩
    rw [hx] at hr
    cases e' with
    | none => rw [hr]; exact ⟨rfl, fun _ => ⟨rfl, rfl⟩, fun e he => by cases he⟩
    | some e => rw [hr]; exact ⟨rfl, fun he => (nomatch he), fun e he => by cases he; exact ⟨rfl, rfl⟩⟩

end

/-- A later definition for all symbols does not replace the one for the symbol. -/
example : applies (A := ℕ) [.add 'x' 0 (some 7) 1, .addAny 0 none 2, .setDefault none 3] 'x' 0 = some (some 7, 1) ∧
    applies (A := ℕ) [.add 'x' 0 (some 7) 1, .addAny 0 none 2, .setDefault none 3] 'y' 0 = some (none, 2) ∧
    applies (A := ℕ) [.add 'x' 0 (some 7) 1, .addAny 0 none 2, .setDefault none 3] 'y' 5 = some (none, 3) := by decide +kernel

/-- `get_transition` does not look at the state it is given: a machine in state 0 that knows what to do with x in state 1 says that it does not. -/
theorem C145_violated_state : ∃ h : List (Op Char ℕ ℕ), ∀ act : ℕ → Char → Unit → Unit × Option Err,
    applies h 'x' 1 = some (some 7, 2) ∧ ((Machine.new 0 ()).calls act h).get 'x' 1 = none :=
  ⟨[.add 'x' 1 (some 7) 2], fun _ => ⟨by decide +kernel, by simp [Machine.calls, Machine.call, Machine.add, Machine.new, Machine.get, Function.update_apply]⟩⟩

/-! ## Specification of the calculator -/

/-- An expression. -/
inductive Expr
  | num (ds : List Char)
  | bin (op : Char) (l r : Expr)

/-- The number a string of digits stands for. -/
def number (ds : List Char) : ℤ := ds.foldl (fun n c => 10 * n + (c.toNat - '0'.toNat : ℕ)) 0

/-- The value of an expression, `none` when there is a division by zero; a quotient is rounded down. -/
def Expr.value : Expr → Option ℤ
  | .num ds => some (number ds)
  | .bin op l r =>
    match l.value, r.value with
    | some a, some b =>
      match op with
      | '+' => some (a + b)
      | '-' => some (a - b)
      | '*' => some (a * b)
      | _ => if b = 0 then none else some (Int.fdiv a b)
    | _, _ => none

/-- A character that is no digit, no operator and not the equals sign. -/
def Inert (c : Char) : Prop := c ∉ "0123456789+-*/=".toList

/-- The reverse Polish notations of an expression: a number is followed by white space; there may be any other characters between. -/
inductive Notation : Expr → List Char → Prop
  | num (ds w) : ds ≠ [] → (∀ c ∈ ds, c.isDigit) → w ∈ "\t\n\x0b\x0c\r ".toList → Notation (.num ds) (ds ++ [w])
  | bin (op l r s t) : op ∈ "+-*/".toList → Notation l s → Notation r t → Notation (.bin op l r) (s ++ t ++ [op])
  | before (e s c) : Inert c → Notation e s → Notation e (c :: s)
  | after (e s c) : Inert c → Notation e s → Notation e (s ++ [c])

/-! ## Lemmas about the calculator -/

/-- A machine with the tables of the calculator. -/
def state (q : CState) (o : Option Char) (c : Calc) : Machine Char CState Action Calc := { calculator with symbol := o, current := q, something := c }

theorem calculator_eq : calculator = state .init none ([], []) := by
  have h : calculator.symbol = none ∧ calculator.current = .init ∧ calculator.something = ([], []) := by
    refine ⟨rfl, rfl, rfl⟩
  unfold state
  rw [← h.1, ← h.2.1, ← h.2.2]

theorem specific_eq (c : Char) (q : CState) : calculator.specific (c, q) =
    match q with
    | .init => if c ∈ ['+', '-', '*', '/'] then some (some .operator, .init) else if c ∈ digits then some (some .beginNumber, .building) else
        if c = '=' then some (some .equal, .init) else none
    | .building => if c ∈ whitespace then some (some .endNumber, .init) else if c ∈ digits then some (some .buildNumber, .building) else none := by
  unfold calculator
  simp only [(addList_spec _ _ _ _ _).1]
  cases q <;> simp [Machine.add, Function.update_apply, Machine.setDefault, Machine.addAny, Machine.new]

theorem anyOf_eq (q : CState) : calculator.anyOf q = match q with | .init => some (none, .init) | .building => none := by
  unfold calculator
  simp only [(addList_spec _ _ _ _ _).2.1]
  cases q <;> simp [Machine.add, Function.update_apply, Machine.setDefault, Machine.addAny, Machine.new]

theorem digit_mem {c : Char} (h : c.isDigit) : c ∈ digits ∧ digits.idxOf c = c.toNat - '0'.toNat := by
  have h1 : 48 ≤ c.toNat ∧ c.toNat ≤ 57 := by
    simp only [Char.isDigit, Bool.and_eq_true, decide_eq_true_eq] at h
    exact ⟨h.1, h.2⟩
  have h2 : c = Char.ofNat c.toNat := (Char.ofNat_toNat c).symm
  obtain ⟨n, hn⟩ : ∃ n, c.toNat = n := ⟨_, rfl⟩
  rw [hn] at h1 h2
  obtain ⟨a, b⟩ := h1
  rw [h2]
  interval_cases n <;> decide +kernel

theorem processList_append {m : Machine Char CState Action Calc} (s t : List Char) : m.processList act (s ++ t) =
    match m.processList act s with
    | (m', none) => m'.processList act t
    | (m', some e) => (m', some e) := by
  induction s generalizing m with
  | nil => rfl
  | cons c s ih =>
    simp only [List.cons_append, Machine.processList]
    rcases hm : m.process act c with ⟨m', e⟩
    cases e with
    | none => exact ih
    | some e => rfl

theorem step_begin {c : Char} (h : c ∈ digits) (o : Option Char) (st : List Val) (out : List Line) :
    (state .init o (st, out)).process act c = (state .building (some c) (.str [c] :: st, out), none) := by
  have hn : c ∉ ['+', '-', '*', '/'] := by
    revert h; simp only [digits, List.mem_cons, List.not_mem_nil, or_false]
    rintro (rfl | rfl | rfl | rfl | rfl | rfl | rfl | rfl | rfl | rfl) <;> decide
  simp only [Machine.process, Machine.get, state, specific_eq, if_neg hn, if_pos h, act]

theorem step_build {c : Char} (h : c ∈ digits) (o : Option Char) (s : List Char) (st : List Val) (out : List Line) :
    (state .building o (.str s :: st, out)).process act c = (state .building (some c) (.str (s ++ [c]) :: st, out), none) := by
  have hn : c ∉ whitespace := by
    revert h; simp only [digits, List.mem_cons, List.not_mem_nil, or_false]
    rintro (rfl | rfl | rfl | rfl | rfl | rfl | rfl | rfl | rfl | rfl) <;> decide
  simp only [Machine.process, Machine.get, state, specific_eq, if_neg hn, if_pos h, act]

theorem step_end {c : Char} (h : c ∈ whitespace) (o : Option Char) (s : List Char) (hs : s ≠ [] ∧ ∀ c ∈ s, c ∈ digits) (st : List Val) (out : List Line) :
    (state .building o (.str s :: st, out)).process act c =
      (state .init (some c) (.int (s.foldl (fun n c => 10 * n + (digits.idxOf c : ℤ)) 0) :: st, out), none) := by
  simp only [Machine.process, Machine.get, state, specific_eq, if_pos h, act, toInt, if_pos hs]

theorem step_inert {c : Char} (h : Inert c) (o : Option Char) (d : Calc) :
    (state .init o d).process act c = (state .init (some c) d, none) := by
  have h1 : c ∉ ['+', '-', '*', '/'] := by intro hc; apply h; revert hc; simp; tauto
  have h2 : c ∉ digits := by intro hc; apply h; revert hc; simp [digits]; tauto
  have h3 : c ≠ '=' := by rintro rfl; exact h (by decide)
  simp only [Machine.process, Machine.get, state, specific_eq, anyOf_eq, if_neg h1, if_neg h2, if_neg h3]

theorem step_op {c : Char} (h : c ∈ ['+', '-', '*', '/']) (o : Option Char) (a b : ℤ) (st : List Val) (out : List Line) :
    (state .init o (.int b :: .int a :: st, out)).process act c =
      match apply c (.int a) (.int b) with
      | .ok (some v) => (state .init (some c) (v :: st, out), none)
      | .ok none => (state .init (some c) (st, out), none)
      | .error e => (state .init (some c) (st, out), some (.py e)) := by
  simp only [Machine.process, Machine.get, state, specific_eq, if_pos h, act]
  cases hx : apply c (.int a) (.int b) with
  | error e => rfl
  | ok v => cases v <;> rfl

theorem step_equal (o : Option Char) (v : Val) (st : List Val) (out : List Line) :
    (state .init o (v :: st, out)).process act '=' = (state .init (some '=') (st, .val v :: out), none) := by
  have h1 : '=' ∉ ['+', '-', '*', '/'] := by decide
  have h2 : '=' ∉ digits := by decide
  simp only [Machine.process, Machine.get, state, specific_eq, if_neg h1, if_neg h2, if_true, act]

theorem run_building (t : List Char) (ht : ∀ c ∈ t, c ∈ digits) (o : Option Char) (s : List Char) (st : List Val) (out : List Line) :
    ∃ o', (state .building o (.str s :: st, out)).processList act t = (state .building o' (.str (s ++ t) :: st, out), none) := by
  induction t generalizing o s with
  | nil => exact ⟨o, by simp [Machine.processList]⟩
  | cons c t ih =>
    obtain ⟨o', h⟩ := ih (fun c hc => ht c (by simp [hc])) (some c) (s ++ [c])
    refine ⟨o', ?_⟩
    rw [Machine.processList, step_build (ht c (by simp))]
    simpa using h

theorem number_eq {ds : List Char} (h : ∀ c ∈ ds, c.isDigit) : ds.foldl (fun n c => 10 * n + (digits.idxOf c : ℤ)) 0 = number ds := by
  unfold number
  generalize (0 : ℤ) = z
  induction ds generalizing z with
  | nil => rfl
  | cons c ds ih =>
    simp only [List.foldl_cons]
    rw [(digit_mem (h c (by simp))).2]
    exact ih (fun c hc => h c (by simp [hc])) _

theorem run_number {ds : List Char} (hne : ds ≠ []) (hd : ∀ c ∈ ds, c.isDigit) {w : Char} (hw : w ∈ whitespace) (o : Option Char) (st : List Val) (out : List Line) :
    (state .init o (st, out)).processList act (ds ++ [w]) = (state .init (some w) (.int (number ds) :: st, out), none) := by
  cases ds with
  | nil => exact absurd rfl hne
  | cons c ds =>
    have hm : ∀ x ∈ c :: ds, x ∈ digits := fun x hx => (digit_mem (hd x hx)).1
    obtain ⟨o', h⟩ := run_building ds (fun x hx => hm x (by simp [hx])) (some c) [c] st out
    rw [processList_append, Machine.processList, step_begin (hm c (by simp))]
    simp only []
    rw [h]
    simp only [List.singleton_append, Machine.processList]
    rw [step_end hw _ _ ⟨hne, hm⟩, number_eq hd]

/-- An expression leaves its value on the stack. -/
theorem run_expr {e : Expr} {s : List Char} (h : Notation e s) : ∀ (o : Option Char) (st : List Val) (out : List Line),
    (∀ v, e.value = some v → ∃ o', (state .init o (st, out)).processList act s = (state .init o' (.int v :: st, out), none)) ∧
    (e.value = none → ∃ m, (state .init o (st, out)).processList act s = (m, some (.py .zeroDiv)) ∧ m.something.2 = out) := by
  induction h with
  | num ds w hne hd hw =>
    intro o st out
    refine ⟨fun v hv => ⟨some w, ?_⟩, fun hv => by simp [Expr.value] at hv⟩
    have : number ds = v := by simpa [Expr.value] using hv
    rw [run_number hne hd (by revert hw; simp [whitespace]), this]
  | bin op l r s t hop _ _ ihl ihr =>
    intro o st out
    have hop' : op ∈ ['+', '-', '*', '/'] := by revert hop; simp
    rw [processList_append, processList_append]
    cases hl : l.value with
    | none =>
      obtain ⟨m, hm, ho⟩ := (ihl o st out).2 hl
      refine ⟨fun v hv => by simp [Expr.value, hl] at hv, fun _ => ⟨m, ?_, ho⟩⟩
      rw [hm]
    | some a =>
      obtain ⟨o1, h1⟩ := (ihl o st out).1 a hl
      rw [h1]
      simp only []
      cases hr : r.value with
      | none =>
        obtain ⟨m, hm, ho⟩ := (ihr o1 (.int a :: st) out).2 hr
        refine ⟨fun v hv => by simp [Expr.value, hl, hr] at hv, fun _ => ⟨m, ?_, ho⟩⟩
        rw [hm]
      | some b =>
        obtain ⟨o2, h2⟩ := (ihr o1 (.int a :: st) out).1 b hr
        rw [h2]
        simp only [Machine.processList, step_op hop', Expr.value, hl, hr]
        simp only [List.mem_cons, List.not_mem_nil, or_false] at hop'
        rcases hop' with rfl | rfl | rfl | rfl
        · refine ⟨fun v hv => ⟨some '+', ?_⟩, fun hv => by simp at hv⟩
          cases hv; simp [apply]
        · refine ⟨fun v hv => ⟨some '-', ?_⟩, fun hv => by simp at hv⟩
          cases hv; simp [apply]
        · refine ⟨fun v hv => ⟨some '*', ?_⟩, fun hv => by simp at hv⟩
          cases hv; simp [apply]
        · by_cases hb : b = 0
          · refine ⟨fun v hv => by simp [hb] at hv, fun _ => ⟨state .init (some '/') (st, out), ?_, rfl⟩⟩
            simp [apply, hb]
          · refine ⟨fun v hv => ⟨some '/', ?_⟩, fun hv => by simp [hb] at hv⟩
            have : a.fdiv b = v := by simpa [hb] using hv
            simp [apply, hb, this]
  | before e s c hc _ ih =>
    intro o st out
    rw [Machine.processList, step_inert hc]
    exact ih (some c) st out
  | after e s c hc _ ih =>
    intro o st out
    rw [processList_append]
    refine ⟨fun v hv => ?_, fun hv => ?_⟩
    · obtain ⟨o', h⟩ := (ih o st out).1 v hv
      refine ⟨some c, ?_⟩
      rw [h]
      simp only [Machine.processList, step_inert hc]
    · obtain ⟨m, h, ho⟩ := (ih o st out).2 hv
      exact ⟨m, by rw [h], ho⟩

/-- Several expressions, each followed by the equals sign. -/
theorem run_lines (es : List (Expr × List Char)) (hn : ∀ p ∈ es, Notation p.1 p.2) (vs : List ℤ) (hv : es.map (fun p => p.1.value) = vs.map some) (o : Option Char) (out : List Line) :
    ∃ o', (state .init o ([], out)).processList act (es.flatMap fun p => p.2 ++ ['=']) = (state .init o' ([], vs.reverse.map (fun v => .val (.int v)) ++ out), none) := by
  induction es generalizing vs o out with
  | nil =>
    have : vs = [] := by simpa using hv.symm
    subst this
    exact ⟨o, rfl⟩
  | cons p es ih =>
    cases vs with
    | nil => simp at hv
    | cons v vs =>
      simp only [List.map_cons, List.cons.injEq] at hv
      obtain ⟨o1, h1⟩ := (run_expr (hn p (by simp)) o [] out).1 v hv.1
      obtain ⟨o2, h2⟩ := ih (fun p hp => hn p (by simp [hp])) vs hv.2 (some '=') (.val (.int v) :: out)
      refine ⟨o2, ?_⟩
      rw [List.flatMap_cons, processList_append, processList_append, h1]
      simp only [Machine.processList, step_equal]
      rw [h2]
      simp

/-! ## C146 -/

/-- **C146 (part).** The calculator prints the values of the expressions it is given, one after the other, and nothing else, and is ready for more; a division by zero raises `ZeroDivisionError` before anything is printed for the expression.  Missing: numbers that are not followed by white space, see `C146_violated_attached`, and negative numbers, see `C146_violated_negative`. -/
theorem C146_values_partial :
    (∀ (es : List (Expr × List Char)) (vs : List ℤ), (∀ p ∈ es, Notation p.1 p.2) → es.map (fun p => p.1.value) = vs.map some →
      ∃ m, calculate (es.flatMap fun p => p.2 ++ ['=']) = (m, none) ∧ m.something = ([], (vs.map fun v => Line.val (.int v)).reverse) ∧ m.current = .init) ∧
    ∀ e s t, Notation e s → e.value = none → ∃ m, calculate (s ++ t) = (m, some (.py .zeroDiv)) ∧ m.something.2 = [] := by
  constructor
  · intro es vs hn hv
    obtain ⟨o, h⟩ := run_lines es hn vs hv none []
    refine ⟨state .init o ([], vs.reverse.map (fun v => .val (.int v)) ++ []), ?_, ?_, ?_⟩
    · unfold calculate; rw [calculator_eq]; exact h
    · simp [state, List.map_reverse]
    · rfl
  · intro e s t hn hv
    obtain ⟨m, h, ho⟩ := (run_expr hn none [] []).2 hv
    refine ⟨m, ?_, ho⟩
    unfold calculate
    rw [calculator_eq, processList_append, h]

/-- The expression of the prompt, fsm.py:256, without two of its factors: 167 3 * 1 - = prints 500. -/
example : ∃ m, calculate "167 3 * 1 - =".toList = (m, none) ∧ m.something = ([], [.val (.int 500)]) := by
  have n : ∀ ds : List Char, ds ≠ [] → (∀ c ∈ ds, c.isDigit) → Notation (.num ds) (ds ++ [' ']) := fun ds h1 h2 => .num ds ' ' h1 h2 (by decide)
  have a := Notation.bin '*' _ _ _ _ (by decide) (n ['1', '6', '7'] (by decide) (by decide)) (n ['3'] (by decide) (by decide))
  have b := Notation.after _ _ ' ' (by unfold Inert; decide) (Notation.bin '-' _ _ _ _ (by decide) (Notation.after _ _ ' ' (by unfold Inert; decide) a) (n ['1'] (by decide) (by decide)))
  obtain ⟨m, h1, h2, _⟩ := C146_values_partial.1 [(_, _)] [500] (by intro p hp; rw [List.mem_singleton.1 hp]; exact b) (by decide +kernel)
  exact ⟨m, h1, h2⟩

/-- An operator or an equals sign that follows a number directly is a mistake to the calculator, which then has a string on its stack: what is printed is a complaint, and "23" instead of 5. -/
theorem C146_violated_attached :
    (∃ m, calculate "2 3+ =".toList = (m, none) ∧ m.something = ([.int 2], [.val (.str ['3']), .complaint '+'])) ∧
    ∃ m, calculate "2+3++ =".toList = (m, none) ∧ m.something = ([], [.val (.str ['2', '3']), .complaint '+', .complaint '+']) :=
  ⟨⟨(calculate "2 3+ =".toList).1, Prod.ext rfl (by decide +kernel), by decide +kernel⟩,
    ⟨(calculate "2+3++ =".toList).1, Prod.ext rfl (by decide +kernel), by decide +kernel⟩⟩

/-- A negative number raises `IndexError`. -/
theorem C146_violated_negative : (calculate "-3 2 + =".toList).2 = some (.py .index) := by decide +kernel

/-! ## C147 -/

section
variable {S Q A : Type} [DecidableEq S] [DecidableEq Q]

/-- The transition that applies in a list of transitions, each a state, an input, the next state and an action: the last one for the state and the input, or else the last one for the state and `None`. -/
def chosen (ts : List (Option Q × Option S × Option Q × A)) (q : Option Q) (i : Option S) : Option (Option Q × A) :=
  let defs := fun i' : Option S => (ts.filter fun t => t.1 = q ∧ t.2.1 = i').getLast?
  ((defs i).or (defs none)).map fun t => t.2.2

/-- The machine with the transitions added. -/
def Sm.ofList (ts : List (Option Q × Option S × Option Q × A)) : Sm S Q A := ts.foldl (fun m t => m.add t.1 t.2.1 t.2.2.1 t.2.2.2) Sm.new

theorem ofList_spec (ts : List (Option Q × Option S × Option Q × A)) : (Sm.ofList ts).state = none ∧ (Sm.ofList ts).log = [] ∧
    ∀ q i, (Sm.ofList ts).states (q, i) = ((ts.filter fun t => t.1 = q ∧ t.2.1 = i).getLast?).map fun t => t.2.2 := by
  induction ts using List.reverseRecOn with
  | nil => exact ⟨rfl, rfl, fun _ _ => rfl⟩
  | append_singleton ts t ih =>
    obtain ⟨h1, h2, h3⟩ := ih
    have hc : Sm.ofList (ts ++ [t]) = (Sm.ofList ts).add t.1 t.2.1 t.2.2.1 t.2.2.2 := by
      unfold Sm.ofList; rw [List.foldl_append]; rfl
    rw [hc]
    refine ⟨h1, h2, fun q i => ?_⟩
    simp only [Sm.add, Function.update_apply, Prod.mk.injEq, h3, List.filter_append, List.getLast?_append]
    by_cases h : t.1 = q ∧ t.2.1 = i
    · rw [if_pos ⟨h.1.symm, h.2.symm⟩]; simp [h]
    · rw [if_neg (fun h' => h ⟨h'.1.symm, h'.2.symm⟩)]
      have : List.filter (fun t => decide (t.1 = q ∧ t.2.1 = i)) [t] = [] := by simp [h]
      rw [this]; simp

/-- The run of the transitions over inputs: the calls of actions, and the state in the end, if there is always a transition. -/
def runOf (ts : List (Option Q × Option S × Option Q × A)) : Option Q → List (Option S) → Option (List (A × Option Q × Option S) × Option Q)
  | q, [] => some ([], q)
  | q, i :: r => do
    let (n, a) ← chosen ts q i
    let (l, q') ← runOf ts n r
    return ((a, q, i) :: l, q')

/-- Inputs one after the other, up to the first exception. -/
def Sm.inputs (raises : A → Option Q → Option S → Option Err) (m : Sm S Q A) : List (Option S) → Res (Sm S Q A)
  | [] => ok m
  | i :: r =>
    match m.execute raises i with
    | (m, none) => m.inputs raises r
    | (m, some e) => (m, some e)

theorem inputs_run (ts : List (Option Q × Option S × Option Q × A)) (raises : A → Option Q → Option S → Option Err) (hr : ∀ a q i, raises a q i = none)
    (is : List (Option S)) (q : Option Q) (lg : List (A × Option Q × Option S)) (l : List (A × Option Q × Option S)) (q' : Option Q) (h : runOf ts q is = some (l, q')) :
    ({ Sm.ofList ts with state := q, log := lg } : Sm S Q A).inputs raises is = ok { Sm.ofList ts with state := q', log := l.reverse ++ lg } := by
  induction is generalizing q lg l with
  | nil =>
    simp only [runOf, Option.some.injEq, Prod.mk.injEq] at h
    obtain ⟨rfl, rfl⟩ := h
    rfl
  | cons i is ih =>
    simp only [runOf, Option.bind_eq_bind, Option.bind_eq_some_iff, Option.pure_def, Option.some.injEq, Prod.mk.injEq, Prod.exists] at h
    obtain ⟨n, a, hc, l', q'', hrun, rfl, rfl⟩ := h
    have hst := (ofList_spec ts).2.2
    have hx : ({ Sm.ofList ts with state := q, log := lg } : Sm S Q A).execute raises i = ok { Sm.ofList ts with state := n, log := (a, q, i) :: lg } := by
      unfold Sm.execute
      simp only [hst, hr]
      unfold chosen at hc
      simp only [] at hc
      cases h1 : (ts.filter fun t => decide (t.1 = q ∧ t.2.1 = i)).getLast? with
      | some t =>
        rw [h1] at hc
        simp only [Option.some_or, Option.map_some, Option.some.injEq] at hc ⊢
        simp [hc]
      | none =>
        rw [h1] at hc
        simp only [Option.none_or, Option.map_none] at hc ⊢
        rw [hc]
    rw [Sm.inputs, hx]
    simp only [ok]
    rw [ih n _ _ hrun]
    simp

/-- **C147 (part).** The machine of fsm_sm.py follows the transitions: from the state it is started in, each input is handled by the last transition added for the state and the input, or else for the state and `None`, whose action is called with the state and the input before the state changes.  Missing: an input without a transition is to raise an error of the machine, see `C147_violated_missing`. -/
theorem C147_run_partial (ts : List (Option Q × Option S × Option Q × A)) (raises : A → Option Q → Option S → Option Err) (hr : ∀ a q i, raises a q i = none)
    (q : Option Q) (is : List (Option S)) (l : List (A × Option Q × Option S)) (q' : Option Q) (h : runOf ts q is = some (l, q')) :
    ∃ m, ((Sm.ofList ts).start q).inputs raises is = ok m ∧ m.state = q' ∧ m.log.reverse = l := by
  have := inputs_run ts raises hr is q [] l q' h
  refine ⟨{ Sm.ofList ts with state := q', log := l.reverse ++ [] }, ?_, rfl, ?_⟩
  · rw [← this]
    unfold Sm.start
    rw [← (ofList_spec ts).2.1]
  · simp

/-- Two states, a transition for one input and one for all others. -/
example : runOf (Q := ℕ) (S := Char) (A := Char) [(some 0, some 'x', some 1, 'a'), (some 1, none, some 0, 'b')] (some 0) [some 'x', some 'z'] =
    some ([('a', some 0, some 'x'), ('b', some 1, some 'z')], some 0) := by decide +kernel

end

/-- An input without a transition raises `UnboundLocalError`, a `NameError`, not the error the module defines for it. -/
theorem C147_violated_missing (raises : Char → Option ℕ → Option Char → Option Err) :
    (((Sm.ofList [(some 0, some 'x', some 1, 'a')]).start (some 0)).execute raises (some 'y')).2 = some .name := by
  simp [Sm.ofList, Sm.execute, Sm.start, Sm.add, Sm.new, Function.update_apply]

end Verif.Fsm
