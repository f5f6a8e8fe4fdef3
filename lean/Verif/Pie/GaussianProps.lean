import Verif.Pie.GaussianLemmas

/-!
# C19, C20, C23 (second part): isolation of instances and of the original data; the set-up hook
-/

set_option linter.unusedSectionVars false
set_option linter.unusedSimpArgs false

namespace Verif.Pie
variable {K : Type} [Field K] [LinearOrder K]

/-- The contents of the data a user sees at predictor `p` of instance `k`: locations, values, sigmas and `ndata`. An
instance whose predictor has not been used yet will see the declared ones. -/
def Sys.data (s : Sys K) (k p : ℕ) : Option (Obj K × Obj K × Obj K × ℕ) :=
  match s.pred k p with
  | some h => some (s.heap h.locns, s.heap h.vals, s.heap h.sigmas, h.ndata)
  | none => (s.decl p).map fun d => (s.heap d.locns, s.heap d.vals, s.heap d.sigmas, d.ndata)

/-- The data as declared. -/
def Data.seen (d : Data K) : Obj K × Obj K × Obj K × ℕ :=
  (⟨true, d.locns⟩, ⟨true, d.vals⟩, ⟨true, d.sigmas⟩, d.vals.length)

/-- Existing sequence objects that the action passes to `sim`. -/
def SOp.refs : SOp K → List ℕ
  | .pred _ _ op => op.refs
  | .param _ _ => []

/-- The action is a `sim1`. -/
def SOp.isSim1 : SOp K → Prop
  | .pred _ _ (.sim1 _ _ _ _) => True
  | _ => False

/-- Data sets a class can be declared with: `set_data` raised no `DataError`. -/
def Declared (ds : List (Data K)) : Prop := ∀ d ∈ ds, d.declare = .ok (d, d.vals.length)

/-! ### Helpers -/

theorem Declared.lengths {ds : List (Data K)} (h : Declared ds) {d : Data K} (hd : d ∈ ds) :
    d.locns.length = d.vals.length ∧ d.vals.length = d.sigmas.length := by
  have := h d hd
  unfold Data.declare at this
  split_ifs at this with hc
  push Not at hc
  exact hc

theorem init_decl {ds : List (Data K)} {p : ℕ} {d : Decl} (h : (Sys.init ds).decl p = some d) :
    p < ds.length ∧ d.locns = 3 * p ∧ d.vals = 3 * p + 1 ∧ d.sigmas = 3 * p + 2 ∧
      d.ndata = (ds.getD p ⟨[], [], []⟩).vals.length := by
  simp only [Sys.init, Option.map_eq_some_iff] at h
  obtain ⟨x, hx, rfl⟩ := h
  obtain ⟨hp, hx'⟩ := List.getElem?_eq_some_iff.mp hx
  refine ⟨hp, rfl, rfl, rfl, ?_⟩
  simp [List.getD, hx]

/-- The declared data are intact, and no instance's local data are among them. -/
structure WF (ds : List (Data K)) (s : Sys K) : Prop where
  next : 3 * ds.length ≤ s.next
  decl : s.decl = (Sys.init ds).decl
  heap : ∀ a, a < 3 * ds.length → s.heap a = (Sys.init ds).heap a
  own : ∀ k p, ∀ a ∈ s.owned k p, 3 * ds.length ≤ a ∧ a < s.next
  glob : ∀ k p h, s.pred k p = some h → h.usingGlobals = true → ∃ d, s.decl p = some d ∧ d.addrs = h.addrs

theorem WF.init (ds : List (Data K)) : WF ds (Sys.init ds) :=
  ⟨le_refl _, rfl, fun _ _ => rfl, fun k p a ha => by simp [Sys.owned, Sys.init] at ha,
    fun k p h e => by simp [Sys.init] at e⟩

theorem WF.foot {w : Prop} {ds : List (Data K)} {s s' : Sys K} (h : WF ds s) {k p : ℕ} {A : List ℕ}
    (hf : Foot w k p A s s') (hA : ∀ a ∈ A, 3 * ds.length ≤ a) : WF ds s' := by
  refine ⟨h.next.trans hf.next, hf.decl.trans h.decl, fun a ha => ?_, fun j q a ha => ?_, fun j q x e g => ?_⟩
  · rw [hf.heap a (lt_of_lt_of_le ha h.next) fun _ => ⟨fun hc => ?_, fun hc => ?_⟩, h.heap a ha]
    · have := (h.own k p a hc).1; omega
    · have := hA a hc; omega
  · by_cases e : (j, q) = (k, p)
    · simp only [Prod.mk.injEq] at e
      obtain ⟨rfl, rfl⟩ := e
      rcases hf.owned a ha with h1 | h1 | h1
      · exact ⟨(h.own _ _ a h1).1, lt_of_lt_of_le (h.own _ _ a h1).2 hf.next⟩
      · exact ⟨h.next.trans h1.1, h1.2⟩
      · exact ⟨hA a h1.1, lt_of_lt_of_le h1.2 hf.next⟩
    · have : s'.owned j q = s.owned j q := by unfold Sys.owned; rw [hf.pred j q e]
      rw [this] at ha
      exact ⟨(h.own _ _ a ha).1, lt_of_lt_of_le (h.own _ _ a ha).2 hf.next⟩
  · by_cases e' : (j, q) = (k, p)
    · simp only [Prod.mk.injEq] at e'
      obtain ⟨rfl, rfl⟩ := e'
      rw [hf.decl]
      rcases hf.glob x e g with ⟨y, e1, e2, e3⟩ | ⟨e1, d, e2, e3⟩
      · obtain ⟨d, h1, h2⟩ := h.glob _ _ y e1 e2
        exact ⟨d, h1, h2.trans e3⟩
      · exact ⟨d, e2, e3⟩
    · rw [hf.pred j q e'] at e
      rw [hf.decl]
      exact h.glob j q x e g

/-- `a` is not one of the arrays of a declared data set of a single datum. -/
def NotSingle (ds : List (Data K)) (a : ℕ) : Prop :=
  a < 3 * ds.length → (ds.getD (a / 3) ⟨[], [], []⟩).vals.length ≠ 1

theorem WF.blocked {ds : List (Data K)} (hd : Declared ds) {s : Sys K} (h : WF ds s) {k p a : ℕ} {A : List ℕ}
    (ha : a < 3 * ds.length) (hn : NotSingle ds a) (hA : ∀ a ∈ A, 3 * ds.length ≤ a) : Blocked k p A s a := by
  have hlt : a / 3 < ds.length := by omega
  have hmem : ds.getD (a / 3) ⟨[], [], []⟩ ∈ ds := by simp [List.getD, hlt]
  have hl := hd.lengths hmem
  have hne := hn ha
  refine ⟨?_, ?_, fun hc => ?_, fun hc => ?_⟩
  · rw [h.heap a ha]; rfl
  · rw [h.heap a ha]
    simp only [Sys.init]
    split_ifs
    · rw [hl.1]; exact hne
    · exact hne
    · rw [← hl.2]; exact hne
  · have := (h.own k p a hc).1; omega
  · have := hA a hc; omega

theorem WF.step {ds : List (Data K)} (hd : Declared ds) (m : Model K) {s : Sys K} (h : WF ds s) (op : SOp K)
    (hop : ∀ a ∈ op.refs, NotSingle ds a) : WF ds (s.step m op).1 := by
  cases op with
  | param k op => exact ⟨h.next, h.decl, h.heap, h.own, h.glob⟩
  | pred k p op =>
    have hA : ∀ a ∈ op.refs.filter (fun a => 3 * ds.length ≤ a), 3 * ds.length ≤ a := by
      intro a ha; simpa using (List.mem_filter.mp ha).2
    refine h.foot (pstep_foot m s k p (op.refs.filter fun a => 3 * ds.length ≤ a) op fun a ha _ => ?_) hA
    by_cases hlt : a < 3 * ds.length
    · exact Or.inr (h.blocked hd hlt (hop a ha) hA)
    · exact Or.inl (List.mem_filter.mpr ⟨ha, by simpa using hlt⟩)

theorem WF.run {ds : List (Data K)} (hd : Declared ds) (m : Model K) (ops : List (SOp K)) : ∀ {s : Sys K} (_ : WF ds s)
    (_ : ∀ op ∈ ops, ∀ a ∈ op.refs, NotSingle ds a), WF ds (s.run m ops) := by
  induction ops with
  | nil => intro s h _; exact h
  | cons op ops ih =>
    intro s h hops
    exact ih (h.step hd m op (hops op (by simp))) fun o ho => hops o (by simp [ho])

/-- Handlers still using the declared data, or not there yet, see the declared data. -/
theorem WF.data_glob {ds : List (Data K)} {s : Sys K} (h : WF ds s) {k p : ℕ}
    (hn : s.pred k p = none) : s.data k p = ds[p]?.map Data.seen := by
  unfold Sys.data
  rw [hn, h.decl]
  dsimp only
  cases hp : ds[p]? with
  | none => simp [Sys.init, hp]
  | some d =>
    obtain ⟨hlt, hx⟩ := List.getElem?_eq_some_iff.mp hp
    simp only [Sys.init, hp, Option.map_some, Option.some.injEq]
    rw [h.heap _ (by omega), h.heap _ (by omega), h.heap _ (by omega)]
    have e1 : 3 * p / 3 = p := by omega
    have e2 : (3 * p + 1) / 3 = p := by omega
    have e3 : (3 * p + 2) / 3 = p := by omega
    have f2 : (3 * p + 1) % 3 = 1 := by omega
    have f3 : (3 * p + 2) % 3 = 2 := by omega
    simp [Sys.init, e1, e2, e3, f2, f3, List.getD, hp, Data.seen]

/-- Different predictors have no array in common, unless it is a declared one. -/
def Apart (s : Sys K) : Prop := ∀ k p j q, (k, p) ≠ (j, q) → ∀ a ∈ s.owned k p, a ∉ s.owned j q

theorem Apart.foot {w : Prop} {s s' : Sys K} (h : Apart s) {k p : ℕ} (hlt : ∀ j q, ∀ a ∈ s.owned j q, a < s.next)
    (hf : Foot w k p [] s s') : Apart s' := by
  have key : ∀ j q, (j, q) ≠ (k, p) → ∀ a ∈ s'.owned k p, a ∉ s'.owned j q := by
    intro j q e a ha hc
    have e2 : s'.owned j q = s.owned j q := by unfold Sys.owned; rw [hf.pred j q e]
    rw [e2] at hc
    rcases hf.owned a ha with h1 | h1 | h1
    · exact h _ _ _ _ (Ne.symm e) a h1 hc
    · have := hlt j q a hc; omega
    · simp at h1
  intro i r j q e a ha hc
  by_cases e1 : (i, r) = (k, p)
  · have e1' := e1
    simp only [Prod.mk.injEq] at e1
    obtain ⟨rfl, rfl⟩ := e1
    exact key j q (Ne.symm e) a ha hc
  · by_cases e2 : (j, q) = (k, p)
    · simp only [Prod.mk.injEq] at e2
      obtain ⟨rfl, rfl⟩ := e2
      exact key i r e a hc ha
    · have e3 : s'.owned i r = s.owned i r := by unfold Sys.owned; rw [hf.pred i r e1]
      have e4 : s'.owned j q = s.owned j q := by unfold Sys.owned; rw [hf.pred j q e2]
      rw [e3] at ha; rw [e4] at hc
      exact h _ _ _ _ e a ha hc

theorem Apart.run {ds : List (Data K)} (hd : Declared ds) (m : Model K) (ops : List (SOp K)) : ∀ {s : Sys K} (_ : WF ds s)
    (_ : Apart s) (_ : ∀ op ∈ ops, op.refs = []), Apart (s.run m ops) := by
  induction ops with
  | nil => intro s _ h _; exact h
  | cons op ops ih =>
    intro s hw h hops
    have h0 := hops op (by simp)
    refine ih (hw.step hd m op (by rw [h0]; simp)) ?_ fun o ho => hops o (by simp [ho])
    cases op with
    | param k op => exact h
    | pred k p op =>
      refine h.foot (fun j q a ha => (hw.own j q a ha).2) (pstep_foot m s k p [] op fun a ha => ?_)
      rw [show op.refs = [] from h0] at ha; simp at ha

/-- Where the data that instance `k` sees at `p` are. -/
theorem WF.data_eq {ds : List (Data K)} {s s' : Sys K} (h : WF ds s) {j q : ℕ} (hp : s'.pred j q = s.pred j q)
    (hdecl : s'.decl = s.decl) (hdh : ∀ a, a < 3 * ds.length → s'.heap a = s.heap a)
    (hh : ∀ a ∈ s.owned j q, s'.heap a = s.heap a) : s'.data j q = s.data j q := by
  have hda : ∀ d, s.decl q = some d → ∀ a ∈ d.addrs, a < 3 * ds.length := by
    intro d hd a ha
    rw [h.decl] at hd
    obtain ⟨h1, h2, h3, h4, _⟩ := init_decl hd
    simp only [Decl.addrs, List.mem_cons, List.not_mem_nil, or_false] at ha
    omega
  unfold Sys.data
  rw [hp, hdecl]
  cases e : s.pred j q with
  | none =>
    dsimp only
    cases e2 : s.decl q with
    | none => rfl
    | some d =>
      have := hda d e2
      simp only [Option.map_some, Option.some.injEq]
      rw [hdh _ (this _ (by simp [Decl.addrs])), hdh _ (this _ (by simp [Decl.addrs])),
        hdh _ (this _ (by simp [Decl.addrs]))]
  | some x =>
    have key : ∀ a ∈ x.addrs, s'.heap a = s.heap a := by
      intro a ha
      by_cases g : x.usingGlobals = true
      · obtain ⟨d, e1, e2⟩ := h.glob j q x e g
        exact hdh a (hda d e1 a (e2 ▸ ha))
      · refine hh a ?_
        rw [owned_of e, if_neg g]; exact ha
    simp only [Option.some.injEq]
    rw [key _ (by simp [PredH.addrs]), key _ (by simp [PredH.addrs]), key _ (by simp [PredH.addrs])]

/-! ### C20 -/

/-- **C20 (all but one case).** Declare any data sets. After any history of parameter and predictor operations on any
instances, raising or not, whatever new or old sequences are passed to `sim`, provided only that the arrays of a declared
data set of a *single* datum are not among them: every declared array is unchanged, and an instance whose predictor has
not been used yet sees exactly the data declared. Missing from the full property: the excluded case, where it is false
(`C20_violated`). -/
theorem C20_original_data_partial (ds : List (Data K)) (hd : Declared ds) (m : Model K) (ops : List (SOp K))
    (hops : ∀ op ∈ ops, ∀ a ∈ op.refs, NotSingle ds a) (p : ℕ) (d : Data K) (hp : ds[p]? = some d) :
    let s := (Sys.init ds).run m ops
    s.heap (3 * p) = ⟨true, d.locns⟩ ∧ s.heap (3 * p + 1) = ⟨true, d.vals⟩ ∧ s.heap (3 * p + 2) = ⟨true, d.sigmas⟩ ∧
    ∀ k, s.pred k p = none → s.data k p = some d.seen ∧ ((s.step m (.pred k p .get)).1.data k p = some d.seen) := by
  intro s
  have hw : WF ds s := (WF.init ds).run hd m ops hops
  obtain ⟨hlt, hx⟩ := List.getElem?_eq_some_iff.mp hp
  have e1 : 3 * p / 3 = p := by omega
  have e2 : (3 * p + 1) / 3 = p := by omega
  have e3 : (3 * p + 2) / 3 = p := by omega
  have f2 : (3 * p + 1) % 3 = 1 := by omega
  have f3 : (3 * p + 2) % 3 = 2 := by omega
  refine ⟨?_, ?_, ?_, fun k hn => ?_⟩
  · rw [hw.heap _ (by omega)]; simp [Sys.init, e1, List.getD, hp]
  · rw [hw.heap _ (by omega)]; simp [Sys.init, e2, f2, List.getD, hp]
  · rw [hw.heap _ (by omega)]; simp [Sys.init, e3, f3, List.getD, hp]
  · have h1 := hw.data_glob hn
    rw [hp] at h1
    refine ⟨h1, ?_⟩
    rw [← Option.map_some, ← h1]
    show ((s.access k p).1).data k p = _
    unfold Sys.access
    rw [hn]
    cases e : s.decl p with
    | none => rfl
    | some x => simp [Sys.data, hn, e, ok]

/-- The signal model used in the witnesses: constant `0`, reading parameter `0`. -/
def exModel : Model ℚ :=
  { cfg := exCfg, reads := [0], signals := fun _ _ => none, signal := fun θ x => θ 0 * x, logPrior := fun _ => 0 }

/-- **C20 violated.** A predictor declared with a single datum at location `3`. Instance 0 passes the (one-element)
array of locations it sees to `sim`, which stores it without copying; `sim1` then overwrites the declared location. -/
theorem C20_violated :
    let ds : List (Data ℚ) := [⟨[3], [5], [1]⟩]
    Declared ds ∧
    ((Sys.init ds).run exModel [.pred 0 0 (.sim (some (.ref 0)) none fun _ => 0), .pred 0 0 (.sim1 0 (some 7) none 0)]).heap 0
      ≠ ⟨true, [3]⟩ := by
  refine ⟨?_, ?_⟩
  · intro d hd; simp only [List.mem_singleton] at hd; subst hd; rfl
  · intro h
    have h2 := congrArg Obj.data h
    revert h2
    decide +kernel

/-- Non-vacuity: simulations change what the instance sees, while the declared data stay as they were. -/
example :
    let ds : List (Data ℚ) := [⟨[3, 4], [5, 6], [1, 1]⟩]
    let ops : List (SOp ℚ) := [.pred 0 0 (.sim none none fun _ => 1), .pred 0 0 (.sim1 1 (some 7) none 0),
      .pred 0 0 (.sim (some (.ref 0)) none fun _ => 1)]
    let s := (Sys.init ds).run exModel ops
    (∀ op ∈ ops, ∀ a ∈ op.refs, NotSingle ds a) ∧ ((s.data 0 0).map fun x => (x.1.data, x.2.1.data)) = some ([3, 7], [4, 7]) ∧
    (s.data 1 0).map (fun x => (x.1.data, x.2.1.data)) = some ([3, 4], [5, 6]) ∧ s.pred 1 0 = none := by
  refine ⟨?_, ?_, ?_, rfl⟩
  · intro op hop a ha
    simp only [List.mem_cons, List.not_mem_nil, or_false] at hop
    rcases hop with rfl | rfl | rfl
    · simp [SOp.refs, POp.refs, Arg.refs] at ha
    · simp [SOp.refs, POp.refs] at ha
    · simp [SOp.refs, POp.refs, Arg.refs] at ha; subst ha; intro _; decide
  · decide +kernel
  · decide +kernel

/-! ### C19 -/

/-- What a user can observe of instance `j`: parameters with statuses and lists, notifications and evaluations made, and
data and predictions of all its predictors. -/
def Sys.observe (s : Sys K) (j : ℕ) : Inf K × List (Ev K) × (ℕ → Option (Obj K × Obj K × Obj K × ℕ)) × (ℕ → Option (Option (List K))) :=
  (s.inf j, s.log j, s.data j, fun p => (s.pred j p).map (·.prdxns))

/-- **C19, new sequences.** If every sequence handed to `sim` is newly made for that call, then any operation on one
instance, after any history of operations on all instances, leaves everything observable of every other instance as it
was. Missing from the full property: calls that hand over an existing list or array, see `C19_violated`. -/
theorem C19_isolation_partial (ds : List (Data K)) (hd : Declared ds) (m : Model K) (ops : List (SOp K)) (op : SOp K)
    (hops : ∀ o ∈ ops, o.refs = []) (hop : op.refs = []) (j : ℕ) (hj : j ≠ op.inst) :
    let s := (Sys.init ds).run m ops
    (s.step m op).1.observe j = s.observe j := by
  intro s
  have hw : WF ds s := (WF.init ds).run hd m ops fun o ho => by rw [hops o ho]; simp
  have hap : Apart s := Apart.run hd m ops (WF.init ds) (by
    intro k p j q _ a ha; simp [Sys.owned, Sys.init] at ha) hops
  cases op with
  | param k op =>
    have hne : j ≠ k := hj
    unfold Sys.observe
    simp only [Sys.step, Sys.onInf, Sys.note, Function.update_of_ne hne]
    rfl
  | pred k p op =>
    have hne : j ≠ k := hj
    have hop' : op.refs = [] := hop
    have hf := pstep_foot m s k p [] op (fun a ha => by rw [hop'] at ha; simp at ha)
    have hw' := hw.foot hf (by simp)
    have hpair : ∀ q, (j, q) ≠ (k, p) := fun q h => hne (Prod.mk.inj h).1
    unfold Sys.observe
    show (((s.pstep m k p op).1.inf j, _) = (_, _))
    rw [hf.inf j hne, show (s.step m (SOp.pred k p op)).1.log j = s.log j from hf.log j hne]
    refine congrArg _ (congrArg _ (Prod.ext ?_ ?_))
    · funext q
      show ((s.pstep m k p op).1).data j q = s.data j q
      refine hw.data_eq (hf.pred j q (hpair q)) hf.decl (fun a ha => ?_) (fun a ha => ?_)
      · rw [hw'.heap a ha, hw.heap a ha]
      · refine hf.heap a (hw.own j q a ha).2 fun _ => ⟨fun hc => ?_, by simp⟩
        exact hap _ _ _ _ (hpair q) a ha hc
    · funext q
      show ((s.pstep m k p op).1.pred j q).map _ = _
      rw [hf.pred j q (hpair q)]

/-- **C19, no item assignment.** Without the restriction on arguments, the same for any operation but `sim1` (only the
arrays of single-datum declarations must not be handed to `sim`).
Missing: `sim1` after `sim` of an existing list (`C19_violated`). -/
theorem C19_no_sim1_partial (ds : List (Data K)) (hd : Declared ds) (m : Model K) (ops : List (SOp K)) (op : SOp K)
    (hops : ∀ o ∈ ops, ∀ a ∈ o.refs, NotSingle ds a) (hop : ∀ a ∈ op.refs, NotSingle ds a) (h1 : ¬op.isSim1) (j : ℕ)
    (hj : j ≠ op.inst) :
    let s := (Sys.init ds).run m ops
    (s.step m op).1.observe j = s.observe j := by
  intro s
  have hw : WF ds s := (WF.init ds).run hd m ops hops
  have hw' := hw.step hd m op hop
  cases op with
  | param k op =>
    have hne : j ≠ k := hj
    unfold Sys.observe
    simp only [Sys.step, Sys.onInf, Sys.note, Function.update_of_ne hne]
    rfl
  | pred k p op =>
    have hne : j ≠ k := hj
    have hf := pstep_foot m s k p op.refs op (fun a ha _ => Or.inl ha)
    have hpair : ∀ q, (j, q) ≠ (k, p) := fun q h => hne (Prod.mk.inj h).1
    unfold Sys.observe
    show (((s.pstep m k p op).1.inf j, _) = (_, _))
    rw [hf.inf j hne, show (s.step m (SOp.pred k p op)).1.log j = s.log j from hf.log j hne]
    refine congrArg _ (congrArg _ (Prod.ext ?_ ?_))
    · funext q
      show ((s.pstep m k p op).1).data j q = s.data j q
      refine hw.data_eq (hf.pred j q (hpair q)) hf.decl (fun a ha => ?_) (fun a ha => ?_)
      · rw [show (s.pstep m k p op).1.heap a = (Sys.init ds).heap a from hw'.heap a ha, hw.heap a ha]
      · refine hf.heap a (hw.own j q a ha).2 fun hc => ?_
        cases op <;> first | exact absurd trivial h1 | exact hc.elim
    · funext q
      show ((s.pstep m k p op).1.pred j q).map _ = _
      rw [hf.pred j q (hpair q)]

/-- **C19 violated.** Two instances are given the same list of locations with `sim`; `sim1` on instance 0 then changes
a location of instance 1. (The list is made by the first call and has address 3.) -/
theorem C19_violated :
    let ds : List (Data ℚ) := [⟨[3, 4], [5, 6], [1, 1]⟩]
    let ops : List (SOp ℚ) := [.pred 0 0 (.sim (some (.fresh ⟨false, [10, 20]⟩)) none fun _ => 0),
      .pred 1 0 (.sim (some (.ref 3)) none fun _ => 0)]
    let s := (Sys.init ds).run exModel ops
    Declared ds ∧ (s.data 1 0).map (fun x => x.1.data) = some [10, 20] ∧
    ((s.step exModel (.pred 0 0 (.sim1 0 (some 99) none 0))).1.data 1 0).map (fun x => x.1.data) = some [99, 20] := by
  refine ⟨?_, ?_, ?_⟩
  · intro d hd; simp only [List.mem_singleton] at hd; subst hd; rfl
  · decide +kernel
  · decide +kernel

/-- Non-vacuity: the same calls with a list of its own for each instance. -/
example :
    let ds : List (Data ℚ) := [⟨[3, 4], [5, 6], [1, 1]⟩]
    let ops : List (SOp ℚ) := [.pred 0 0 (.sim (some (.fresh ⟨false, [10, 20]⟩)) none fun _ => 0),
      .pred 1 0 (.sim (some (.fresh ⟨false, [10, 20]⟩)) none fun _ => 0)]
    let s := (Sys.init ds).run exModel ops
    ((s.step exModel (.pred 0 0 (.sim1 0 (some 99) none 0))).1.data 0 0).map (fun x => x.1.data) = some [99, 20] ∧
    ((s.step exModel (.pred 0 0 (.sim1 0 (some 99) none 0))).1.data 1 0).map (fun x => x.1.data) = some [10, 20] := by
  decide +kernel

/-! ### C23, evaluations -/

/-- Every evaluation in the log is preceded by `on_use` with the same parameter values; between the two there are at most
notifications of parameters receiving their defaults (which is why the values are the same). -/
def LogOk (l : List (Ev K)) : Prop :=
  ∀ a θ locs b, l = a ++ .eval θ locs :: b → ∃ (cs : List ℕ) (b' : List (Ev K)), b = cs.map .change ++ .use θ :: b'

theorem LogOk.nil : LogOk ([] : List (Ev K)) := by
  intro a θ locs b h; simp at h

theorem LogOk.cons {e : Ev K} {l : List (Ev K)} (h : LogOk l)
    (he : ∀ θ locs, e = .eval θ locs → ∃ (cs : List ℕ) (b' : List (Ev K)), l = cs.map .change ++ .use θ :: b') :
    LogOk (e :: l) := by
  intro a θ locs b hl
  cases a with
  | nil =>
    simp only [List.nil_append, List.cons.injEq] at hl
    obtain ⟨rfl, rfl⟩ := hl
    exact he θ locs rfl
  | cons x a =>
    simp only [List.cons_append, List.cons.injEq] at hl
    exact h a θ locs b hl.2

theorem LogOk.changes {l : List (Ev K)} (h : LogOk l) (cs : List ℕ) : LogOk (cs.map .change ++ l) := by
  induction cs with
  | nil => exact h
  | cons c cs ih => exact ih.cons fun θ locs e => by simp at e

theorem accessAll_readOnly (c : Cfg K) (l : List ℕ) : ∀ {s : Inf K} (_ : Inv s),
    Inv (Inf.accessAll c l s).1 ∧ (∀ j, (Inf.accessAll c l s).1.read c j = s.read c j) ∧
    (Inf.accessAll c l s).2 = none := by
  induction l with
  | nil => intro s h; exact ⟨h, fun _ => rfl, rfl⟩
  | cons i l ih =>
    intro s h
    have h2 := (access_ok c h i).1
    have hro := access_readOnly c h i
    have hg := (access_good c h i).1
    unfold Inf.accessAll
    generalize s.access c i = r at h2 hro hg
    obtain ⟨s', e⟩ := r
    dsimp only at h2 hro hg
    subst h2
    rw [Res.andThen_ok]
    obtain ⟨i1, i2, i3⟩ := ih hg
    exact ⟨i1, fun j => (i2 j).trans (hro.read j), i3⟩

theorem accessAll_run (c : Cfg K) (l : List ℕ) : ∀ s : Inf K, Inv s →
    (Inf.accessAll c l s).1 = s.run c (l.map .get) := by
  induction l with
  | nil => intro s _; rfl
  | cons i l ih =>
    intro s h
    have h2 := (access_ok c h i).1
    have hg := (access_good c h i).1
    unfold Inf.accessAll
    have e : s.access c i = ((s.access c i).1, none) := Prod.ext rfl h2
    rw [e, Res.andThen_ok, ih _ hg]
    rfl

theorem Reachable.run {c : Cfg K} {s : Inf K} (h : Reachable c s) (ops : List (Op K)) : Reachable c (s.run c ops) := by
  obtain ⟨o, rfl⟩ := h
  exact ⟨o ++ ops, by unfold Inf.run; rw [List.foldl_append]⟩

/-- Parameters reachable, logs in order. -/
structure Logged (m : Model K) (inf : ℕ → Inf K) (log : ℕ → List (Ev K)) : Prop where
  reach : ∀ k, Reachable m.cfg (inf k)
  log : ∀ k, LogOk (log k)

theorem getPrdxns_logged (m : Model K) {s : Sys K} (h : Logged m s.inf s.log) (k p : ℕ) :
    Logged m (s.getPrdxns m k p).1.inf (s.getPrdxns m k p).1.log := by
  unfold Sys.getPrdxns Sys.on
  cases e : s.pred k p with
  | none => exact h
  | some hd =>
    dsimp only
    have hinv := (h.reach k).inv
    obtain ⟨_, r2, r3⟩ := accessAll_readOnly m.cfg m.reads hinv
    have hrun := accessAll_run m.cfg m.reads (s.inf k) hinv
    have e1 : (s.note k [.use ((s.inf k).read m.cfg)]).onInf k (Inf.accessAll m.cfg m.reads) =
        (((s.note k [.use ((s.inf k).read m.cfg)]).onInf k (Inf.accessAll m.cfg m.reads)).1, none) :=
      Prod.ext rfl r3
    have hinf : ((s.note k [.use ((s.inf k).read m.cfg)]).onInf k (Inf.accessAll m.cfg m.reads)).1.inf =
        Function.update s.inf k ((s.inf k).run m.cfg (m.reads.map .get)) := by
      rw [← hrun]; rfl
    obtain ⟨cs, hlog⟩ : ∃ cs : List ℕ, ((s.note k [.use ((s.inf k).read m.cfg)]).onInf k (Inf.accessAll m.cfg m.reads)).1.log =
        Function.update s.log k (cs.map .change ++ .use ((s.inf k).read m.cfg) :: s.log k) := by
      refine ⟨(Inf.accessAll m.cfg m.reads (s.inf k)).1.changes.take
        ((Inf.accessAll m.cfg m.reads (s.inf k)).1.changes.length - (s.inf k).changes.length), ?_⟩
      simp only [Sys.onInf, Sys.note, Function.update_self, Function.update_idem]
      rfl
    have hread : ∀ j, ((s.inf k).run m.cfg (m.reads.map .get)).read m.cfg j = (s.inf k).read m.cfg j := by
      rw [← hrun]; exact r2
    rw [e1, Res.andThen_ok]
    generalize ((s.note k [.use ((s.inf k).read m.cfg)]).onInf k (Inf.accessAll m.cfg m.reads)).1 = t at hinf hlog
    have hθ : (t.inf k).read m.cfg = (s.inf k).read m.cfg := by
      rw [hinf, Function.update_self]; funext j; exact hread j
    have key : Logged m t.inf (t.note k [.eval ((t.inf k).read m.cfg) (t.heap hd.locns).data]).log := by
      refine ⟨fun j => ?_, fun j => ?_⟩
      · rw [hinf]
        by_cases hj : j = k
        · subst hj; rw [Function.update_self]; exact (h.reach _).run _
        · rw [Function.update_of_ne hj]; exact h.reach j
      · by_cases hj : j = k
        · subst hj
          simp only [Sys.note, Function.update_self, List.singleton_append]
          rw [hlog, Function.update_self, hθ]
          refine LogOk.cons ?_ fun θ locs he => ?_
          · exact LogOk.changes ((h.log _).cons fun θ locs he => by simp at he) cs
          · injection he with he1 he2
            exact ⟨cs, s.log j, by rw [he1]⟩
        · simp only [Sys.note, Function.update_of_ne hj]
          rw [hlog, Function.update_of_ne hj]; exact h.log j
    split <;> exact key

section pres
variable {P : (ℕ → Inf K) → (ℕ → List (Ev K)) → Prop} {m : Model K}

theorem pres_andThen {r : Res (Sys K)} {f : Sys K → Res (Sys K)} (h : P r.1.inf r.1.log)
    (hf : P r.1.inf r.1.log → P (f r.1).1.inf (f r.1).1.log) : P (r.andThen f).1.inf (r.andThen f).1.log := by
  obtain ⟨s', _ | e⟩ := r
  · exact hf h
  · exact h

theorem pres_on {s : Sys K} {k p : ℕ} {f : PredH K → Res (Sys K)} (h : P s.inf s.log)
    (hf : ∀ h0, P (f h0).1.inf (f h0).1.log) : P (s.on k p f).1.inf (s.on k p f).1.log := by
  unfold Sys.on
  split
  · exact h
  · exact hf _

theorem pres_access {s : Sys K} {k p : ℕ} (h : P s.inf s.log) : P (s.access k p).1.inf (s.access k p).1.log := by
  unfold Sys.access
  split
  · exact h
  · split <;> exact h

theorem pres_changing {s : Sys K} {k p : ℕ} (h : P s.inf s.log) :
    P (s.changingData k p).1.inf (s.changingData k p).1.log := by
  unfold Sys.changingData Sys.localize
  refine pres_andThen (pres_on h fun h0 => ?_) fun h => pres_on h fun h0 => h
  split_ifs <;> exact h

theorem pres_withArg {s : Sys K} {a : Option (Arg K)} {f : Sys K → Option ℕ → Res (Sys K)} (h : P s.inf s.log)
    (hf : ∀ s' o, P s'.inf s'.log → P (f s' o).1.inf (f s' o).1.log) : P (s.withArg a f).1.inf (s.withArg a f).1.log := by
  unfold Sys.withArg
  split
  · exact hf _ _ h
  · exact hf _ _ h
  · split_ifs
    · exact hf _ _ h
    · exact h

theorem pres_writeAt {s : Sys K} {a : ℕ} {n : ℤ} {v : K} (h : P s.inf s.log) :
    P (s.writeAt a n v).1.inf (s.writeAt a n v).1.log := by
  unfold Sys.writeAt
  dsimp only
  split <;> exact h

theorem pres_writeIf {s : Sys K} {a : ℕ} {n : ℤ} {v : Option K} (h : P s.inf s.log) :
    P (s.writeIf a n v).1.inf (s.writeIf a n v).1.log := by
  unfold Sys.writeIf
  split
  · exact h
  · split_ifs
    · exact h
    · exact pres_writeAt h

variable (hg : ∀ (s : Sys K) k p, P s.inf s.log → P (s.getPrdxns m k p).1.inf (s.getPrdxns m k p).1.log)
include hg

theorem pres_simDraw {s : Sys K} {k p : ℕ} {z : ℕ → K} (h : P s.inf s.log) :
    P (s.simDraw m k p z).1.inf (s.simDraw m k p z).1.log := by
  unfold Sys.simDraw
  refine pres_andThen (hg _ _ _ h) fun h => pres_on h fun h0 => ?_
  split
  · exact h
  · split
    · exact h
    · split <;> exact h

theorem pres_sim {s : Sys K} {k p : ℕ} {l g : Option (Arg K)} {z : ℕ → K} (h : P s.inf s.log) :
    P (s.sim m k p l g z).1.inf (s.sim m k p l g z).1.log := by
  unfold Sys.sim
  refine pres_andThen (pres_access h) fun h => pres_withArg h fun s l h => pres_withArg h fun s g h =>
    pres_andThen (pres_changing h) fun h => pres_on h fun h0 => ?_
  split
  · exact h
  · split
    · exact h
    · split
      · split_ifs
        · exact h
        · exact pres_simDraw hg h
      · exact h
    · split
      · split_ifs
        · exact h
        · exact pres_simDraw hg h
      · exact h
  · split
    · exact h
    · split
      · split_ifs
        · exact h
        · exact pres_simDraw hg h
      · exact h
    · exact pres_simDraw hg h

theorem pres_sim1 {s : Sys K} {k p : ℕ} {n : ℤ} {l g : Option K} {z : K} (h : P s.inf s.log) :
    P (s.sim1 m k p n l g z).1.inf (s.sim1 m k p n l g z).1.log := by
  unfold Sys.sim1
  refine pres_andThen (pres_access h) fun h => pres_andThen (pres_changing h) fun h => pres_on h fun h0 =>
    pres_andThen (pres_writeIf h) fun h => pres_andThen (pres_writeIf h) fun h =>
    pres_andThen (hg _ _ _ h) fun h => pres_on h fun h0 => ?_
  split
  · exact h
  · split
    · exact h
    · split
      · exact h
      · exact pres_writeAt h

theorem pres_addTail {s : Sys K} {k p : ℕ} (h : P s.inf s.log) :
    P (s.addTail m k p).1.inf (s.addTail m k p).1.log := by
  unfold Sys.addTail
  refine pres_on h fun h0 => ?_
  dsimp only
  split_ifs
  · exact hg _ _ _ h
  · exact h

theorem pres_addSim {s : Sys K} {k p : ℕ} {x y : Option K} {l g : Option (Arg K)} (h : P s.inf s.log) :
    P (s.addSim m k p x y l g).1.inf (s.addSim m k p x y l g).1.log := by
  unfold Sys.addSim
  refine pres_andThen (pres_access h) fun h => pres_withArg h fun s l h => pres_withArg h fun s g h =>
    pres_andThen (pres_changing h) fun h => ?_
  generalize (s.changingData k p).1 = t at h
  have ext : ∀ a b, P ((t.extend k p a b).andThen fun s => s.addTail m k p).1.inf
      ((t.extend k p a b).andThen fun s => s.addTail m k p).1.log := fun a b =>
    pres_andThen (by unfold Sys.extend; exact pres_on h fun h0 => h) fun h => pres_addTail hg h
  have many : ∀ lo go, P (Sys.addSim.addMany m k p t lo go).1.inf (Sys.addSim.addMany m k p t lo go).1.log := by
    intro lo go
    unfold Sys.addSim.addMany
    split
    · exact h
    · exact pres_addTail hg h
    · split
      · exact h
      · exact pres_addTail hg h
      · split
        · split_ifs
          · exact h
          · exact ext _ _
        · exact h
  split
  · split_ifs
    · exact ext _ _
    · exact many _ _
  · exact many _ _

theorem pres_pstep {s : Sys K} {k p : ℕ} (op : POp K) (h : P s.inf s.log) :
    P (s.pstep m k p op).1.inf (s.pstep m k p op).1.log := by
  cases op with
  | get => exact pres_access h
  | localize =>
    refine pres_andThen (pres_access h) fun h => ?_
    unfold Sys.localize
    refine pres_on h fun h0 => ?_
    split_ifs <;> exact h
  | sim l g z => exact pres_sim hg h
  | sim1 n l g z => exact pres_sim1 hg h
  | addSim x y l g => exact pres_addSim hg h
  | logLike =>
    show P (s.logLike m k p).1.inf (s.logLike m k p).1.log
    unfold Sys.logLike
    have h1 := pres_andThen (P := P) (r := s.access k p) (f := fun s => s.getPrdxns m k p) (pres_access h) (hg _ _ _)
    generalize (s.access k p).andThen (fun s => s.getPrdxns m k p) = r at h1
    obtain ⟨s', _ | e⟩ := r
    · dsimp only; split <;> exact h1
    · exact h1
  | chisqr =>
    show P (s.chisqr m k p).1.inf (s.chisqr m k p).1.log
    unfold Sys.chisqr
    have h1 := pres_andThen (P := P) (r := s.access k p) (f := fun s => s.getPrdxns m k p) (pres_access h) (hg _ _ _)
    generalize (s.access k p).andThen (fun s => s.getPrdxns m k p) = r at h1
    obtain ⟨s', _ | e⟩ := r
    · dsimp only; split <;> exact h1
    · exact h1
end pres

theorem step_logged (m : Model K) {s : Sys K} (h : Logged m s.inf s.log) (op : SOp K) :
    Logged m (s.step m op).1.inf (s.step m op).1.log := by
  cases op with
  | param k op =>
    refine ⟨fun j => ?_, fun j => ?_⟩
    · by_cases hj : j = k
      · subst hj
        simp only [Sys.step, Sys.onInf, Sys.note, Function.update_self]
        exact (h.reach j).run [op]
      · simp only [Sys.step, Sys.onInf, Sys.note, Function.update_of_ne hj]
        exact h.reach j
    · by_cases hj : j = k
      · subst hj
        simp only [Sys.step, Sys.onInf, Sys.note, Function.update_self]
        exact (h.log j).changes _
      · simp only [Sys.step, Sys.onInf, Sys.note, Function.update_of_ne hj]
        exact h.log j
  | pred k p op => exact pres_pstep (P := Logged m) (fun s k p h => getPrdxns_logged m h k p) op h

theorem run_logged (m : Model K) (ops : List (SOp K)) : ∀ {s : Sys K} (_ : Logged m s.inf s.log),
    Logged m (s.run m ops).inf (s.run m ops).log := by
  induction ops with
  | nil => intro s h; exact h
  | cons op ops ih => intro s h; exact ih (step_logged m h op)

theorem logged_init (m : Model K) (ds : List (Data K)) : Logged m (Sys.init ds).inf (Sys.init ds).log :=
  ⟨fun _ => ⟨[], rfl⟩, fun _ => LogOk.nil⟩

/-- **C23 (evaluations).** In every history, every evaluation of the signal model of an instance comes after a call of
that instance's `on_use` hook, with no other evaluation in between and no change of a parameter's value as the user reads
it: `on_use` and the evaluation see the same parameter values. -/
theorem C23_on_use (ds : List (Data K)) (m : Model K) (ops : List (SOp K)) (k : ℕ) (later : List (Ev K)) (θ : ℕ → K)
    (locs : List K) (earlier : List (Ev K))
    (h : ((Sys.init ds).run m ops).log k = later ++ .eval θ locs :: earlier) :
    ∃ (defaults : List ℕ) (before : List (Ev K)), earlier = defaults.map .change ++ .use θ :: before :=
  (run_logged m ops (logged_init m ds)).log k later θ locs earlier h

/-- Non-vacuity: an evaluation after a parameter change, the default of another parameter being installed on the way. -/
example :
    let s := (Sys.init [(⟨[3, 4], [5, 6], [1, 1]⟩ : Data ℚ)]).run { exModel with reads := [0, 1] }
      [.param 0 (.assign 0 (some 2)), .pred 0 0 .chisqr]
    (s.log 0).map (fun e => match e with | .change i => (i : ℚ) | .use θ => 100 + θ 0 | .eval θ l => 200 + θ 0 + l.length)
      = [204, 1, 102, 0] := by
  decide +kernel

end Verif.Pie
