import Verif.Pie.Gaussian
import Verif.Pie.AnnounceProps

/-!
# Gaussian predictors: what an operation may touch (helper lemmas)
-/

set_option linter.unusedSectionVars false
set_option linter.unusedSimpArgs false

namespace Verif.Pie
variable {K : Type} [Field K] [LinearOrder K] {w : Prop}

/-- Addresses a handler holds. -/
def PredH.addrs (h : PredH K) : List ℕ := [h.locns, h.vals, h.sigmas]
def Decl.addrs (d : Decl) : List ℕ := [d.locns, d.vals, d.sigmas]

/-- Addresses of the local data of a handler. -/
def Sys.owned (s : Sys K) (k p : ℕ) : List ℕ :=
  match s.pred k p with
  | none => []
  | some h => if h.usingGlobals then [] else h.addrs

theorem owned_of {s : Sys K} {k p : ℕ} {h : PredH K} (e : s.pred k p = some h) :
    s.owned k p = if h.usingGlobals then [] else h.addrs := by simp [Sys.owned, e]

/-- What an operation on predictor `p` of instance `k` with storable argument objects `A` may do; `w`: it may write in
place. -/
structure Foot (w : Prop) (k p : ℕ) (A : List ℕ) (s s' : Sys K) : Prop where
  next : s.next ≤ s'.next
  decl : s'.decl = s.decl
  pred : ∀ j q, (j, q) ≠ (k, p) → s'.pred j q = s.pred j q
  inf : ∀ j, j ≠ k → s'.inf j = s.inf j
  log : ∀ j, j ≠ k → s'.log j = s.log j
  heap : ∀ a, a < s.next → (w → a ∉ s.owned k p ∧ a ∉ A) → s'.heap a = s.heap a
  owned : ∀ a ∈ s'.owned k p, a ∈ s.owned k p ∨ (s.next ≤ a ∧ a < s'.next) ∨ (a ∈ A ∧ a < s.next)
  kept : s.pred k p ≠ none → s'.pred k p ≠ none
  glob : ∀ h', s'.pred k p = some h' → h'.usingGlobals = true →
    (∃ h, s.pred k p = some h ∧ h.usingGlobals = true ∧ h.addrs = h'.addrs) ∨
    (s.pred k p = none ∧ ∃ d, s.decl p = some d ∧ d.addrs = h'.addrs)

theorem Foot.refl (w : Prop) (k p : ℕ) (A : List ℕ) (s : Sys K) : Foot w k p A s s :=
  ⟨le_refl _, rfl, fun _ _ _ => rfl, fun _ _ => rfl, fun _ _ => rfl, fun _ _ _ => rfl, fun _ h => Or.inl h,
    fun h => h, fun h e g => Or.inl ⟨h, e, g, rfl⟩⟩

theorem Foot.trans {k p : ℕ} {A : List ℕ} {s s' s'' : Sys K} (h : Foot w k p A s s') (h' : Foot w k p A s' s'') :
    Foot w k p A s s'' := by
  refine ⟨h.next.trans h'.next, h'.decl.trans h.decl, fun j q e => (h'.pred j q e).trans (h.pred j q e),
    fun j e => (h'.inf j e).trans (h.inf j e), fun j e => (h'.log j e).trans (h.log j e), fun a h1 h2 => ?_,
    fun a ha => ?_, fun e => h'.kept (h.kept e), fun x e g => ?_⟩
  · rw [h'.heap a (lt_of_lt_of_le h1 h.next) ?_, h.heap a h1 h2]
    intro hw
    refine ⟨fun hc => ?_, (h2 hw).2⟩
    rcases h.owned a hc with h4 | ⟨h4, _⟩ | ⟨h4, _⟩
    · exact (h2 hw).1 h4
    · omega
    · exact (h2 hw).2 h4
  · rcases h'.owned a ha with h4 | ⟨h4, h5⟩ | ⟨h4, h5⟩
    · rcases h.owned a h4 with h4 | ⟨h4, h5⟩ | h4
      · exact Or.inl h4
      · exact Or.inr (Or.inl ⟨h4, lt_of_lt_of_le h5 h'.next⟩)
      · exact Or.inr (Or.inr h4)
    · exact Or.inr (Or.inl ⟨h.next.trans h4, h5⟩)
    · by_cases h6 : a < s.next
      · exact Or.inr (Or.inr ⟨h4, h6⟩)
      · exact Or.inr (Or.inl ⟨not_lt.mp h6, lt_of_lt_of_le h5 h'.next⟩)
  · rcases h'.glob x e g with ⟨y, e1, e2, e3⟩ | ⟨e1, d, e2, e3⟩
    · rcases h.glob y e1 e2 with ⟨z, f1, f2, f3⟩ | ⟨f1, d, f2, f3⟩
      · exact Or.inl ⟨z, f1, f2, f3.trans e3⟩
      · exact Or.inr ⟨f1, d, f2, f3.trans e3⟩
    · refine Or.inr ⟨?_, d, by rw [← h.decl]; exact e2, e3⟩
      by_contra hn
      exact h.kept hn e1

/-- An address that the operation may install in or write to. -/
def Allowed (k p : ℕ) (A : List ℕ) (s s1 : Sys K) (a : ℕ) : Prop :=
  a ∈ s.owned k p ∨ (s.next ≤ a ∧ a < s1.next) ∨ (a ∈ A ∧ a < s.next)

@[simp] theorem setP_self (s : Sys K) (k p : ℕ) (h : PredH K) : (s.setP k p h).pred k p = some h := by
  simp [Sys.setP]
theorem setP_ne (s : Sys K) (k p : ℕ) (h : PredH K) {j q : ℕ} (e : (j, q) ≠ (k, p)) :
    (s.setP k p h).pred j q = s.pred j q := by
  by_cases hj : j = k
  · subst hj
    have : q ≠ p := fun hq => e (by rw [hq])
    simp [Sys.setP, this]
  · simp [Sys.setP, hj]
@[simp] theorem setP_heap (s : Sys K) (k p : ℕ) (h : PredH K) : (s.setP k p h).heap = s.heap := rfl
@[simp] theorem setP_next (s : Sys K) (k p : ℕ) (h : PredH K) : (s.setP k p h).next = s.next := rfl
@[simp] theorem setP_inf (s : Sys K) (k p : ℕ) (h : PredH K) : (s.setP k p h).inf = s.inf := rfl
@[simp] theorem setP_log (s : Sys K) (k p : ℕ) (h : PredH K) : (s.setP k p h).log = s.log := rfl
@[simp] theorem setP_decl (s : Sys K) (k p : ℕ) (h : PredH K) : (s.setP k p h).decl = s.decl := rfl
@[simp] theorem alloc_pred (s : Sys K) (o) : (s.alloc o).1.pred = s.pred := rfl
@[simp] theorem alloc_next (s : Sys K) (o) : (s.alloc o).1.next = s.next + 1 := rfl
@[simp] theorem alloc_inf (s : Sys K) (o) : (s.alloc o).1.inf = s.inf := rfl
@[simp] theorem alloc_log (s : Sys K) (o) : (s.alloc o).1.log = s.log := rfl
@[simp] theorem alloc_decl (s : Sys K) (o) : (s.alloc o).1.decl = s.decl := rfl
@[simp] theorem alloc_snd (s : Sys K) (o) : (s.alloc o).2 = s.next := rfl
theorem alloc_heap (s : Sys K) (o) : (s.alloc o).1.heap = Function.update s.heap s.next o := rfl

theorem Foot.alloc {k p : ℕ} {A : List ℕ} {s s1 : Sys K} (h : Foot w k p A s s1) (o : Obj K) :
    Foot w k p A s (s1.alloc o).1 := by
  refine ⟨by rw [alloc_next]; exact h.next.trans (Nat.le_succ _), h.decl, h.pred, h.inf, h.log, fun a h1 h2 => ?_,
    fun a ha => ?_, h.kept, h.glob⟩
  · rw [alloc_heap, Function.update_of_ne (by have := h.next; omega)]
    exact h.heap a h1 h2
  · rcases h.owned a ha with h4 | ⟨h4, h5⟩ | h4
    · exact Or.inl h4
    · exact Or.inr (Or.inl ⟨h4, by simp; omega⟩)
    · exact Or.inr (Or.inr h4)

theorem Foot.note {k p : ℕ} {A : List ℕ} {s s1 : Sys K} (h : Foot w k p A s s1) (e : List (Ev K)) :
    Foot w k p A s (s1.note k e) := by
  refine ⟨h.next, h.decl, h.pred, h.inf, fun j hj => ?_, h.heap, h.owned, h.kept, h.glob⟩
  simp only [Sys.note, Function.update_of_ne hj]; exact h.log j hj

theorem Foot.onInf {k p : ℕ} {A : List ℕ} {s s1 : Sys K} (h : Foot w k p A s s1) (f : Inf K → Res (Inf K)) :
    Foot w k p A s (s1.onInf k f).1 := by
  refine ⟨h.next, h.decl, h.pred, fun j hj => ?_, fun j hj => ?_, h.heap, h.owned, h.kept, h.glob⟩
  · simp only [Sys.onInf, Sys.note, Function.update_of_ne hj]; exact h.inf j hj
  · simp only [Sys.onInf, Sys.note, Function.update_of_ne hj]; exact h.log j hj

theorem Foot.write (hw : w) {k p : ℕ} {A : List ℕ} {s s1 : Sys K} (h : Foot w k p A s s1) {a : ℕ} (ha : Allowed k p A s s1 a)
    (o : Obj K) : Foot w k p A s { s1 with heap := Function.update s1.heap a o } := by
  refine ⟨h.next, h.decl, h.pred, h.inf, h.log, fun b h1 h2 => ?_, h.owned, h.kept, h.glob⟩
  have : b ≠ a := by
    rintro rfl
    rcases ha with h4 | ⟨h4, _⟩ | ⟨h4, _⟩
    · exact (h2 hw).1 h4
    · omega
    · exact (h2 hw).2 h4
  simp only [Function.update_of_ne this]
  exact h.heap b h1 h2

/-- Rebinding fields of a local handler to allowed addresses. -/
theorem Foot.setLocal {k p : ℕ} {A : List ℕ} {s s1 : Sys K} (h : Foot w k p A s s1) {h' : PredH K}
    (hg : h'.usingGlobals = false) (ha : ∀ a ∈ h'.addrs, Allowed k p A s s1 a) : Foot w k p A s (s1.setP k p h') := by
  refine ⟨h.next, h.decl, fun j q e => (setP_ne _ _ _ _ e).trans (h.pred j q e), h.inf, h.log, h.heap, fun a hm => ?_,
    fun _ => by simp, fun x e g => ?_⟩
  · rw [owned_of (setP_self s1 k p h'), if_neg (by simp [hg])] at hm
    exact ha a hm
  · rw [setP_self] at e; injection e with e; subst e
    rw [hg] at g; simp at g

/-- Rebinding other fields. -/
theorem Foot.setSame {k p : ℕ} {A : List ℕ} {s s1 : Sys K} (h : Foot w k p A s s1) {h0 h' : PredH K}
    (e : s1.pred k p = some h0) (hg : h'.usingGlobals = h0.usingGlobals) (ha : h'.addrs = h0.addrs) :
    Foot w k p A s (s1.setP k p h') := by
  refine ⟨h.next, h.decl, fun j q e => (setP_ne _ _ _ _ e).trans (h.pred j q e), h.inf, h.log, h.heap, fun a hm => ?_,
    fun _ => by simp, fun x e' g => ?_⟩
  · rw [owned_of (setP_self s1 k p h'), hg, ha, ← owned_of e] at hm
    exact h.owned a hm
  · rw [setP_self] at e'; injection e' with e'; subst e'
    rw [ha]
    exact h.glob h0 e (hg ▸ g)

theorem foot_on {k p : ℕ} {A : List ℕ} {s s1 : Sys K} (h : Foot w k p A s s1) {f : PredH K → Res (Sys K)}
    (hf : ∀ h0, s1.pred k p = some h0 → Foot w k p A s (f h0).1) : Foot w k p A s (s1.on k p f).1 := by
  unfold Sys.on
  cases e : s1.pred k p with
  | none => exact h
  | some h0 => exact hf h0 e

theorem foot_andThen {k p : ℕ} {A : List ℕ} {s : Sys K} {r : Res (Sys K)} {f : Sys K → Res (Sys K)}
    (h : Foot w k p A s r.1) (hf : r.2 = none → Foot w k p A s r.1 → Foot w k p A s (f r.1).1) :
    Foot w k p A s (r.andThen f).1 := by
  obtain ⟨s', _ | e⟩ := r
  · exact hf rfl h
  · exact h

theorem access_foot (s : Sys K) (k p : ℕ) (A : List ℕ) : Foot w k p A s (s.access k p).1 := by
  unfold Sys.access
  cases e : s.pred k p with
  | some h => exact Foot.refl w k p A s
  | none =>
    dsimp only
    cases e2 : s.decl p with
    | none => exact Foot.refl w k p A s
    | some d =>
      refine ⟨le_refl _, rfl, fun j q e => setP_ne _ _ _ _ e, fun _ _ => rfl, fun _ _ => rfl, fun _ _ _ => rfl,
        fun a hm => ?_, fun h => absurd e h, fun x e' g => ?_⟩
      · simp only [ok] at hm
        rw [owned_of (setP_self s k p _)] at hm
        simp at hm
      · simp only [ok, setP_self, Option.some.injEq] at e'
        subst e'
        exact Or.inr ⟨e, d, e2, rfl⟩

theorem localize_foot (s : Sys K) (k p : ℕ) (A : List ℕ) : Foot w k p A s (s.localize k p).1 := by
  unfold Sys.localize
  refine foot_on (Foot.refl w k p A s) fun h e => ?_
  split_ifs with hg
  · dsimp only [ok]
    refine Foot.setLocal (((Foot.refl w k p A s).alloc _).alloc _ |>.alloc _) rfl ?_
    intro a ha
    simp only [PredH.addrs, alloc_snd, alloc_next, List.mem_cons, List.not_mem_nil, or_false] at ha
    refine Or.inr (Or.inl ?_)
    simp only [alloc_next]
    omega
  · exact Foot.refl w k p A s

/-- A successful `localize_data` leaves a local handler. -/
theorem localize_local (s : Sys K) (k p : ℕ) (h : (s.localize k p).2 = none) :
    ∃ hd, (s.localize k p).1.pred k p = some hd ∧ hd.usingGlobals = false := by
  unfold Sys.localize Sys.on at h ⊢
  cases e : s.pred k p with
  | none => rw [e] at h; simp [raise] at h
  | some hd =>
    rw [e] at h
    dsimp only at h ⊢
    split_ifs with hg
    · exact ⟨_, setP_self _ _ _ _, rfl⟩
    · exact ⟨hd, e, by simpa using hg⟩

theorem changingData_foot (s : Sys K) (k p : ℕ) (A : List ℕ) : Foot w k p A s (s.changingData k p).1 := by
  unfold Sys.changingData
  refine foot_andThen (localize_foot s k p A) fun _ h => ?_
  exact foot_on h fun h0 e => h.setSame e rfl rfl

theorem changingData_local (s : Sys K) (k p : ℕ) (h : (s.changingData k p).2 = none) :
    ∃ hd, (s.changingData k p).1.pred k p = some hd ∧ hd.usingGlobals = false := by
  unfold Sys.changingData at h ⊢
  have hl := localize_local s k p
  generalize s.localize k p = r at h hl
  obtain ⟨s', _ | e⟩ := r
  · obtain ⟨hd, e1, e2⟩ := hl rfl
    simp only [Res.andThen_ok, Sys.on]
    dsimp only at e1
    rw [e1]
    exact ⟨_, setP_self _ _ _ _, e2⟩
  · simp [Res.andThen] at h

theorem getPrdxns_foot (m : Model K) (s : Sys K) (k p : ℕ) (A : List ℕ) : Foot w k p A s (s.getPrdxns m k p).1 := by
  unfold Sys.getPrdxns
  refine foot_on (Foot.refl w k p A s) fun h e => ?_
  dsimp only
  refine foot_andThen (((Foot.refl w k p A s).note _).onInf _) fun _ hf => ?_
  have hp : ∀ (s1 : Sys K) (f : Inf K → Res (Inf K)), (s1.onInf k f).1.pred = s1.pred := fun _ _ => rfl
  split
  · refine Foot.setSame (h0 := h) (hf.note _) ?_ rfl rfl
    exact e
  · refine Foot.setSame (h0 := h) (hf.note _) ?_ rfl rfl
    exact e

/-- `get_prdxns` changes nothing in the handler but the predictions. -/
theorem getPrdxns_pred (m : Model K) (s : Sys K) (k p : ℕ) {h : PredH K} (e : s.pred k p = some h) :
    ∃ pr, (s.getPrdxns m k p).1.pred k p = some { h with prdxns := pr } := by
  unfold Sys.getPrdxns Sys.on
  rw [e]
  dsimp only
  have hp : ∀ (s1 : Sys K) (f : Inf K → Res (Inf K)), (s1.onInf k f).1.pred = s1.pred := fun _ _ => rfl
  have e1 : ((s.note k [.use ((s.inf k).read m.cfg)]).onInf k (Inf.accessAll m.cfg m.reads)).1.pred k p = some h := by
    rw [hp]; exact e
  generalize (s.note k [.use ((s.inf k).read m.cfg)]).onInf k (Inf.accessAll m.cfg m.reads) = r at e1
  obtain ⟨s', _ | x⟩ := r
  · simp only [Res.andThen_ok]
    split
    · exact ⟨_, setP_self _ _ _ _⟩
    · exact ⟨_, setP_self _ _ _ _⟩
  · exact ⟨h.prdxns, e1⟩

theorem getPrdxns_heap (m : Model K) (s : Sys K) (k p : ℕ) :
    (s.getPrdxns m k p).1.heap = s.heap ∧ (s.getPrdxns m k p).1.next = s.next := by
  unfold Sys.getPrdxns Sys.on
  cases e : s.pred k p with
  | none => exact ⟨rfl, rfl⟩
  | some h =>
    dsimp only
    have hp : ∀ (s1 : Sys K) (f : Inf K → Res (Inf K)), (s1.onInf k f).1.heap = s1.heap ∧
        (s1.onInf k f).1.next = s1.next := fun _ _ => ⟨rfl, rfl⟩
    have e1 := hp (s.note k [.use ((s.inf k).read m.cfg)]) (Inf.accessAll m.cfg m.reads)
    generalize (s.note k [.use ((s.inf k).read m.cfg)]).onInf k (Inf.accessAll m.cfg m.reads) = r at e1
    obtain ⟨s', _ | x⟩ := r
    · simp only [Res.andThen_ok]
      split <;> exact e1
    · exact e1

theorem simDraw_foot (m : Model K) (s : Sys K) (k p : ℕ) (A : List ℕ) (z : ℕ → K)
    (hl : ∃ h, s.pred k p = some h ∧ h.usingGlobals = false) : Foot w k p A s (s.simDraw m k p z).1 := by
  unfold Sys.simDraw
  obtain ⟨h0, e0, g0⟩ := hl
  obtain ⟨pr, e1⟩ := getPrdxns_pred m s k p e0
  refine foot_andThen (getPrdxns_foot m s k p A) fun _ hf => foot_on hf fun h e => ?_
  rw [e1] at e; injection e with e; subst e
  dsimp only
  split
  · exact hf
  · split
    · exact hf
    · split
      · exact hf
      · dsimp only [ok]
        refine Foot.setLocal (hf.alloc _) g0 ?_
        intro a ha
        simp only [PredH.addrs, alloc_snd, List.mem_cons, List.not_mem_nil, or_false] at ha
        have ho : ∀ a ∈ h0.addrs, a ∈ s.owned k p := by
          intro a ha; rw [owned_of e0, if_neg (by simp [g0])]; exact ha
        rcases ha with rfl | rfl | rfl
        · exact Or.inl (ho _ (by simp [PredH.addrs]))
        · refine Or.inr (Or.inl ?_)
          rw [(getPrdxns_heap m s k p).2]; simp [(getPrdxns_heap m s k p).2]
        · exact Or.inl (ho _ (by simp [PredH.addrs]))

/-- Addresses named by an argument. -/
def Arg.refs : Option (Arg K) → List ℕ
  | some (.ref a) => [a]
  | _ => []

theorem withArg_foot {k p : ℕ} {A : List ℕ} {s s1 : Sys K} (h : Foot w k p A s s1) (arg : Option (Arg K))
    {B : ℕ → Prop} (hA : ∀ a ∈ Arg.refs arg, a < s.next → B a) {f : Sys K → Option ℕ → Res (Sys K)}
    (hf : ∀ s2 o, Foot w k p A s s2 → s1.next ≤ s2.next → (∀ a, o = some a → (s.next ≤ a ∧ a < s2.next) ∨ (B a ∧ a < s.next)) →
      Foot w k p A s (f s2 o).1) : Foot w k p A s (s1.withArg arg f).1 := by
  unfold Sys.withArg
  match arg, hA with
  | none, _ => exact hf s1 none h (le_refl _) (by simp)
  | some (.fresh o), _ =>
    refine hf _ _ (h.alloc o) (by simp) fun a ha => Or.inl ?_
    simp only [alloc_snd, Option.some.injEq] at ha
    subst ha
    exact ⟨h.next, by simp⟩
  | some (.ref a), hA =>
    dsimp only
    split_ifs with hlt
    · refine hf _ _ h (le_refl _) fun b hb => ?_
      simp only [Option.some.injEq] at hb
      subst hb
      by_cases h1 : a < s.next
      · exact Or.inr ⟨hA a (by simp [Arg.refs]) h1, h1⟩
      · exact Or.inl ⟨not_lt.mp h1, hlt⟩
    · exact h

/-- An object that `sim` will not store: an array (not a list) whose length is not one. -/
def Blocked (k p : ℕ) (A : List ℕ) (s : Sys K) (a : ℕ) : Prop :=
  (s.heap a).isArray = true ∧ (s.heap a).data.length ≠ 1 ∧ a ∉ s.owned k p ∧ a ∉ A

theorem sim_foot (m : Model K) (s : Sys K) (k p : ℕ) (A : List ℕ) (l g : Option (Arg K)) (z : ℕ → K)
    (hA : ∀ a ∈ Arg.refs l ++ Arg.refs g, a < s.next → a ∈ A ∨ Blocked k p A s a) : Foot w k p A s (s.sim m k p l g z).1 := by
  unfold Sys.sim
  refine foot_andThen (access_foot s k p A) fun _ h1 => ?_
  refine withArg_foot h1 l (fun a ha => hA a (by simp [ha])) fun s2 lo h2 _ hlo => ?_
  refine withArg_foot h2 g (fun a ha => hA a (by simp [ha])) fun s3 go h3 hn hgo => ?_
  have hloc := changingData_local s3 k p
  refine foot_andThen (h3.trans (changingData_foot s3 k p A)) fun hok h4 => ?_
  obtain ⟨hd, e, g0⟩ := hloc hok
  have hnext := (changingData_foot (w := w) s3 k p A).next
  generalize (s3.changingData k p).1 = t at h4 e hnext
  refine foot_on h4 fun h0 e0 => ?_
  rw [e] at e0; injection e0 with e0; subst e0
  have own : ∀ a ∈ hd.addrs, Allowed k p A s t a := by
    intro a ha
    refine h4.owned a ?_
    rw [owned_of e, if_neg (by simp [g0])]; exact ha
  have blk : ∀ a, a < s.next → Blocked k p A s a → t.truth (some a) ≠ .ok true := by
    intro a h1 ⟨b1, b2, b3, b4⟩
    have : t.heap a = s.heap a := h4.heap a h1 fun _ => ⟨b3, b4⟩
    simp only [Sys.truth, this, b1, if_true]
    rcases hd : (s.heap a).data with _ | ⟨x, _ | ⟨y, l⟩⟩
    · simp
    · rw [hd] at b2; simp at b2
    · simp
  have argl : ∀ a, lo = some a → t.truth lo = .ok true → Allowed k p A s t a := by
    intro a ha ht
    rcases hlo a ha with ⟨x, y⟩ | ⟨x | x, y⟩
    · exact Or.inr (Or.inl ⟨x, lt_of_lt_of_le y (hn.trans hnext)⟩)
    · exact Or.inr (Or.inr ⟨x, y⟩)
    · exact absurd (ha ▸ ht) (blk a y x)
  have argg : ∀ a, go = some a → t.truth go = .ok true → Allowed k p A s t a := by
    intro a ha ht
    rcases hgo a ha with ⟨x, y⟩ | ⟨x | x, y⟩
    · exact Or.inr (Or.inl ⟨x, lt_of_lt_of_le y hnext⟩)
    · exact Or.inr (Or.inr ⟨x, y⟩)
    · exact absurd (ha ▸ ht) (blk a y x)
  have fin : ∀ h' : PredH K, h'.usingGlobals = false → (∀ a ∈ h'.addrs, Allowed k p A s t a) →
      Foot w k p A s ((t.setP k p h').simDraw m k p z).1 := fun h' hg ha =>
    (Foot.setLocal h4 hg ha).trans (simDraw_foot m _ k p A z ⟨h', setP_self _ _ _ _, hg⟩)
  split
  · exact h4
  · split
    · exact h4
    · split
      · rename_i l g
        split_ifs
        · exact h4
        · refine fin _ g0 fun a ha => ?_
          simp only [PredH.addrs, List.mem_cons, List.not_mem_nil, or_false] at ha
          rcases ha with rfl | rfl | rfl
          · exact argl _ rfl (by assumption)
          · exact own _ (by simp [PredH.addrs])
          · exact argg _ rfl (by assumption)
      · exact h4
    · split
      · split_ifs
        · exact h4
        · refine fin _ g0 fun a ha => ?_
          simp only [PredH.addrs, List.mem_cons, List.not_mem_nil, or_false] at ha
          rcases ha with rfl | rfl | rfl
          · exact argl _ rfl (by assumption)
          · exact own _ (by simp [PredH.addrs])
          · exact own _ (by simp [PredH.addrs])
      · exact h4
  · split
    · exact h4
    · split
      · split_ifs
        · exact h4
        · refine fin _ g0 fun a ha => ?_
          simp only [PredH.addrs, List.mem_cons, List.not_mem_nil, or_false] at ha
          rcases ha with rfl | rfl | rfl
          · exact own _ (by simp [PredH.addrs])
          · exact own _ (by simp [PredH.addrs])
          · exact argg _ rfl (by assumption)
      · exact h4
    · exact h4.trans (simDraw_foot m t k p A z ⟨hd, e, g0⟩)

theorem writeAt_foot (hw : w) {k p : ℕ} {A : List ℕ} {s s1 : Sys K} (h : Foot w k p A s s1) {a : ℕ} (ha : Allowed k p A s s1 a)
    (n : ℤ) (v : K) : Foot w k p A s (s1.writeAt a n v).1 := by
  unfold Sys.writeAt
  dsimp only
  split
  · exact h
  · exact h.write hw ha _

theorem writeAt_same (s : Sys K) (a : ℕ) (n : ℤ) (v : K) :
    (s.writeAt a n v).1.pred = s.pred ∧ (s.writeAt a n v).1.next = s.next := by
  unfold Sys.writeAt
  dsimp only
  split <;> exact ⟨rfl, rfl⟩

theorem writeIf_foot (hw : w) {k p : ℕ} {A : List ℕ} {s s1 : Sys K} (h : Foot w k p A s s1) {a : ℕ} (ha : Allowed k p A s s1 a)
    (n : ℤ) (v : Option K) : Foot w k p A s (s1.writeIf a n v).1 := by
  unfold Sys.writeIf
  split
  · exact h
  · split_ifs
    · exact h
    · exact writeAt_foot hw h ha n _

theorem writeIf_same (s : Sys K) (a : ℕ) (n : ℤ) (v : Option K) :
    (s.writeIf a n v).1.pred = s.pred ∧ (s.writeIf a n v).1.next = s.next := by
  unfold Sys.writeIf
  split
  · exact ⟨rfl, rfl⟩
  · split_ifs
    · exact ⟨rfl, rfl⟩
    · exact writeAt_same s a n _

theorem sim1_foot (hw : w) (m : Model K) (s : Sys K) (k p : ℕ) (A : List ℕ) (n : ℤ) (l g : Option K) (z : K) :
    Foot w k p A s (s.sim1 m k p n l g z).1 := by
  unfold Sys.sim1
  refine foot_andThen (access_foot s k p A) fun _ h1 => ?_
  have hloc := changingData_local (s.access k p).1 k p
  refine foot_andThen (h1.trans (changingData_foot _ k p A)) fun hok h4 => ?_
  obtain ⟨hd, e, g0⟩ := hloc hok
  generalize (Sys.changingData (s.access k p).1 k p).1 = t at h4 e
  refine foot_on h4 fun h0 e0 => ?_
  rw [e] at e0; injection e0 with e0; subst e0
  have own : ∀ a ∈ hd.addrs, ∀ t' : Sys K, t'.next = t.next → Allowed k p A s t' a := by
    intro a ha t' ht
    have := h4.owned a (by rw [owned_of e, if_neg (by simp [g0])]; exact ha)
    unfold Allowed; rw [ht]; exact this
  have hw1 := writeIf_same t hd.locns n l
  refine foot_andThen (writeIf_foot hw h4 (own _ (by simp [PredH.addrs]) t rfl) n l) fun _ h5 => ?_
  generalize (t.writeIf hd.locns n l).1 = t1 at h5 hw1
  have hw2 := writeIf_same t1 hd.sigmas n g
  refine foot_andThen (writeIf_foot hw h5 (own _ (by simp [PredH.addrs]) t1 hw1.2) n g) fun _ h6 => ?_
  generalize (t1.writeIf hd.sigmas n g).1 = t2 at h6 hw2
  have e2 : t2.pred k p = some hd := by rw [hw2.1, hw1.1]; exact e
  obtain ⟨pr, e3⟩ := getPrdxns_pred m t2 k p e2
  have hh := getPrdxns_heap m t2 k p
  refine foot_andThen (h6.trans (getPrdxns_foot m t2 k p A)) fun _ h7 => foot_on h7 fun h0 e0 => ?_
  rw [e3] at e0; injection e0 with e0; subst e0
  dsimp only
  split
  · exact h7
  · split
    · exact h7
    · split
      · exact h7
      · exact writeAt_foot hw h7 (own _ (by simp [PredH.addrs]) _ (by rw [hh.2, hw2.2, hw1.2])) n _

theorem addTail_foot (m : Model K) (s : Sys K) (k p : ℕ) (A : List ℕ) : Foot w k p A s (s.addTail m k p).1 := by
  unfold Sys.addTail
  refine foot_on (Foot.refl w k p A s) fun h e => ?_
  dsimp only
  have h1 : Foot w k p A s (s.setP k p { h with ndata := h.ndata + s.len h.locns }) :=
    (Foot.refl w k p A s).setSame e rfl rfl
  split_ifs
  · exact h1.trans (getPrdxns_foot m _ k p A)
  · exact h1

theorem extend_foot (s : Sys K) (k p : ℕ) (A : List ℕ) (l g : List K)
    (hl : ∃ h, s.pred k p = some h ∧ h.usingGlobals = false) : Foot w k p A s (s.extend k p l g).1 := by
  obtain ⟨h0, e0, g0⟩ := hl
  unfold Sys.extend
  refine foot_on (Foot.refl w k p A s) fun h e => ?_
  rw [e0] at e; injection e with e; subst e
  dsimp only [ok]
  refine Foot.setLocal (((Foot.refl w k p A s).alloc _).alloc _) g0 fun a ha => ?_
  simp only [PredH.addrs, alloc_snd, alloc_next, List.mem_cons, List.not_mem_nil, or_false] at ha
  rcases ha with rfl | rfl | rfl
  · exact Or.inr (Or.inl ⟨le_refl _, by simp⟩)
  · refine Or.inl ?_
    rw [owned_of e0, if_neg (by simp [g0])]; simp [PredH.addrs]
  · exact Or.inr (Or.inl ⟨by omega, by simp⟩)

theorem addSim_foot (m : Model K) (s : Sys K) (k p : ℕ) (A : List ℕ) (x y : Option K) (l g : Option (Arg K)) :
    Foot w k p A s (s.addSim m k p x y l g).1 := by
  unfold Sys.addSim
  refine foot_andThen (access_foot s k p A) fun _ h1 => ?_
  refine withArg_foot h1 l (B := fun _ => True) (fun _ _ _ => trivial) fun s2 lo h2 _ hlo => ?_
  refine withArg_foot h2 g (B := fun _ => True) (fun _ _ _ => trivial) fun s3 go h3 hn hgo => ?_
  have hloc := changingData_local s3 k p
  refine foot_andThen (h3.trans (changingData_foot s3 k p A)) fun hok h4 => ?_
  have hl := hloc hok
  generalize (s3.changingData k p).1 = t at h4 hl
  have ext : ∀ a b, Foot w k p A s ((t.extend k p a b).andThen fun s => s.addTail m k p).1 := fun a b =>
    foot_andThen (h4.trans (extend_foot t k p A a b hl)) fun _ h5 => h5.trans (addTail_foot m _ k p A)
  have many : ∀ lo go, Foot w k p A s (Sys.addSim.addMany m k p t lo go).1 := by
    intro lo go
    unfold Sys.addSim.addMany
    split
    · exact h4
    · exact h4.trans (addTail_foot m _ k p A)
    · split
      · exact h4
      · exact h4.trans (addTail_foot m _ k p A)
      · split
        · split_ifs
          · exact h4
          · exact ext _ _
        · exact h4
  split
  · split_ifs
    · exact ext _ _
    · exact many _ _
  · exact many _ _

theorem logLike_foot (m : Model K) (s : Sys K) (k p : ℕ) (A : List ℕ) : Foot w k p A s (s.logLike m k p).1 := by
  unfold Sys.logLike
  have h : Foot w k p A s ((s.access k p).andThen fun s => s.getPrdxns m k p).1 :=
    foot_andThen (access_foot s k p A) fun _ h => h.trans (getPrdxns_foot m _ k p A)
  generalize (s.access k p).andThen (fun s => s.getPrdxns m k p) = r at h
  obtain ⟨s', _ | e⟩ := r
  · dsimp only
    split <;> exact h
  · exact h

theorem chisqr_foot (m : Model K) (s : Sys K) (k p : ℕ) (A : List ℕ) : Foot w k p A s (s.chisqr m k p).1 := by
  unfold Sys.chisqr
  have h : Foot w k p A s ((s.access k p).andThen fun s => s.getPrdxns m k p).1 :=
    foot_andThen (access_foot s k p A) fun _ h => h.trans (getPrdxns_foot m _ k p A)
  generalize (s.access k p).andThen (fun s => s.getPrdxns m k p) = r at h
  obtain ⟨s', _ | e⟩ := r
  · dsimp only
    split <;> exact h
  · exact h

/-- The existing objects passed to `sim`, which stores its arguments. -/
def POp.refs : POp K → List ℕ
  | .sim l g _ => Arg.refs l ++ Arg.refs g
  | _ => []

/-- The operation assigns items in place. -/
def POp.writes : POp K → Prop
  | .sim1 _ _ _ _ => True
  | _ => False

theorem pstep_foot (m : Model K) (s : Sys K) (k p : ℕ) (A : List ℕ) (op : POp K)
    (hA : ∀ a ∈ op.refs, a < s.next → a ∈ A ∨ Blocked k p A s a) : Foot op.writes k p A s (s.pstep m k p op).1 := by
  cases op with
  | get => exact access_foot s k p _
  | localize => exact foot_andThen (access_foot s k p _) fun _ h => h.trans (localize_foot _ k p _)
  | sim l g z => exact sim_foot m s k p _ l g z hA
  | sim1 n l g z => exact sim1_foot trivial m s k p _ n l g z
  | addSim x y l g => exact addSim_foot m s k p _ x y l g
  | logLike => exact logLike_foot m s k p _
  | chisqr => exact chisqr_foot m s k p _

end Verif.Pie
