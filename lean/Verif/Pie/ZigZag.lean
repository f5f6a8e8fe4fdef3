import Verif.Pie.StepLemmas
import Mathlib.Algebra.BigOperators.Group.List.Basic
import Mathlib.Data.List.Forall2
import Mathlib.Algebra.Order.BigOperators.GroupWithZero.List

/-!
# The zig-zag traversal: closed form and refinement (helper lemmas for C04-C08)
-/

set_option linter.unusedSectionVars false
set_option linter.unusedSimpArgs false

namespace Verif.Pie

/-- The position and direction of each axis at the `r`-th point of the zig-zag traversal. -/
def cellAt : List ℕ → ℕ → List (ℕ × Dir)
  | [], _ => []
  | n :: ns, r => (if r / n % 2 = 0 then (r % n, .next) else (n - 1 - r % n, .prev)) :: cellAt ns (r / n)

/-- One move on abstract cells. -/
def zn : List ℕ → List (ℕ × Dir) → Option (List (ℕ × Dir))
  | n :: ns, (p, .next) :: cs => if p + 1 = n then (zn ns cs).map ((p, .prev) :: ·) else some ((p + 1, .next) :: cs)
  | _ :: ns, (0, .prev) :: cs => (zn ns cs).map ((0, .next) :: ·)
  | _ :: _, (p + 1, .prev) :: cs => some ((p, .prev) :: cs)
  | _, _ => none

/-- Visiting order of an index tuple: inverse of `cellAt`. -/
def rank : List ℕ → List ℕ → ℕ
  | n :: ns, p :: ps => rank ns ps * n + (if rank ns ps % 2 = 0 then p else n - 1 - p)
  | _, _ => 0

theorem zn_cellAt (ns : List ℕ) (hns : ∀ n ∈ ns, 1 ≤ n) (r : ℕ) (hr : r < ns.prod) :
    zn ns (cellAt ns r) = if r + 1 < ns.prod then some (cellAt ns (r + 1)) else none := by
  induction ns generalizing r with
  | nil => simp [cellAt, zn] at hr ⊢
  | cons n ns ih =>
    have hn : 1 ≤ n := hns n (by simp)
    have hq : r % n < n := Nat.mod_lt _ (by omega)
    have hdm := Nat.div_add_mod r n
    rw [List.prod_cons] at hr
    have ho : r / n < ns.prod := (Nat.div_lt_iff_lt_mul (by omega)).mpr (by rw [mul_comm]; exact hr)
    have hih := ih (fun m hm => hns m (by simp [hm])) (r / n) ho
    by_cases hlast : r % n + 1 = n
    · -- carry
      have e1 : (r + 1) % n = 0 := by
        have : r + 1 = n * (r / n + 1) := by rw [mul_add, mul_one]; omega
        rw [this]; simp
      have e2 : (r + 1) / n = r / n + 1 := by
        have : r + 1 = n * (r / n + 1) := by rw [mul_add, mul_one]; omega
        rw [this, Nat.mul_div_cancel_left _ (by omega)]
      have hlt : r + 1 < n * ns.prod ↔ r / n + 1 < ns.prod := by
        have : r + 1 = n * (r / n + 1) := by rw [mul_add, mul_one]; omega
        rw [this, Nat.mul_lt_mul_left (by omega)]
      rw [List.prod_cons]
      simp only [cellAt, e1, e2]
      by_cases he : r / n % 2 = 0
      · have he' : (r / n + 1) % 2 ≠ 0 := by omega
        rw [if_pos he, if_neg he']
        simp only [zn, hlast, if_true]
        rw [hih]
        by_cases h : r / n + 1 < ns.prod
        · rw [if_pos h, if_pos (hlt.mpr h)]
          simp only [Option.map_some, Option.some.injEq, List.cons.injEq, Prod.mk.injEq, and_true]
          omega
        · rw [if_neg h, if_neg (fun h' => h (hlt.mp h'))]; rfl
      · have he' : (r / n + 1) % 2 = 0 := by omega
        rw [if_neg he, if_pos he']
        have hz : n - 1 - r % n = 0 := by omega
        rw [hz]
        simp only [zn]
        rw [hih]
        by_cases h : r / n + 1 < ns.prod
        · rw [if_pos h, if_pos (hlt.mpr h)]; simp
        · rw [if_neg h, if_neg (fun h' => h (hlt.mp h'))]; rfl
    · have hq' : r % n + 1 < n := by omega
      have e1 : (r + 1) % n = r % n + 1 := by
        have : r + 1 = r % n + 1 + n * (r / n) := by omega
        rw [this, Nat.add_mul_mod_self_left, Nat.mod_eq_of_lt hq']
      have e2 : (r + 1) / n = r / n := by
        have : r + 1 = r % n + 1 + n * (r / n) := by omega
        rw [this, Nat.add_mul_div_left _ _ (by omega), Nat.div_eq_of_lt hq']
        simp
      have hlt : r + 1 < n * ns.prod := by
        calc r + 1 = r % n + 1 + n * (r / n) := by omega
          _ < n + n * (r / n) := by omega
          _ = n * (r / n + 1) := by ring
          _ ≤ n * ns.prod := Nat.mul_le_mul_left _ ho
      rw [List.prod_cons, if_pos hlt]
      simp only [cellAt, e1, e2]
      by_cases he : r / n % 2 = 0
      · rw [if_pos he, if_pos he]
        simp only [zn, hlast, if_false]
      · rw [if_neg he, if_neg he]
        obtain ⟨m, hm⟩ : ∃ m, n - 1 - r % n = m + 1 := ⟨n - 1 - r % n - 1, by omega⟩
        rw [hm]
        simp only [zn, Option.some.injEq, List.cons.injEq, Prod.mk.injEq, and_true]
        omega

theorem cellAt_range (ns : List ℕ) (hns : ∀ n ∈ ns, 1 ≤ n) (r : ℕ) :
    List.Forall₂ (fun n c => c.1 < n) ns (cellAt ns r) := by
  induction ns generalizing r with
  | nil => simp [cellAt]
  | cons n ns ih =>
    have hn : 1 ≤ n := hns n (by simp)
    have hq : r % n < n := Nat.mod_lt _ (by omega)
    simp only [cellAt]
    refine List.Forall₂.cons ?_ (ih (fun m hm => hns m (by simp [hm])) _)
    split_ifs
    · exact hq
    · show n - 1 - r % n < n; omega

theorem rank_lt (ns ps : List ℕ) (h : List.Forall₂ (fun n p => p < n) ns ps) : rank ns ps < ns.prod := by
  induction h with
  | nil => simp [rank]
  | @cons n p ns ps hp _ ih =>
    simp only [rank, List.prod_cons]
    have : (if rank ns ps % 2 = 0 then p else n - 1 - p) < n := by split_ifs <;> omega
    calc rank ns ps * n + _ < rank ns ps * n + n := by omega
      _ = n * (rank ns ps + 1) := by ring
      _ ≤ n * ns.prod := Nat.mul_le_mul_left _ ih

theorem cellAt_rank (ns ps : List ℕ) (h : List.Forall₂ (fun n p => p < n) ns ps) :
    (cellAt ns (rank ns ps)).map Prod.fst = ps := by
  induction h with
  | nil => simp [cellAt]
  | @cons n p ns ps hp _ ih =>
    have hx : (if rank ns ps % 2 = 0 then p else n - 1 - p) < n := by split_ifs <;> omega
    have e1 : (rank ns ps * n + (if rank ns ps % 2 = 0 then p else n - 1 - p)) / n = rank ns ps := by
      rw [mul_comm, Nat.mul_add_div (by omega), Nat.div_eq_of_lt hx]; omega
    have e2 : (rank ns ps * n + (if rank ns ps % 2 = 0 then p else n - 1 - p)) % n =
        (if rank ns ps % 2 = 0 then p else n - 1 - p) := by
      rw [mul_comm, Nat.mul_add_mod, Nat.mod_eq_of_lt hx]
    simp only [cellAt, rank, List.map_cons, e1, e2, ih, List.cons.injEq, and_true]
    split_ifs with he
    · rfl
    · show n - 1 - (n - 1 - p) = p; omega

theorem rank_cellAt (ns : List ℕ) (hns : ∀ n ∈ ns, 1 ≤ n) (r : ℕ) (hr : r < ns.prod) :
    rank ns ((cellAt ns r).map Prod.fst) = r := by
  induction ns generalizing r with
  | nil => simp [rank] at hr ⊢; omega
  | cons n ns ih =>
    have hn : 1 ≤ n := hns n (by simp)
    have hq : r % n < n := Nat.mod_lt _ (by omega)
    have hdm := Nat.div_add_mod r n
    rw [List.prod_cons] at hr
    have ho : r / n < ns.prod := (Nat.div_lt_iff_lt_mul (by omega)).mpr (by rw [mul_comm]; exact hr)
    simp only [cellAt, List.map_cons, rank, ih (fun m hm => hns m (by simp [hm])) _ ho]
    rw [mul_comm]
    split_ifs with he <;> dsimp only <;> omega

theorem cellAt_zero (ns : List ℕ) : cellAt ns 0 = ns.map fun _ => (0, .next) := by
  induction ns with
  | nil => rfl
  | cons n ns ih => simp [cellAt, ih]

theorem cellAt_length (ns : List ℕ) (r : ℕ) : (cellAt ns r).length = ns.length := by
  induction ns generalizing r with
  | nil => rfl
  | cons n ns ih => simp [cellAt, ih]

section
variable {K : Type} [Field K] [LinearOrder K]

/-- The parameters in `l` are properly set up for stepping, with the given numbers of steps. -/
def Ready (s : Inf K) (l : List ℕ) (ns : List ℕ) : Prop :=
  List.Forall₂ (fun i (n : ℕ) => ∃ hd, s.h i = some hd ∧ WS hd ∧ hd.steps = n) l ns

/-- In `s`, the parameters `l` of `s0` have been moved to the positions and directions `cs`. -/
def Placed (s0 s : Inf K) (l : List ℕ) (cs : List (ℕ × Dir)) : Prop :=
  List.Forall₂ (fun i c => s.h i = (s0.h i).map (·.at (c.1 : ℤ)) ∧ s.info i = some c.2) l cs

/-- `s'` differs from `s` only in the handlers and directions of parameters in `l` (and the notification log). -/
structure SameOff (s : Inf K) (l : List ℕ) (s' : Inf K) : Prop where
  h : ∀ j, j ∉ l → s'.h j = s.h j
  info : ∀ j, j ∉ l → s'.info j = s.info j
  fixed : s'.fixed = s.fixed
  varying : s'.varying = s.varying
  stepping : s'.stepping = s.stepping

theorem SameOff.refl (s : Inf K) (l) : SameOff s l s := ⟨fun _ _ => rfl, fun _ _ => rfl, rfl, rfl, rfl⟩

theorem SameOff.trans {s s' s'' : Inf K} {l} (a : SameOff s l s') (b : SameOff s' l s'') : SameOff s l s'' :=
  ⟨fun j hj => (b.h j hj).trans (a.h j hj), fun j hj => (b.info j hj).trans (a.info j hj),
    b.fixed.trans a.fixed, b.varying.trans a.varying, b.stepping.trans a.stepping⟩

theorem SameOff.mono {s s' : Inf K} {l l'} (a : SameOff s l s') (h : ∀ i ∈ l, i ∈ l') : SameOff s l' s' :=
  ⟨fun j hj => a.h j fun hm => hj (h j hm), fun j hj => a.info j fun hm => hj (h j hm), a.fixed, a.varying, a.stepping⟩

theorem Placed.of_sameOn {s0 s s' : Inf K} {l : List ℕ} {cs} (h : Placed s0 s l cs)
    (hh : ∀ j ∈ l, s'.h j = s.h j) (hi : ∀ j ∈ l, s'.info j = s.info j) : Placed s0 s' l cs := by
  induction h with
  | nil => exact List.Forall₂.nil
  | cons h1 h2 ih =>
    refine List.Forall₂.cons ⟨?_, ?_⟩ (ih (fun j hj => hh j (by simp [hj])) (fun j hj => hi j (by simp [hj])))
    · rw [hh _ (by simp)]; exact h1.1
    · rw [hi _ (by simp)]; exact h1.2

theorem nextLoop_zn (s0 : Inf K) (last : ℕ) : ∀ (l : List ℕ) (ns : List ℕ) (cs : List (ℕ × Dir)) (s : Inf K),
    l.Nodup → l.getLast? = some last → Ready s0 l ns → Placed s0 s l cs →
    List.Forall₂ (fun n c => c.1 < n) ns cs →
    (∀ cs', zn ns cs = some cs' → ∃ s', Inf.nextLoop last l s = ok s' ∧ Placed s0 s' l cs' ∧ SameOff s l s') ∧
    (zn ns cs = none → ∃ s', Inf.nextLoop last l s = (Inf.resetSteps s').andThen (raise .stopStepping) ∧
      s'.h = s.h ∧ SameOff s l s' ∧ s'.changes = s.changes) := by
  intro l
  induction l with
  | nil => intro ns cs s _ hl; simp at hl
  | cons i l ih =>
    intro ns cs s hnd hl hr hp hlt
    cases hr with
    | @cons _ n _ ns hr1 hr2 =>
    cases hp with
    | @cons _ c _ cs hp1 hp2 =>
    cases hlt with
    | cons hlt1 hlt2 =>
    obtain ⟨hd, hh0, hws, hsteps⟩ := hr1
    obtain ⟨hp1, hinfo⟩ := hp1
    rw [hh0, Option.map_some] at hp1
    obtain ⟨p, d⟩ := c
    have hplt : p < n := hlt1
    rw [List.nodup_cons] at hnd
    have hwsp : WS (hd.at (p : ℤ)) := hws.at (by omega) (by omega)
    have hne : ∀ j ∈ l, j ≠ i := fun j hj e => hnd.1 (e ▸ hj)
    -- taking a step with this parameter
    have take : ∀ (k : ℕ) (v : K), v = hd.pt k →
        Placed s0 (s.putValue i { hd.at (p : ℤ) with stepNum := (k : ℤ) } v) (i :: l) ((k, d) :: cs) ∧
        SameOff s (i :: l) (s.putValue i { hd.at (p : ℤ) with stepNum := (k : ℤ) } v) := by
      intro k v hv
      refine ⟨List.Forall₂.cons ⟨?_, hinfo⟩ (Placed.of_sameOn hp2 (fun j hj => putValue_ne _ _ _ (hne j hj)) (fun _ _ => rfl)),
        ⟨fun j hj => putValue_ne _ _ _ (fun e => hj (by simp [e])), fun _ _ => rfl, rfl, rfl, rfl⟩⟩
      rw [putValue_self, hh0, hv]; rfl
    -- bumping into the end
    have bump : s.stepDir i d = raise .paramRange s → 
        (∀ cs', (zn ns cs).map ((p, d.reverse) :: ·) = some cs' →
          ∃ s', Inf.nextLoop last (i :: l) s = ok s' ∧ Placed s0 s' (i :: l) cs' ∧ SameOff s (i :: l) s') ∧
        (zn ns cs = none → ∃ s', Inf.nextLoop last (i :: l) s = (Inf.resetSteps s').andThen (raise .stopStepping) ∧
          s'.h = s.h ∧ SameOff s (i :: l) s' ∧ s'.changes = s.changes) := by
      intro hb
      cases l with
      | nil =>
        have hi : i = last := by simpa using hl
        cases hr2
        cases hp2
        refine ⟨fun cs' h => by simp [zn] at h, fun _ => ⟨s, ?_, rfl, SameOff.refl _ _, rfl⟩⟩
        rw [Inf.nextLoop, hinfo]
        dsimp only
        rw [hb]
        dsimp only [raise]
        rw [if_pos hi]
      | cons i' l' =>
        have hi : i ≠ last := by
          intro e
          have h2 : (i' :: l').getLast? = some last := by simpa using hl
          have := List.mem_of_getLast? h2
          exact hnd.1 (e ▸ this)
        have hl2 : (i' :: l').getLast? = some last := by simpa using hl
        have hp2' : Placed s0 { s with info := Function.update s.info i (some d.reverse) } (i' :: l') cs :=
          Placed.of_sameOn hp2 (fun _ _ => rfl) (fun j hj => by simp [hne j hj])
        have hrest := ih ns cs { s with info := Function.update s.info i (some d.reverse) } hnd.2 hl2 hr2 hp2' hlt2
        have hloop : Inf.nextLoop last (i :: i' :: l') s =
            Inf.nextLoop last (i' :: l') { s with info := Function.update s.info i (some d.reverse) } := by
          rw [Inf.nextLoop, hinfo]
          simp only [hb, raise, hi, if_false]
        rw [hloop]
        have hoff : SameOff s (i :: i' :: l') { s with info := Function.update s.info i (some d.reverse) } :=
          ⟨fun _ _ => rfl, fun j hj => by
            have : j ≠ i := fun e => hj (by simp [e])
            simp [this], rfl, rfl, rfl⟩
        constructor
        · intro cs' h
          rw [Option.map_eq_some_iff] at h
          obtain ⟨cs'', h1, h2⟩ := h
          obtain ⟨s', e1, e2, e3⟩ := hrest.1 cs'' h1
          refine ⟨s', e1, ?_, hoff.trans (e3.mono fun j hj => by simp only [List.mem_cons] at hj ⊢; tauto)⟩
          rw [← h2]
          refine List.Forall₂.cons ⟨?_, ?_⟩ e2
          · rw [e3.h i hnd.1, hh0]; exact hp1
          · rw [e3.info i hnd.1]; simp
        · intro h
          obtain ⟨s', e1, e2, e3, e4⟩ := hrest.2 h
          exact ⟨s', e1, e2, hoff.trans (e3.mono fun j hj => by simp only [List.mem_cons] at hj ⊢; tauto), e4⟩
    cases d with
    | next =>
      have hstep : s.stepDir i .next = if p + 1 = n then raise .paramRange s
          else ok (s.putValue i { hd.at (p : ℤ) with stepNum := (p : ℤ) + 1 } (hd.pt ((p : ℤ) + 1))) := by
        show s.nextStepP i = _
        rw [hwsp.nextStepP hp1]
        have : ((hd.at (p : ℤ)).stepNum + 1 = (hd.at (p : ℤ)).steps) ↔ p + 1 = n := by
          simp only [Handler.at_stepNum, Handler.at_steps, hsteps]; omega
        by_cases h : p + 1 = n
        · rw [if_pos h, if_pos (this.mpr h)]
        · rw [if_neg h, if_neg (fun h' => h (this.mp h'))]; rfl
      by_cases h : p + 1 = n
      · rw [if_pos h] at hstep
        have hb := bump hstep
        have hz : zn (n :: ns) ((p, .next) :: cs) = (zn ns cs).map ((p, .prev) :: ·) := by
          simp [zn, h]
        rw [hz]
        exact ⟨hb.1, fun hn => hb.2 (by simpa using hn)⟩
      · rw [if_neg h] at hstep
        have hz : zn (n :: ns) ((p, .next) :: cs) = some ((p + 1, .next) :: cs) := by simp [zn, h]
        rw [hz]
        refine ⟨fun cs' hcs => ?_, fun hn => by simp at hn⟩
        injection hcs with hcs
        subst hcs
        have ht := take (p + 1) (hd.pt ((p : ℤ) + 1)) (by push_cast; rfl)
        refine ⟨_, ?_, ht.1, ht.2⟩
        rw [Inf.nextLoop, hinfo]
        simp only [hstep, ok]
        push_cast; rfl
    | prev =>
      have hstep : s.stepDir i .prev = if p = 0 then raise .paramRange s
          else ok (s.putValue i { hd.at (p : ℤ) with stepNum := (p : ℤ) - 1 } (hd.pt ((p : ℤ) - 1))) := by
        show s.prevStepP i = _
        rw [hwsp.prevStepP hp1]
        have : ((hd.at (p : ℤ)).stepNum = 0) ↔ p = 0 := by
          simp only [Handler.at_stepNum]; omega
        by_cases h : p = 0
        · rw [if_pos h, if_pos (this.mpr h)]
        · rw [if_neg h, if_neg (fun h' => h (this.mp h'))]; rfl
      cases p with
      | zero =>
        rw [if_pos rfl] at hstep
        have hb := bump hstep
        have hz : zn (n :: ns) ((0, .prev) :: cs) = (zn ns cs).map ((0, .next) :: ·) := by
          simp [zn]
        rw [hz]
        exact ⟨hb.1, fun hn => hb.2 (by simpa using hn)⟩
      | succ p =>
        rw [if_neg (by omega)] at hstep
        have hz : zn (n :: ns) ((p + 1, .prev) :: cs) = some ((p, .prev) :: cs) := by simp [zn]
        rw [hz]
        refine ⟨fun cs' hcs => ?_, fun hn => by simp at hn⟩
        injection hcs with hcs
        subst hcs
        have ht := take p (hd.pt (((p + 1 : ℕ) : ℤ) - 1)) (by push_cast; ring_nf)
        refine ⟨_, ?_, ht.1, ht.2⟩
        rw [Inf.nextLoop, hinfo]
        simp only [hstep, ok]
        congr 3
        push_cast; ring_nf

/-- The numbers of steps, as natural numbers. -/
def Inf.dims (s : Inf K) : List ℕ := s.stepShape.map Int.toNat

theorem ready_of_ws {s : Inf K} (l : List ℕ) (h : ∀ i ∈ l, ∃ hd, s.h i = some hd ∧ WS hd) :
    Ready s l ((l.filterMap fun i => (s.h i).map (·.steps)).map Int.toNat) := by
  induction l with
  | nil => exact List.Forall₂.nil
  | cons i l ih =>
    obtain ⟨hd, hh, hws⟩ := h i (by simp)
    have : (i :: l).filterMap (fun i => (s.h i).map (·.steps)) =
        hd.steps :: l.filterMap (fun i => (s.h i).map (·.steps)) := by
      simp [List.filterMap_cons, hh]
    rw [this, List.map_cons]
    refine List.Forall₂.cons ⟨hd, hh, hws, ?_⟩ (ih fun j hj => h j (by simp [hj]))
    have := hws.steps
    omega

theorem Ready.pos {s : Inf K} {l ns : List ℕ} (h : Ready s l ns) : ∀ n ∈ ns, 1 ≤ n := by
  induction h with
  | nil => simp
  | cons h1 _ ih =>
    intro n hn
    rcases List.mem_cons.mp hn with rfl | hn
    · obtain ⟨hd, _, hws, e⟩ := h1
      have := hws.steps; omega
    · exact ih n hn

theorem Ready.prod_pos {s : Inf K} {l ns : List ℕ} (h : Ready s l ns) : 0 < ns.prod := by
  have := h.pos
  clear h
  induction ns with
  | nil => simp
  | cons n ns ih =>
    rw [List.prod_cons]
    exact Nat.mul_pos (this n (by simp)) (ih fun m hm => this m (by simp [hm]))

theorem placed_zero {s : Inf K} (l ns : List ℕ) (h : Ready s l ns)
    (h0 : ∀ i ∈ l, ∃ hd, s.h i = some hd ∧ hd.stepNum = 0 ∧ s.info i = some .next) :
    Placed s s l (cellAt ns 0) := by
  rw [cellAt_zero]
  induction h with
  | nil => exact List.Forall₂.nil
  | @cons i n l ns h1 _ ih =>
    refine List.Forall₂.cons ⟨?_, ?_⟩ (ih fun j hj => h0 j (by simp [hj]))
    · obtain ⟨hd, hh, hws, _⟩ := h1
      obtain ⟨hd', hh', e, _⟩ := h0 i (by simp)
      have : hd = hd' := by rw [hh] at hh'; injection hh'
      subst this
      have := hws.eq_at
      rw [e] at this
      simp [hh, this]
    · obtain ⟨_, _, _, e⟩ := h0 i (by simp)
      exact e

theorem nextStep_eq {s : Inf K} {last : ℕ} (h : s.stepping.getLast? = some last) :
    s.nextStep = Inf.nextLoop last s.stepping s := by
  simp [Inf.nextStep, h]

/-- The state after `r` calls of `next_step`. -/
theorem nexts_placed {s : Inf K} (hs : Inv s) (hne : s.stepping ≠ []) {ns : List ℕ} (hr : Ready s s.stepping ns)
    (h0 : Placed s s s.stepping (cellAt ns 0)) (r : ℕ) (hlt : r < ns.prod) :
    let t := (fun s : Inf K => s.nextStep.1)^[r] s
    Placed s t s.stepping (cellAt ns r) ∧ SameOff s s.stepping t ∧ Inv t ∧
    (r + 1 < ns.prod → t.nextStep.2 = none) ∧
    (r + 1 = ns.prod → ∃ s', t.nextStep = (Inf.resetSteps s').andThen (raise .stopStepping) ∧ s'.h = t.h ∧
      SameOff s s.stepping s') := by
  obtain ⟨last, hlast⟩ : ∃ last, s.stepping.getLast? = some last := by
    cases h : s.stepping.getLast? with
    | none => exact absurd (List.getLast?_eq_none_iff.mp h) hne
    | some x => exact ⟨x, rfl⟩
  have main : ∀ r, r < ns.prod → 
      Placed s ((fun s : Inf K => s.nextStep.1)^[r] s) s.stepping (cellAt ns r) ∧
      SameOff s s.stepping ((fun s : Inf K => s.nextStep.1)^[r] s) ∧ Inv ((fun s : Inf K => s.nextStep.1)^[r] s) := by
    intro r
    induction r with
    | zero => intro _; exact ⟨h0, SameOff.refl _ _, hs⟩
    | succ r ih =>
      intro hr1
      obtain ⟨hp, hoff, hinv⟩ := ih (by omega)
      rw [Function.iterate_succ_apply']
      have hstp := hoff.stepping
      have hz := zn_cellAt ns hr.pos r (by omega)
      rw [if_pos hr1] at hz
      obtain ⟨s', e1, e2, e3⟩ := (nextLoop_zn s last s.stepping ns (cellAt ns r) _ hs.stepping_nd hlast hr hp
        (cellAt_range ns hr.pos r)).1 _ hz
      rw [nextStep_eq (by rw [hstp]; exact hlast), hstp, e1]
      refine ⟨e2, hoff.trans e3, ?_⟩
      have := (nextStep_good hinv).1
      rw [nextStep_eq (by rw [hstp]; exact hlast), hstp, e1] at this
      exact this
  intro t
  obtain ⟨hp, hoff, hinv⟩ := main r hlt
  refine ⟨hp, hoff, hinv, fun h1 => ?_, fun h1 => ?_⟩
  · have hz := zn_cellAt ns hr.pos r hlt
    rw [if_pos h1] at hz
    obtain ⟨s', e1, _⟩ := (nextLoop_zn s last s.stepping ns (cellAt ns r) _ hs.stepping_nd hlast hr hp
      (cellAt_range ns hr.pos r)).1 _ hz
    rw [nextStep_eq (s := t) (by rw [hoff.stepping]; exact hlast), hoff.stepping, e1]
    rfl
  · have hz := zn_cellAt ns hr.pos r hlt
    rw [if_neg (by omega)] at hz
    obtain ⟨s', e1, e2, e3, _⟩ := (nextLoop_zn s last s.stepping ns (cellAt ns r) _ hs.stepping_nd hlast hr hp
      (cellAt_range ns hr.pos r)).2 hz
    refine ⟨s', ?_, e2, hoff.trans e3⟩
    rw [nextStep_eq (s := t) (by rw [hoff.stepping]; exact hlast), hoff.stepping, e1]

theorem Placed.stepNums {s0 s : Inf K} {l ns : List ℕ} {cs : List (ℕ × Dir)} (hr : Ready s0 l ns)
    (h : Placed s0 s l cs) :
    (l.filterMap fun i => (s.h i).map (·.stepNum)) = (cs.map Prod.fst).map (fun p : ℕ => (p : ℤ)) := by
  induction h generalizing ns with
  | nil => rfl
  | @cons i c l cs h1 _ ih =>
    cases hr with
    | cons hr1 hr2 =>
      obtain ⟨hd, hh, _⟩ := hr1
      have : s.h i = some (hd.at (c.1 : ℤ)) := by rw [h1.1, hh]; rfl
      simp [List.filterMap_cons, this, ih hr2]

theorem Ready.shape {s : Inf K} {l ns : List ℕ} (hr : Ready s l ns) :
    (l.filterMap fun i => (s.h i).map (·.steps)) = ns.map (fun n : ℕ => (n : ℤ)) := by
  induction hr with
  | nil => rfl
  | @cons i n l ns h1 _ ih =>
    obtain ⟨hd, hh, _, e⟩ := h1
    simp [List.filterMap_cons, hh, ih, e]

end
end Verif.Pie
