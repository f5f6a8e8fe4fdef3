import Verif.Pie.Grid
import Verif.Pie.ProperLemmas

/-!
# `do_grid`: helper lemmas
-/

set_option linter.unusedSectionVars false
set_option linter.unusedSimpArgs false

namespace Verif.Pie
variable {K : Type} [Field K] [LinearOrder K]

/-- An evaluation disturbs neither the stepping parameters nor the values of any parameter that is not varying. -/
structure Calm (c : Cfg K) (s s' : Inf K) : Prop where
  inv : Inv s'
  stepping : s'.stepping = s.stepping
  varying : s'.varying = s.varying
  info : s'.info = s.info
  h : ∀ j, s.status j = .stepping → s'.h j = s.h j
  read : ∀ j, s.status j ≠ .varying → s'.read c j = s.read c j

theorem Calm.refl {c : Cfg K} {s : Inf K} (hs : Inv s) : Calm c s s := ⟨hs, rfl, rfl, rfl, fun _ _ => rfl, fun _ _ => rfl⟩

theorem Calm.trans {c : Cfg K} {s s' s'' : Inf K} (hs : Inv s) (a : Calm c s s') (b : Calm c s' s'') : Calm c s s'' := by
  refine ⟨b.inv, b.stepping.trans a.stepping, b.varying.trans a.varying, b.info.trans a.info, fun j hj => ?_,
    fun j hj => ?_⟩
  · rw [b.h j, a.h j hj]
    rw [← a.inv.mem_stepping, a.stepping, hs.mem_stepping]; exact hj
  · rw [b.read j, a.read j hj]
    intro h
    apply hj
    rw [← a.inv.mem_varying, a.varying, hs.mem_varying] at h; exact h

theorem read_of_h {c : Cfg K} {s s' : Inf K} {j : ℕ} (h : s'.h j = s.h j) : s'.read c j = s.read c j := by
  simp [Inf.read, h]

theorem access_calm (c : Cfg K) {s : Inf K} (hs : Inv s) (i : ℕ) : Calm c s (s.access c i).1 := by
  rcases access_cases c hs i with ⟨_, h⟩ | ⟨hu, hn, s', h, hm⟩
  · rw [h]; exact Calm.refl hs
  · rw [h]
    have hother : ∀ j, j ≠ i → s'.h j = s.h j := fun j hj => by
      rw [hm.other j hj]; simp
    refine ⟨hm.inv, ?_, ?_, ?_, fun j hj => hother j ?_, fun j _ => ?_⟩
    · show s'.stepping = _; rw [hm.stepping]; simp [updList]
    · show s'.varying = _; rw [hm.varying]; simp [updList]
    · funext j; show s'.info j = _; rw [hm.info]; simp
    · rintro rfl; rw [hu] at hj; exact absurd hj (by decide)
    · by_cases hj : j = i
      · subst hj
        show s'.read c j = _
        simp [Inf.read, hm.self, hn]
      · exact read_of_h (hother j hj)

theorem calm_putValue (c : Cfg K) {s : Inf K} (hs : Inv s) {i : ℕ} {hd : Handler K} (hh : s.h i = some hd)
    (hst : hd.status = .varying) (v : K) : Calm c s (s.putValue i hd v) := by
  have hsi : s.status i = .varying := by rw [status_eq_of_h hh, hst]
  refine ⟨hs.putValue v (status_eq_of_h hh).symm (by simp [hst]), rfl, rfl, rfl, fun j hj => putValue_ne _ _ _ ?_,
    fun j hj => read_of_h (putValue_ne _ _ _ ?_)⟩
  · rintro rfl; rw [hsi] at hj; exact absurd hj (by decide)
  · rintro rfl; exact hj hsi

theorem setValueH_calm (c : Cfg K) {s : Inf K} (hs : Inv s) {i : ℕ} {hd : Handler K} (hh : s.h i = some hd) (v : K) :
    Calm c s (s.setValueH i hd v).1 := by
  unfold Inf.setValueH
  by_cases h : hd.status ≠ .varying
  · rw [if_pos h]; exact Calm.refl hs
  · rw [if_neg h]
    push Not at h
    split
    · split_ifs
      · exact calm_putValue c hs hh h v
      · exact Calm.refl hs
    · exact calm_putValue c hs hh h v

theorem unboundedSetH_calm (c : Cfg K) {s : Inf K} (hs : Inv s) {i : ℕ} {hd : Handler K} (hh : s.h i = some hd) (v : K) :
    Calm c s (s.unboundedSetH c i hd v).1 := by
  unfold Inf.unboundedSetH
  by_cases h : hd.status ≠ .varying
  · rw [if_pos h]; exact Calm.refl hs
  · rw [if_neg h]
    push Not at h
    split
    · exact Calm.refl hs
    · split
      · split_ifs
        · exact calm_putValue c hs hh h _
        · exact calm_putValue c hs hh h _
      · exact calm_putValue c hs hh h _

theorem andThen_calm {c : Cfg K} {s : Inf K} {r : Res (Inf K)} {f : Inf K → Res (Inf K)} (hs : Inv s)
    (h1 : Calm c s r.1) (h2 : ∀ s, Inv s → Calm c s (f s).1) : Calm c s (r.andThen f).1 := by
  obtain ⟨s', _ | e⟩ := r
  · exact h1.trans hs (h2 s' h1.inv)
  · exact h1

theorem accessAll_calm (c : Cfg K) (l : List ℕ) : ∀ {s : Inf K}, Inv s → Calm c s (Inf.accessAll c l s).1 := by
  induction l with
  | nil => intro s hs; exact Calm.refl hs
  | cons i l ih => intro s hs; exact andThen_calm hs (access_calm c hs i) fun s hs => ih hs

theorem accessAll_ok (c : Cfg K) (l : List ℕ) : ∀ {s : Inf K}, Inv s → (Inf.accessAll c l s).2 = none := by
  induction l with
  | nil => intro s _; rfl
  | cons i l ih =>
    intro s hs
    have h1 := (access_ok c hs i).1
    have h2 := access_calm c hs i
    unfold Inf.accessAll
    have : s.access c i = ok (s.access c i).1 := Prod.ext rfl h1
    rw [this]
    exact ih h2.inv

theorem probe_calm (c : Cfg K) {s : Inf K} (hs : Inv s) (p : Probe K) : Calm c s (s.probe c p).1 := by
  cases p with
  | setValue i v =>
    unfold Inf.probe
    dsimp only
    cases hh : s.h i with
    | none => exact Calm.refl hs
    | some hd => exact setValueH_calm c hs hh v
  | score vs =>
    have : ∀ (l : List (ℕ × K)) (s : Inf K), Inv s → Calm c s (Inf.setVaryingLoop l s).1 := by
      intro l
      induction l with
      | nil => intro s hs; exact Calm.refl hs
      | cons p l ih =>
        intro s hs
        obtain ⟨i, v⟩ := p
        unfold Inf.setVaryingLoop
        cases hh : s.h i with
        | none => exact Calm.refl hs
        | some hd => exact andThen_calm hs (setValueH_calm c hs hh v) ih
    exact this _ s hs
  | scoreUnbounded vs =>
    have : ∀ (l : List (ℕ × K)) (s : Inf K), Inv s → Calm c s (Inf.unboundedLoop c l s).1 := by
      intro l
      induction l with
      | nil => intro s hs; exact Calm.refl hs
      | cons p l ih =>
        intro s hs
        obtain ⟨i, v⟩ := p
        unfold Inf.unboundedLoop
        cases hh : s.h i with
        | none => exact Calm.refl hs
        | some hd => exact andThen_calm hs (unboundedSetH_calm c hs hh v) ih
    exact this _ s hs

theorem probes_calm (c : Cfg K) (l : List (Probe K)) : ∀ {s : Inf K}, Inv s → Calm c s (Inf.probes c l s).1 := by
  induction l with
  | nil => intro s hs; exact Calm.refl hs
  | cons p l ih => intro s hs; exact andThen_calm hs (probe_calm c hs p) fun s hs => ih hs

theorem eval_calm (e : GridEnv K) (n : ℕ) {s : Inf K} (hs : Inv s) : Calm e.cfg s (e.eval n s).1 := by
  unfold GridEnv.eval
  split_ifs with h
  · have := probes_calm e.cfg (e.opt n s).probes hs
    dsimp only
    generalize Inf.probes e.cfg (e.opt n s).probes s = r at this ⊢
    obtain ⟨s', _ | x⟩ := r
    · dsimp only
      split <;> exact this
    · exact this
  · have := accessAll_calm e.cfg e.cfg.params hs
    generalize Inf.accessAll e.cfg e.cfg.params s = r at this ⊢
    obtain ⟨s', _ | x⟩ := r <;> exact this

theorem Placed.calm {c : Cfg K} {s0 s s' : Inf K} {cs} (hs : Inv s) (hc : Calm c s s')
    (h : Placed s0 s s.stepping cs) : Placed s0 s' s.stepping cs :=
  Placed.of_sameOn h (fun j hj => hc.h j ((hs.mem_stepping j).mp hj)) (fun j _ => by rw [hc.info])

/-- What stays the same, relative to the starting state `s0`, while the grid is traversed. -/
structure Kept (c : Cfg K) (s0 s : Inf K) : Prop where
  inv : Inv s
  stepping : s.stepping = s0.stepping
  varying : s.varying = s0.varying
  read : ∀ j, s0.status j ≠ .varying → s0.status j ≠ .stepping → s.read c j = s0.read c j

theorem Kept.refl {c : Cfg K} {s : Inf K} (hs : Inv s) : Kept c s s := ⟨hs, rfl, rfl, fun _ _ _ => rfl⟩

theorem Kept.calm {c : Cfg K} {s0 s s' : Inf K} (h0 : Inv s0) (h : Kept c s0 s) (hc : Calm c s s') : Kept c s0 s' := by
  refine ⟨hc.inv, hc.stepping.trans h.stepping, hc.varying.trans h.varying, fun j h1 h2 => ?_⟩
  rw [hc.read j, h.read j h1 h2]
  intro e
  apply h1
  rw [← h.inv.mem_varying, h.varying, h0.mem_varying] at e
  exact e

theorem Kept.sameOff {c : Cfg K} {s0 s s' : Inf K} (h0 : Inv s0) (h : Kept c s0 s) (hi : Inv s')
    (hc : SameOff s s0.stepping s') : Kept c s0 s' := by
  refine ⟨hi, hc.stepping.trans h.stepping, hc.varying.trans h.varying, fun j h1 h2 => ?_⟩
  rw [← h.read j h1 h2]
  apply read_of_h
  apply hc.h
  rwa [h0.mem_stepping]

theorem npIndex_self {shape ind : List ℤ} (h : inGrid ind shape) : npIndex shape ind = some ind := by
  unfold inGrid at h
  induction h with
  | nil => rfl
  | cons h1 _ ih => simp [npIndex, npIndex1, h1, ih]

/-- The index tuple at rank `r`. -/
def cellIx (ns : List ℕ) (r : ℕ) : List ℤ := ((cellAt ns r).map Prod.fst).map (fun p : ℕ => (p : ℤ))

theorem inGrid_cast {ps ns : List ℕ} : inGrid (ps.map (fun p : ℕ => (p : ℤ))) (ns.map (fun n : ℕ => (n : ℤ))) ↔
    List.Forall₂ (fun n p => p < n) ns ps := by
  unfold inGrid
  rw [List.forall₂_map_left_iff, List.forall₂_map_right_iff]
  constructor
  · intro h
    refine List.Forall₂.flip (h.imp fun a b hab => ?_)
    show a < b
    omega
  · intro h
    refine (List.Forall₂.flip h).imp fun a b hab => ?_
    have hab' : a < b := hab
    omega

theorem inGrid_nat {t : List ℤ} {ns : List ℕ} (ht : inGrid t (ns.map (fun n : ℕ => (n : ℤ)))) :
    ∃ ps : List ℕ, t = ps.map (fun p : ℕ => (p : ℤ)) := by
  refine ⟨t.map Int.toNat, ?_⟩
  rw [List.map_map]
  have : ∀ x ∈ t, 0 ≤ x := by
    intro x hx
    unfold inGrid at ht
    generalize ns.map (fun n : ℕ => (n : ℤ)) = ns at ht
    induction ht with
    | nil => simp at hx
    | cons h1 _ ih =>
      rcases List.mem_cons.mp hx with rfl | hx
      · exact h1.1
      · exact ih hx
  conv_lhs => rw [← List.map_id t]
  apply List.map_congr_left
  intro x hx
  have := this x hx
  simp only [id_eq, Function.comp_apply]
  omega

theorem cellIx_inGrid {ns : List ℕ} (hns : ∀ n ∈ ns, 1 ≤ n) (r : ℕ) :
    inGrid (cellIx ns r) (ns.map (fun n : ℕ => (n : ℤ))) := by
  unfold cellIx
  rw [inGrid_cast, List.forall₂_map_right_iff]
  exact cellAt_range ns hns r

theorem cellIx_inj {ns : List ℕ} (hns : ∀ n ∈ ns, 1 ≤ n) {r r' : ℕ} (h : r < ns.prod) (h' : r' < ns.prod)
    (e : cellIx ns r = cellIx ns r') : r = r' := by
  have inj : Function.Injective (List.map (fun p : ℕ => (p : ℤ))) :=
    List.map_injective_iff.mpr fun a b h => by simpa using h
  rw [← rank_cellAt _ hns r h, ← rank_cellAt _ hns r' h', inj e]

theorem cellIx_surj {ns : List ℕ} {t : List ℤ} (ht : inGrid t (ns.map (fun n : ℕ => (n : ℤ)))) :
    ∃ r, r < ns.prod ∧ cellIx ns r = t := by
  obtain ⟨ps, rfl⟩ := inGrid_nat ht
  rw [inGrid_cast] at ht
  exact ⟨rank ns ps, rank_lt _ _ ht, by rw [cellIx, cellAt_rank _ _ ht]⟩

/-- The grid's contents are determined by the record of evaluations. -/
structure Consistent (mx vary vargrid : Bool) (g : GridState K) : Prop where
  vals : ∀ t, g.values t = (g.evals.find? fun p => decide (p.1 = t)).map Prod.snd
  none_opt : vary = false → g.opt = none
  opt_none : vary = true → g.opt = none → g.evals = []
  opt_some : ∀ v t, g.opt = some (v, t) → ∃ later earlier, g.evals = later ++ (t, v) :: earlier ∧
    (∀ p ∈ later, if mx then p.2 ≤ v else v ≤ p.2) ∧ ∀ p ∈ earlier, if mx then p.2 < v else v < p.2

theorem Consistent.empty (mx vary vargrid : Bool) : Consistent mx vary vargrid ({} : GridState K) :=
  ⟨fun _ => rfl, fun _ => rfl, fun _ _ => rfl, fun v t h => by simp at h⟩

theorem Consistent.store {mx vary vargrid : Bool} {g g' : GridState K} (h : Consistent mx vary vargrid g)
    {shape ind : List ℤ} (hin : inGrid ind shape) {v : K × List K}
    (hg : g.store mx vary vargrid shape ind v = some g') :
    Consistent mx vary vargrid g' ∧ g'.evals = (ind, v.1) :: g.evals := by
  unfold GridState.store at hg
  rw [npIndex_self hin, Option.map_some, Option.some.injEq] at hg
  have hvals : ∀ t, Function.update g.values ind (some v.1) t =
      (((ind, v.1) :: g.evals).find? fun p => decide (p.1 = t)).map Prod.snd := by
    intro t
    by_cases ht : t = ind
    · subst ht; simp
    · have : ind ≠ t := fun e => ht e.symm
      simp [ht, this, h.vals t]
  cases vary with
  | false =>
    simp only [Bool.false_eq_true, if_false] at hg
    subst hg
    refine ⟨⟨hvals, h.none_opt, fun e => by simp at e, fun w t e => ?_⟩, rfl⟩
    rw [show g.opt = none from h.none_opt rfl] at e; simp at e
  | true =>
    simp only [if_true] at hg
    have key : ∀ g1 : GridState K, (g1 = match g.opt with
        | none => ({ g with values := Function.update g.values ind (some v.1), evals := (ind, v.1) :: g.evals, opt := some (v.1, ind) } : GridState K)
        | some (o, _) =>
          if (if mx = true then v.1 > o else v.1 < o) then { g with values := Function.update g.values ind (some v.1), evals := (ind, v.1) :: g.evals, opt := some (v.1, ind) }
          else { g with values := Function.update g.values ind (some v.1), evals := (ind, v.1) :: g.evals }) →
        Consistent mx true vargrid g1 ∧ g1.evals = (ind, v.1) :: g.evals := by
      intro g1 e
      cases ho : g.opt with
      | none =>
        rw [ho] at e
        dsimp only at e
        subst e
        have := h.opt_none rfl ho
        refine ⟨⟨hvals, fun e => by simp at e, fun _ e => by simp at e, fun w t e => ?_⟩, rfl⟩
        simp only [Option.some.injEq, Prod.mk.injEq] at e
        obtain ⟨rfl, rfl⟩ := e
        exact ⟨[], [], by simp [this], by simp, by simp⟩
      | some o =>
        obtain ⟨o, ot⟩ := o
        rw [ho] at e
        dsimp only at e
        obtain ⟨later, earlier, e1, e2, e3⟩ := h.opt_some o ot ho
        by_cases hb : (if mx = true then v.1 > o else v.1 < o)
        · rw [if_pos hb] at e
          subst e
          refine ⟨⟨hvals, fun e => by simp at e, fun _ e => by simp at e, fun w t e => ?_⟩, rfl⟩
          simp only [Option.some.injEq, Prod.mk.injEq] at e
          obtain ⟨rfl, rfl⟩ := e
          refine ⟨[], g.evals, by simp, by simp, fun p hp => ?_⟩
          rw [e1] at hp
          cases mx with
          | true =>
            simp only [if_true] at hb e2 e3 ⊢
            rcases List.mem_append.mp hp with hp | hp
            · exact lt_of_le_of_lt (e2 p hp) hb
            · rcases List.mem_cons.mp hp with rfl | hp
              · exact hb
              · exact lt_trans (e3 p hp) hb
          | false =>
            simp only [Bool.false_eq_true, if_false] at hb e2 e3 ⊢
            rcases List.mem_append.mp hp with hp | hp
            · exact lt_of_lt_of_le hb (e2 p hp)
            · rcases List.mem_cons.mp hp with rfl | hp
              · exact hb
              · exact lt_trans hb (e3 p hp)
        · rw [if_neg hb] at e
          subst e
          refine ⟨⟨hvals, fun e => by simp at e, fun _ e => ?_, fun w t e => ?_⟩, rfl⟩
          · simp at e
          · simp only [Option.some.injEq, Prod.mk.injEq] at e
            obtain ⟨rfl, rfl⟩ := e
            refine ⟨(ind, v.1) :: later, earlier, by simp [e1], fun p hp => ?_, e3⟩
            rcases List.mem_cons.mp hp with rfl | hp
            · cases mx with
              | true => simpa using hb
              | false => simpa using hb
            · exact e2 p hp
    cases vargrid with
    | false =>
      simp only [Bool.false_eq_true, if_false] at hg
      exact key g' hg.symm
    | true =>
      simp only [if_true] at hg
      obtain ⟨k1, k2⟩ := key _ rfl
      subst hg
      exact ⟨⟨k1.1, k1.2, k1.3, k1.4⟩, k2⟩

/-- The main loop lemma: started at rank `r` of the traversal, with enough fuel, the loop ends, and if it raised
nothing it evaluated exactly the cells of rank `r` and above, in order, each with the stepping parameters placed at that
cell; and the stepping parameters end up back at the start. -/
theorem gridLoop_spec (e : GridEnv K) (vargrid : Bool) {s0 : Inf K} (h0 : Inv s0) {ns : List ℕ}
    (hr : Ready s0 s0.stepping ns) (hne : s0.stepping ≠ []) : ∀ (m r : ℕ) (s : Inf K) (g : GridState K) (n fuel : ℕ),
    0 < m → r + m = ns.prod → m ≤ fuel → Kept e.cfg s0 s → Placed s0 s s0.stepping (cellAt ns r) →
    Consistent e.maximize (decide (s0.varying ≠ [])) vargrid g →
    ∃ s' g' x, gridLoop e vargrid (ns.map (fun n : ℕ => (n : ℤ))) fuel n s g = some (s', g', x) ∧
      Consistent e.maximize (decide (s0.varying ≠ [])) vargrid g' ∧
      (x = none →
        Kept e.cfg s0 s' ∧ (∀ j ∈ s0.stepping, s'.h j = (s0.h j).map Handler.rst ∧ s'.info j = some .next) ∧
        ∃ new : List (List ℤ × K), g'.evals = new ++ g.evals ∧ new.length = m ∧
          ∀ k (hk : k < new.reverse.length), ∃ t v p, Kept e.cfg s0 t ∧
            Placed s0 t s0.stepping (cellAt ns (r + k)) ∧ (e.eval (n + k) t).2 = .ok (v, p) ∧
            new.reverse[k] = (cellIx ns (r + k), v)) ∧
      (x ≠ none → ∃ k t, k < m ∧ Kept e.cfg s0 t ∧ (e.eval (n + k) t).2 = .error (x.getD .param)) := by
  intro m
  induction m with
  | zero => intro _ _ _ _ _ h; omega
  | succ m ih =>
    intro r s g n fuel _ hm hfuel hk hp hg
    obtain ⟨fuel, rfl⟩ : ∃ f, fuel = f + 1 := ⟨fuel - 1, by omega⟩
    have hpos := hr.pos
    have hrlt : r < ns.prod := by omega
    have hcalm := eval_calm e n hk.inv
    have hind : s.stepNums = cellIx ns r := by
      unfold Inf.stepNums
      rw [hk.stepping]
      exact Placed.stepNums hr hp
    have hvary : decide (s.varying ≠ []) = decide (s0.varying ≠ []) := by rw [hk.varying]
    cases hev : (e.eval n s).2 with
    | error x =>
      refine ⟨(e.eval n s).1, g, some x, ?_, hg, fun h => by simp at h, fun _ => ⟨0, s, by omega, hk, ?_⟩⟩
      · unfold gridLoop
        have : e.eval n s = ((e.eval n s).1, .error x) := Prod.ext rfl hev
        rw [this]
      · simpa using hev
    | ok v =>
      have hev' : e.eval n s = ((e.eval n s).1, .ok v) := Prod.ext rfl hev
      set s1 := (e.eval n s).1 with hs1
      have hin := cellIx_inGrid hpos r
      obtain ⟨g1, hst⟩ : ∃ g1, g.store e.maximize (decide (s0.varying ≠ [])) vargrid (ns.map (fun n : ℕ => (n : ℤ)))
          (cellIx ns r) v = some g1 := by
        unfold GridState.store
        rw [npIndex_self hin]
        exact ⟨_, rfl⟩
      obtain ⟨hg1, hev1⟩ := hg.store hin hst
      have hk1 := hk.calm h0 hcalm
      have hp1 : Placed s0 s1 s0.stepping (cellAt ns r) := by
        have := Placed.calm (cs := cellAt ns r) hk.inv hcalm (by rw [hk.stepping]; exact hp)
        rwa [hk.stepping] at this
      obtain ⟨last, hlast⟩ : ∃ last, s0.stepping.getLast? = some last := by
        cases h : s0.stepping.getLast? with
        | none => exact absurd (List.getLast?_eq_none_iff.mp h) hne
        | some x => exact ⟨x, rfl⟩
      have hnext : s1.nextStep = Inf.nextLoop last s0.stepping s1 := by
        rw [nextStep_eq (last := last) (by rw [hk1.stepping]; exact hlast), hk1.stepping]
      have hzn := nextLoop_zn s0 last s0.stepping ns (cellAt ns r) s1 h0.stepping_nd hlast hr hp1 (cellAt_range ns hpos r)
      have hznc := zn_cellAt ns hpos r hrlt
      have hstep : gridLoop e vargrid (ns.map (fun n : ℕ => (n : ℤ))) (fuel + 1) n s g =
          match s1.nextStep with
          | (s, none) => gridLoop e vargrid (ns.map (fun n : ℕ => (n : ℤ))) fuel (n + 1) s g1
          | (s, some .stopStepping) => some (s, g1, none)
          | (s, some x) => some (s, g1, some x) := by
        conv_lhs => unfold gridLoop
        rw [hev', hind, hvary]
        dsimp only
        rw [hst]
        rfl
      by_cases hlast' : m = 0
      · subst hlast'
        rw [if_neg (by omega)] at hznc
        obtain ⟨s2, e1, e2, e3, e4⟩ := hzn.2 hznc
        have hreset : s2.resetSteps = ok (resetState s2.stepping s2) := by
          apply resetLoop_eq
          intro j hj
          rw [e3.stepping] at hj
          have : s2.status j = s1.status j := by simp only [Inf.status, e2]
          rw [this]
          exact (hk1.inv.mem_stepping j).mp hj
        have hns : s1.nextStep = (resetState s2.stepping s2, some .stopStepping) := by
          rw [hnext, e1, hreset]; rfl
        have hinv2 : Inv (resetState s2.stepping s2) := by
          have hg := step_good e.cfg hk1.inv .nextStep
          have h1 : (s1.step e.cfg .nextStep).1 = resetState s2.stepping s2 := by
            show s1.nextStep.1 = _
            rw [hns]
          rw [h1] at hg
          exact hg.1
        refine ⟨resetState s2.stepping s2, g1, none, ?_, hg1, fun _ => ⟨?_, ?_, ?_⟩, fun h => absurd rfl h⟩
        · rw [hstep, hns]
        · refine hk1.sameOff h0 hinv2 ⟨fun j hj => ?_, fun j hj => ?_, e3.fixed, e3.varying, e3.stepping⟩
          · have hj' : j ∉ s2.stepping := by rw [e3.stepping, hk1.stepping]; exact hj
            simp [resetState, hj', e2]
          · have hj' : j ∉ s2.stepping := by rw [e3.stepping, hk1.stepping]; exact hj
            simp [resetState, hj', e3.info j hj]
        · intro j hj
          have hj' : j ∈ s2.stepping := by rw [e3.stepping, hk1.stepping]; exact hj
          refine ⟨?_, by simp [resetState, hj']⟩
          simp only [resetState, hj', if_true, e2]
          obtain ⟨k, hk⟩ : ∃ k : ℤ, s1.h j = (s0.h j).map (·.at k) := by
            clear e1 e2 e3 e4 hznc hzn hind
            revert hp1
            generalize cellAt ns r = cs
            generalize s0.stepping = l at hj
            intro hp1
            induction hp1 with
            | nil => simp at hj
            | @cons i c l cs a b ih =>
              rcases List.mem_cons.mp hj with rfl | hj
              · exact ⟨c.1, a.1⟩
              · exact ih hj
          rw [hk, Option.map_map]
          rfl
        · refine ⟨[(cellIx ns r, v.1)], by simpa using hev1, rfl, fun k hk' => ?_⟩
          have : k = 0 := by simp at hk'; omega
          subst this
          exact ⟨s, v.1, v.2, hk, by simpa using hp, by simpa using hev, by simp⟩
      · rw [if_pos (by omega)] at hznc
        obtain ⟨s2, e1, e2, e3⟩ := hzn.1 _ hznc
        have hns : s1.nextStep = (s2, none) := by rw [hnext, e1]; rfl
        have hinv2 : Inv s2 := by
          have hg := step_good e.cfg hk1.inv .nextStep
          have h1 : (s1.step e.cfg .nextStep).1 = s2 := by
            show s1.nextStep.1 = _
            rw [hns]
          rw [h1] at hg
          exact hg.1
        have hk2 := hk1.sameOff h0 hinv2 e3
        obtain ⟨s', g', x, f1, f2, f3, f4⟩ := ih (r + 1) s2 g1 (n + 1) fuel (by omega) (by omega) (by omega) hk2 e2 hg1
        refine ⟨s', g', x, ?_, f2, fun hx => ?_, fun hx => ?_⟩
        · rw [hstep, hns]; exact f1
        · obtain ⟨a, b, new, c1, c2, c3⟩ := f3 hx
          refine ⟨a, b, new ++ [(cellIx ns r, v.1)], by rw [c1, hev1]; simp, by simp [c2], fun k hk' => ?_⟩
          cases k with
          | zero => exact ⟨s, v.1, v.2, hk, by simpa using hp, by simpa using hev, by simp⟩
          | succ k =>
            have hk2 : k < new.reverse.length := by simpa using hk'
            obtain ⟨t, w, p, d1, d2, d3, d4⟩ := c3 k hk2
            refine ⟨t, w, p, d1, by rw [show r + (k + 1) = r + 1 + k by omega]; exact d2,
              by rw [show n + (k + 1) = n + 1 + k by omega]; exact d3, ?_⟩
            rw [show r + (k + 1) = r + 1 + k by omega, ← d4]
            simp
        · obtain ⟨k, t, a, b, c⟩ := f4 hx
          exact ⟨k + 1, t, by omega, b, by rw [show n + (k + 1) = n + 1 + k by omega]; exact c⟩

end Verif.Pie
