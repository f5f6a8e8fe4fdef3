import Verif.Pie.ZigZag
import Verif.Pie.StepProps

/-!
# C04, C05: the zig-zag traversal of the grid of stepping parameters
-/

set_option linter.unusedSectionVars false

namespace Verif.Pie
variable {K : Type} [Field K] [LinearOrder K]

/-- A proper set-up at its first step is well-stepped. -/
theorem Handler.proper.ws [IsStrictOrderedRing K] {hd : Handler K} (h : hd.proper) (hst : hd.status = .stepping)
    (h0 : hd.stepNum = 0) (hv : hd.value = some hd.slo) : WS hd := by
  unfold Handler.proper at h
  have hv' : hd.value = some (hd.pt hd.stepNum) := by rw [h0, hd.pt_zero, hv]
  cases hty : hd.stype with
  | lin =>
    rw [hty] at h
    obtain ⟨h1, h2⟩ := h
    refine ⟨hst, by omega, by omega, by omega, fun _ => by simp [h2], fun e => ?_, fun _ => ?_, hv'⟩
    · rw [hty] at e; exact absurd e (by decide)
    · have : ((hd.steps : K) - 1) ≠ 0 := by
        have : (1 : K) < hd.steps := by exact_mod_cast (by omega : 1 < hd.steps)
        exact sub_ne_zero.mpr this.ne'
      simp only [Handler.pt, hty, h2, Option.getD_some]
      push_cast
      field_simp
      ring
  | log =>
    rw [hty] at h
    obtain ⟨h1, h2, h3, h4⟩ := h
    refine ⟨hst, h1, by omega, by omega, fun e => ?_, fun _ hn => ?_, fun hn => ?_, hv'⟩
    · rw [hty] at e; exact absurd e (by decide)
    · intro e
      have := h4 hn
      rw [e, zero_zpow _ (by omega)] at this
      exact div_ne_zero h3 h2 this.symm
    · simp only [Handler.pt, hty, h4 hn]
      field_simp

/-- **C04.** From a reachable state with at least one stepping parameter, all properly set up and at their first
steps: the first `N-1` calls of `next_step` succeed, where `N` is the number of grid points; among the `N` states
visited every index tuple of the grid occurs exactly once; and the `N`-th call raises `StopStepping` and leaves the
state exactly as it was at the start (apart from the record of notifications), so the next traversal is identical. -/
theorem C04_zigzag [IsStrictOrderedRing K] (c : Cfg K) (s : Inf K) (hs : Reachable c s) (hne : s.stepping ≠ [])
    (hp : s.allProper) (h0 : s.atStart) :
    (∀ r, r + 1 < s.gridSize → (s.nexts r).nextStep.2 = none) ∧
    (∀ r, r < s.gridSize → inGrid (s.nexts r).stepNums s.stepShape) ∧
    (∀ t, inGrid t s.stepShape → ∃! r, r < s.gridSize ∧ (s.nexts r).stepNums = t) ∧
    ∃ log, (s.nexts (s.gridSize - 1)).nextStep = ({ s with changes := log }, some .stopStepping) := by
  have hinv := hs.inv
  have hws : ∀ i ∈ s.stepping, ∃ hd, s.h i = some hd ∧ WS hd := by
    intro i hi
    obtain ⟨hd, hh, e1, e2, _⟩ := h0 i hi
    refine ⟨hd, hh, (hp i hi hd hh).ws ?_ e1 e2⟩
    rw [← status_eq_of_h hh]
    exact (hinv.mem_stepping i).mp hi
  have hr : Ready s s.stepping s.dims := ready_of_ws _ hws
  have hpl : Placed s s s.stepping (cellAt s.dims 0) := placed_zero _ _ hr fun i hi => by
    obtain ⟨hd, hh, e1, e2, e3⟩ := h0 i hi
    exact ⟨hd, hh, e1, e3⟩
  have hsize : s.gridSize = s.dims.prod := rfl
  have hshape : s.stepShape = s.dims.map (fun n : ℕ => (n : ℤ)) := hr.shape
  have hnp := fun r hlt => nexts_placed hinv hne hr hpl r hlt
  have hnums : ∀ r, r < s.gridSize → (s.nexts r).stepNums = ((cellAt s.dims r).map Prod.fst).map (fun p : ℕ => (p : ℤ)) := by
    intro r hlt
    obtain ⟨h1, h2, _⟩ := hnp r hlt
    have : (s.nexts r).stepNums = s.stepping.filterMap fun i => ((s.nexts r).h i).map (·.stepNum) := by
      unfold Inf.stepNums
      rw [show (s.nexts r).stepping = s.stepping from h2.stepping]
    rw [this]
    exact Placed.stepNums hr h1
  have castG : ∀ ps ns : List ℕ, inGrid (ps.map (fun p : ℕ => (p : ℤ))) (ns.map (fun n : ℕ => (n : ℤ))) ↔
      List.Forall₂ (fun n p => p < n) ns ps := by
    intro ps ns
    unfold inGrid
    rw [List.forall₂_map_left_iff, List.forall₂_map_right_iff]
    constructor
    · intro h
      refine List.Forall₂.flip (h.imp fun a b hab => ?_)
      show a < b
      omega
    · intro h
      refine (List.Forall₂.flip h).imp fun a b hab => ?_
      have hab' : a < b := hab
      omega
  refine ⟨fun r hr1 => (hnp r (by omega)).2.2.2.1 hr1, fun r hlt => ?_, fun t ht => ?_, ?_⟩
  · rw [hnums r hlt, hshape, castG]
    have := cellAt_range s.dims hr.pos r
    rw [List.forall₂_map_right_iff]
    exact this
  · rw [hshape] at ht
    -- t consists of naturals
    obtain ⟨ps, rfl⟩ : ∃ ps : List ℕ, t = ps.map (fun p : ℕ => (p : ℤ)) := by
      refine ⟨t.map Int.toNat, ?_⟩
      rw [List.map_map]
      have : ∀ x ∈ t, 0 ≤ x := by
        intro x hx
        unfold inGrid at ht
        generalize s.dims.map (fun n : ℕ => (n : ℤ)) = ns at ht
        clear hshape
        induction ht with
        | nil => simp at hx
        | cons h1 _ ih =>
          rcases List.mem_cons.mp hx with rfl | hx
          · exact h1.1
          · exact ih hx
      conv_lhs => rw [← List.map_id t]
      apply List.map_congr_left
      intro x hx
      have := this x hx
      simp only [id_eq, Function.comp_apply]
      omega
    rw [castG] at ht
    have inj : Function.Injective (List.map (fun p : ℕ => (p : ℤ))) :=
      List.map_injective_iff.mpr fun a b h => by simpa using h
    refine ⟨rank s.dims ps, ⟨rank_lt _ _ ht, ?_⟩, ?_⟩
    · rw [hnums (rank s.dims ps) (rank_lt _ _ ht), cellAt_rank _ _ ht]
    · rintro r ⟨hlt, e⟩
      rw [hnums r hlt] at e
      rw [← inj e, rank_cellAt _ hr.pos r hlt]
  · have hpos : 0 < s.gridSize := hr.prod_pos
    obtain ⟨h1, h2, h3, _, h5⟩ := hnp (s.gridSize - 1) (by omega)
    obtain ⟨s', e1, e2, e3⟩ := h5 (by omega)
    have hreset : s'.resetSteps = ok (resetState s'.stepping s') := by
      apply resetLoop_eq
      intro j hj
      rw [e3.stepping] at hj
      have : s'.status j = ((fun s : Inf K => s.nextStep.1)^[s.gridSize - 1] s).status j := by
        simp only [Inf.status, e2]
      rw [this]
      exact (h3.mem_stepping j).mp (by rw [h2.stepping]; exact hj)
    rw [hreset] at e1
    refine ⟨(resetState s'.stepping s').changes, ?_⟩
    show ((fun s : Inf K => s.nextStep.1)^[s.gridSize - 1] s).nextStep = _
    rw [e1]
    simp only [ok, Res.andThen_ok, raise, Prod.mk.injEq, and_true]
    have eh : (resetState s'.stepping s').h = s.h := by
      funext j
      simp only [resetState, e3.stepping]
      by_cases hj : j ∈ s.stepping
      · rw [if_pos hj]
        obtain ⟨hd, hh, e4, e5, _⟩ := h0 j hj
        obtain ⟨hd', hh', hw⟩ := hws j hj
        have : hd' = hd := by rw [hh] at hh'; injection hh' with hh'; exact hh'.symm
        subst this
        -- position of j at the last point
        obtain ⟨k, hk⟩ : ∃ k : ℤ, s'.h j = some (hd'.at k) := by
          rw [e2]
          clear e1 e2 e3 h5 hreset castG hnums hnp hpl
          generalize hcs : cellAt s.dims (s.gridSize - 1) = cs at h1
          clear hcs
          revert h1 hj
          generalize s.stepping = l
          intro hj h1
          induction h1 with
          | nil => simp at hj
          | @cons i c l cs a b ih =>
            rcases List.mem_cons.mp hj with rfl | hj
            · exact ⟨c.1, by rw [a.1, hh]; rfl⟩
            · exact ih hj
        rw [hk, hh]
        simp only [Option.map_some, Handler.rst_eq_at, Handler.at_at]
        rw [← e4, hw.eq_at]
      · rw [if_neg hj]
        exact e3.h j hj
    have ei : (resetState s'.stepping s').info = s.info := by
      funext j
      simp only [resetState, e3.stepping]
      by_cases hj : j ∈ s.stepping
      · rw [if_pos hj]
        obtain ⟨_, _, _, _, e⟩ := h0 j hj
        exact e.symm
      · rw [if_neg hj]
        exact e3.info j hj
    have e6 := e3.fixed
    have e7 := e3.varying
    have e8 := e3.stepping
    have : resetState s'.stepping s' =
        { h := (resetState s'.stepping s').h, fixed := s'.fixed, varying := s'.varying, stepping := s'.stepping,
          info := (resetState s'.stepping s').info, changes := (resetState s'.stepping s').changes } := rfl
    rw [this, eh, ei, e6, e7, e8]

/-- **C05.** Every successful `next_step()` from any reachable state changes exactly one stepping parameter, by
exactly one index; every other parameter's handler (value, index, status, ...) and all status lists are untouched. -/
theorem C05_neighbours (c : Cfg K) (s s' : Inf K) (hs : Reachable c s) (h : s.nextStep = (s', none)) :
    ∃ i hd hd', i ∈ s.stepping ∧ s.h i = some hd ∧ s'.h i = some hd' ∧
      (hd'.stepNum = hd.stepNum + 1 ∨ hd'.stepNum = hd.stepNum - 1) ∧
      (∀ j, j ≠ i → s'.h j = s.h j) ∧
      s'.fixed = s.fixed ∧ s'.varying = s.varying ∧ s'.stepping = s.stepping := by
  have hinv := hs.inv
  have next_cases : ∀ (t : Inf K) (i : ℕ), (∃ hd v, t.h i = some hd ∧
      t.nextStepP i = ok (t.putValue i { hd with stepNum := hd.stepNum + 1 } v)) ∨
      t.nextStepP i = raise .paramRange t ∨ ∃ t' e, e ≠ .paramRange ∧ t.nextStepP i = raise e t' := by
    intro t i
    unfold Inf.nextStepP
    split
    · exact Or.inr (Or.inr ⟨_, _, by decide, rfl⟩)
    · rename_i hd hh
      split_ifs
      · exact Or.inr (Or.inr ⟨_, _, by decide, rfl⟩)
      · exact Or.inr (Or.inl rfl)
      · dsimp only
        split_ifs
        · exact Or.inl ⟨hd, _, hh, rfl⟩
        · split
          · exact Or.inr (Or.inr ⟨_, _, by decide, rfl⟩)
          · split
            · split
              · exact Or.inr (Or.inr ⟨_, _, by decide, rfl⟩)
              · exact Or.inl ⟨hd, _, hh, rfl⟩
            · exact Or.inl ⟨hd, _, hh, rfl⟩
  have prev_cases : ∀ (t : Inf K) (i : ℕ), (∃ hd v, t.h i = some hd ∧
      t.prevStepP i = ok (t.putValue i { hd with stepNum := hd.stepNum - 1 } v)) ∨
      t.prevStepP i = raise .paramRange t ∨ ∃ t' e, e ≠ .paramRange ∧ t.prevStepP i = raise e t' := by
    intro t i
    unfold Inf.prevStepP
    split
    · exact Or.inr (Or.inr ⟨_, _, by decide, rfl⟩)
    · rename_i hd hh
      split_ifs
      · exact Or.inr (Or.inr ⟨_, _, by decide, rfl⟩)
      · exact Or.inr (Or.inl rfl)
      · dsimp only
        split_ifs
        · exact Or.inl ⟨hd, _, hh, rfl⟩
        · split
          · exact Or.inr (Or.inr ⟨_, _, by decide, rfl⟩)
          · split
            · split
              · exact Or.inr (Or.inr ⟨_, _, by decide, rfl⟩)
              · exact Or.inl ⟨hd, _, hh, rfl⟩
            · exact Or.inl ⟨hd, _, hh, rfl⟩
  have key : ∀ (last : ℕ) (l : List ℕ) (t : Inf K), t.h = s.h → t.fixed = s.fixed → t.varying = s.varying →
      t.stepping = s.stepping → last ∈ l → (∀ i ∈ l, i ∈ s.stepping) → Inf.nextLoop last l t = (s', none) →
      ∃ i hd hd', i ∈ s.stepping ∧ s.h i = some hd ∧ s'.h i = some hd' ∧
      (hd'.stepNum = hd.stepNum + 1 ∨ hd'.stepNum = hd.stepNum - 1) ∧
      (∀ j, j ≠ i → s'.h j = s.h j) ∧
      s'.fixed = s.fixed ∧ s'.varying = s.varying ∧ s'.stepping = s.stepping := by
    intro last l
    induction l with
    | nil => intro t _ _ _ _ hm; simp at hm
    | cons i l ih =>
      intro t eh ef ev es hm hl hloop
      unfold Inf.nextLoop at hloop
      cases hd : t.info i with
      | none => rw [hd] at hloop; simp at hloop
      | some d =>
        rw [hd] at hloop
        dsimp only at hloop
        have hc : (∃ hd v k, (k = hd.stepNum + 1 ∨ k = hd.stepNum - 1) ∧ t.h i = some hd ∧
            t.stepDir i d = ok (t.putValue i { hd with stepNum := k } v)) ∨
            t.stepDir i d = raise .paramRange t ∨ ∃ t' e, e ≠ .paramRange ∧ t.stepDir i d = raise e t' := by
          cases d with
          | next =>
            rcases next_cases t i with ⟨hd, v, e1, e2⟩ | h | h
            · exact Or.inl ⟨hd, v, _, Or.inl rfl, e1, e2⟩
            · exact Or.inr (Or.inl h)
            · exact Or.inr (Or.inr h)
          | prev =>
            rcases prev_cases t i with ⟨hd, v, e1, e2⟩ | h | h
            · exact Or.inl ⟨hd, v, _, Or.inr rfl, e1, e2⟩
            · exact Or.inr (Or.inl h)
            · exact Or.inr (Or.inr h)
        rcases hc with ⟨hd, v, k, hk, e1, e2⟩ | h | ⟨t', e, hne, h⟩
        · rw [e2] at hloop
          simp only [ok, Prod.mk.injEq, and_true] at hloop
          subst hloop
          refine ⟨i, hd, _, hl i (by simp), eh ▸ e1, putValue_self _ _ _ _, hk, fun j hj => ?_, ef, ev, es⟩
          rw [putValue_ne _ _ _ hj, eh]
        · rw [h] at hloop
          simp only [raise] at hloop
          by_cases hi : i = last
          · rw [if_pos hi] at hloop
            exfalso
            revert hloop
            rcases hrr : Inf.resetSteps t with ⟨s2, _ | e⟩ <;> simp [Res.andThen]
          · rw [if_neg hi] at hloop
            rcases List.mem_cons.mp hm with rfl | hm
            · exact absurd rfl hi
            · exact ih { t with info := Function.update t.info i (some d.reverse) } eh ef ev es hm (fun j hj => hl j (by simp [hj])) hloop
        · rw [h] at hloop
          simp only [raise] at hloop
          cases e <;> first | exact absurd rfl hne | simp at hloop
  unfold Inf.nextStep at h
  split at h
  · simp at h
  · rename_i last hlast
    exact key last s.stepping s rfl rfl rfl rfl (List.mem_of_getLast? hlast) (fun i hi => hi) h

/-- Non-vacuity of C04 and C05: a reachable 3 x 2 grid at its start, with proper set-ups. -/
def exGrid : Inf ℚ := Inf.init.run exCfg [.linstep 0 (some 0) (some 1) 3, .get 2, .linstep 1 (some 5) (some 6) 2]

example : Reachable exCfg exGrid ∧ exGrid.stepping = [0, 1] ∧ exGrid.gridSize = 6 :=
  ⟨⟨_, rfl⟩, by decide +kernel⟩
example : exGrid.atStart := by
  have h : exGrid.stepping = [0, 1] := by decide +kernel
  intro i hi
  rw [h] at hi
  simp only [List.mem_cons, List.not_mem_nil, or_false] at hi
  rcases hi with rfl | rfl
  · refine ⟨(exGrid.h 0).get (by decide +kernel), by simp, ?_⟩; decide +kernel
  · refine ⟨(exGrid.h 1).get (by decide +kernel), by simp, ?_⟩; decide +kernel
example : exGrid.allProper := by
  have h : exGrid.stepping = [0, 1] := by decide +kernel
  intro i hi hd hh
  rw [h] at hi
  simp only [List.mem_cons, List.not_mem_nil, or_false] at hi
  have h0 : ∃ x, exGrid.h 0 = some x ∧ x.stype = .lin ∧ 2 ≤ x.steps ∧ x.delta = some ((x.shi - x.slo) / ((x.steps : ℚ) - 1)) :=
    ⟨(exGrid.h 0).get (by decide +kernel), by simp, by decide +kernel⟩
  have h1 : ∃ x, exGrid.h 1 = some x ∧ x.stype = .lin ∧ 2 ≤ x.steps ∧ x.delta = some ((x.shi - x.slo) / ((x.steps : ℚ) - 1)) :=
    ⟨(exGrid.h 1).get (by decide +kernel), by simp, by decide +kernel⟩
  rcases hi with rfl | rfl
  · obtain ⟨x, e, e1, e2⟩ := h0
    rw [e] at hh; injection hh with hh; subst hh
    simp only [Handler.proper, e1]; exact e2
  · obtain ⟨x, e, e1, e2⟩ := h1
    rw [e] at hh; injection hh with hh; subst hh
    simp only [Handler.proper, e1]; exact e2
example : (List.range 7).map (fun r => (exGrid.nexts r).stepNums) =
    [[0, 0], [1, 0], [2, 0], [2, 1], [1, 1], [0, 1], [0, 0]] := by decide +kernel

end Verif.Pie
