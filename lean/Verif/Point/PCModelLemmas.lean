import Verif.Point.PCModel

/-!
# The class of periodic models: lemmas
-/

set_option linter.unusedSectionVars false

namespace Verif.Point

open Real

/-! ## The scale factor -/

def Out.map {α β : Type*} (f : α → β) (o : Out α) : Out β := o.bind fun a => .val (f a)

theorem exactLoop_scale (ndat : ℕ) (lndfac : ℝ) (phases : List ℝ) (nb : ℕ) (phibins : List ℝ) (lfac : ℝ) (fuel : ℕ) (phi : ℝ) (s : ℝ × ℝ) :
    exactLoop ndat lndfac phases nb phibins lfac fuel phi (exp lfac * s.1, s.2) = (exactLoop ndat lndfac phases nb phibins 0 fuel phi s).map fun t => (exp lfac * t.1, t.2) := by
  induction fuel generalizing phi s with
  | zero => rfl
  | succ fuel ih =>
    unfold exactLoop
    cases fbindata phases phi nb phibins with
    | oob => rfl
    | short => rfl
    | val r =>
      simp only [Out.bind]
      have e : ∀ x : ℝ, exp (x - lndfac + lfac) = exp lfac * exp (x - lndfac + 0) := by
        intro x
        rw [← exp_add]
        congr 1
        ring
      split_ifs with h
      · rw [← ih]
        congr 2
        rw [e]
        ring
      · rw [e]
        simp only [Out.map, Out.bind]
        congr 2
        ring

theorem qlwExact_scale (fuel : ℕ) (lndfac : ℝ) (phases : List ℝ) (nb : ℕ) (phibins : List ℝ) (lfac : ℝ) :
    qlwExact fuel lndfac phases nb phibins lfac = (qlwExact fuel lndfac phases nb phibins 0).map fun t => (exp lfac * t.1, t.2) := by
  unfold qlwExact
  have h := exactLoop_scale phases.length lndfac phases nb phibins lfac fuel 0 (0, 0)
  simp only [mul_zero] at h
  rw [h]
  cases exactLoop phases.length lndfac phases nb phibins 0 fuel 0 (0, 0) with
  | oob => rfl
  | short => rfl
  | val r =>
    simp only [Out.map, Out.bind]
    congr 2
    ring

theorem trapLoop_scale (ndat : ℕ) (lndfac : ℝ) (phases : List ℝ) (nb : ℕ) (phibins : List ℝ) (npts : ℕ) (lfac : ℝ) (as : List ℝ) (np : ℕ) (s : ℝ × ℝ) :
    trapLoop ndat lndfac phases nb phibins npts lfac as np (exp lfac * s.1, s.2) = (trapLoop ndat lndfac phases nb phibins npts 0 as np s).map fun t => (exp lfac * t.1, t.2) := by
  induction as generalizing np s with
  | nil => rfl
  | cons a as ih =>
    unfold trapLoop
    cases fbindata phases a nb phibins with
    | oob => rfl
    | short => rfl
    | val r =>
      simp only [Out.bind]
      have e : ∀ x : ℝ, exp (x - lndfac + lfac) = exp lfac * exp (x - lndfac + 0) := by
        intro x
        rw [← exp_add]
        congr 1
        ring
      split_ifs with h
      · rw [← ih]
        congr 2
        rw [e]
        ring
      · rw [← ih]
        congr 2
        rw [e]
        ring

theorem qlwTrap_scale (lndfac : ℝ) (phases : List ℝ) (nb : ℕ) (phibins : List ℝ) (absc : List ℝ) (lfac : ℝ) :
    qlwTrap lndfac phases nb phibins absc lfac = (qlwTrap lndfac phases nb phibins absc 0).map fun t => (exp lfac * t.1, t.2) := by
  unfold qlwTrap
  match absc with
  | [] => rfl
  | [_] => rfl
  | a1 :: a2 :: rest =>
    simp only
    have h := trapLoop_scale phases.length lndfac phases nb phibins (a1 :: a2 :: rest).length lfac (a1 :: a2 :: rest) 1 (0, 0)
    simp only [mul_zero] at h
    rw [h]
    cases trapLoop phases.length lndfac phases nb phibins (a1 :: a2 :: rest).length 0 (a1 :: a2 :: rest) 1 (0, 0) with
    | oob => rfl
    | short => rfl
    | val r =>
      simp only [Out.map, Out.bind]
      congr 2
      ring

/-! ## The invariant -/

/-- What holds of the object after any history: the phases belong to the current parameters, the abscissas to the current numbers of bins and points. -/
structure PC.Inv (rnd : ℝ → ℝ) (data : List ℝ) (s : PC) : Prop where
  data_eq : s.data = data
  phases_eq : s.phases = match s.w with
    | some w => phasesdd w s.wdot s.wddot data
    | .none => List.replicate data.length 0
  fresh : s.w = .none → s.wdot = 0 ∧ s.wddot = 0
  absc_eq : ∀ nb, s.nbins = some nb → 0 < nb → s.absc = match s.qpts with
    | some (q + 1) => some (trapAbsc rnd (q + 1) nb)
    | _ => .none
  logb_eq : ∀ nb, s.nbins = some nb → 0 < nb → s.logbfac = some (occam nb data.length)

theorem PC.Inv.setNbins {rnd : ℝ → ℝ} {data : List ℝ} {s : PC} (h : s.Inv rnd data) (nb : ℕ) : (s.setNbins rnd nb).Inv rnd data := by
  obtain ⟨h1, h2, h3, h4, h5⟩ := h
  subst h1
  have ho : ∀ k, some nb = some k → 0 < k → some (log (nb - 1).factorial + s.data.length * log nb + log s.data.length.factorial - log (s.data.length + nb - 1).factorial) = some (occam k s.data.length) := by
    intro k hk h0
    obtain rfl := Option.some.inj hk
    rw [occam_eq h0]
  unfold PC.setNbins
  rcases hq : s.qpts with _ | _ | q <;> simp only [hq]
  · exact ⟨rfl, h2, h3, fun k _ _ => rfl, ho⟩
  · exact ⟨rfl, h2, h3, fun k _ _ => rfl, ho⟩
  · exact ⟨rfl, h2, h3, fun k hk _ => by obtain rfl := Option.some.inj hk; rfl, ho⟩

theorem PC.Inv.init (rnd : ℝ → ℝ) (data : List ℝ) (nbins qpts : Option ℕ) : (PC.init rnd data nbins qpts).Inv rnd data := by
  have h : ({ data := data, nbins := .none, qpts := qpts, absc := .none, logbfac := .none, offset := .none, w := .none, wdot := 0, wddot := 0, phases := List.replicate data.length 0 } : PC).Inv rnd data :=
    ⟨rfl, rfl, fun _ => ⟨rfl, rfl⟩, by simp, by simp⟩
  unfold PC.init
  cases nbins with
  | none => exact h
  | some nb => exact h.setNbins nb

theorem PC.Inv.setQpts {rnd : ℝ → ℝ} {data : List ℝ} {s : PC} (h : s.Inv rnd data) (n : ℤ) : (s.setQpts rnd n).1.Inv rnd data := by
  unfold PC.setQpts
  split_ifs with hn
  · simp only
    split
    · rename_i hb
      exact ⟨h.data_eq, h.phases_eq, h.fresh, by simp [hb], by simp [hb]⟩
    · rename_i nb hb
      split_ifs with hc
      · refine ⟨h.data_eq, h.phases_eq, h.fresh, ?_, h.logb_eq⟩
        intro k hk _
        simp only at hk
        rw [hb] at hk
        obtain rfl := Option.some.inj hk
        obtain ⟨m, hm⟩ : ∃ m, n.toNat = m + 1 := ⟨n.toNat - 1, by omega⟩
        simp only [hm]
      · refine ⟨h.data_eq, h.phases_eq, h.fresh, ?_, h.logb_eq⟩
        intro k hk h0
        simp only at hk
        rw [hb] at hk
        obtain rfl := Option.some.inj hk
        have hz : n.toNat = 0 := by
          have : ¬ (0 < n) := fun h => hc ⟨by omega, h⟩
          omega
        simp only [hz]
  · exact h

/-- A change of the offset alone. -/
theorem PC.Inv.offset {rnd : ℝ → ℝ} {data : List ℝ} {s : PC} (h : s.Inv rnd data) (o : Option ℝ) : ({ s with offset := o } : PC).Inv rnd data :=
  ⟨h.data_eq, h.phases_eq, h.fresh, h.absc_eq, h.logb_eq⟩

theorem PC.Inv.update {rnd : ℝ → ℝ} {data : List ℝ} {s : PC} (h : s.Inv rnd data) (w wd wdd : Option ℝ) : (s.update w wd wdd).1.Inv rnd data := by
  unfold PC.update
  split
  · exact h
  · split_ifs with hc
    · split
      · exact h
      · rename_i w' _
        exact ⟨h.data_eq, by simp only [h.data_eq], by simp, h.absc_eq, h.logb_eq⟩
    · exact h

theorem PC.Inv.needOffset {rnd : ℝ → ℝ} {data : List ℝ} {s : PC} (h : s.Inv rnd data) : s.needOffset.1.Inv rnd data := by
  unfold PC.needOffset
  split
  · exact h
  · split
    · exact h.offset _
    · exact h
    · exact h

theorem PC.Inv.lmlPw {rnd : ℝ → ℝ} {data : List ℝ} {s : PC} (h : s.Inv rnd data) (phi : ℝ) (w wd wdd : Option ℝ) : (s.lmlPw phi w wd wdd).1.Inv rnd data := by
  have hu := h.update w wd wdd
  unfold PC.lmlPw
  split <;> rename_i hs <;> rw [hs] at hu
  · exact hu
  · split
    · exact hu.offset _
    · exact hu
    · exact hu

theorem PC.Inv.chiPw {rnd : ℝ → ℝ} {data : List ℝ} {s : PC} (h : s.Inv rnd data) (phi : ℝ) (w wd wdd : Option ℝ) : (s.chiPw phi w wd wdd).1.Inv rnd data := by
  have hu := h.update w wd wdd
  unfold PC.chiPw
  split <;> rename_i hs <;> rw [hs] at hu
  · exact hu
  · split <;> exact hu

theorem PC.Inv.smlChi {rnd : ℝ → ℝ} {data : List ℝ} {s : PC} (h : s.Inv rnd data) (fuel : ℕ) (w wd wdd : Option ℝ) : (s.smlChi fuel w wd wdd).1.Inv rnd data := by
  have hu := h.update w wd wdd
  unfold PC.smlChi
  split <;> rename_i hs <;> rw [hs] at hu
  · exact hu
  · have ho := hu.needOffset
    split <;> rename_i hs' <;> rw [hs'] at ho <;> exact ho

theorem PC.Inv.rateEst {rnd : ℝ → ℝ} {data : List ℝ} {s : PC} (h : s.Inv rnd data) (p : Phases) (w wd wdd : Option ℝ) : (s.rateEst p w wd wdd).1.Inv rnd data := by
  have hu := h.update w wd wdd
  unfold PC.rateEst
  split <;> rename_i hs <;> rw [hs] at hu
  · exact hu
  · have ho := hu.needOffset
    split <;> rename_i hs' <;> rw [hs'] at ho
    · exact ho
    · exact ho
    · split <;> exact ho

theorem PC.Inv.step {rnd : ℝ → ℝ} {data : List ℝ} {s : PC} (h : s.Inv rnd data) (fuel : ℕ) (c : Call) : (s.step rnd fuel c).Inv rnd data := by
  cases c with
  | setNbins nb => exact h.setNbins nb
  | setQpts n => exact h.setQpts n
  | lmlPw phi w wd wdd => exact h.lmlPw phi w wd wdd
  | chiPw phi w wd wdd => exact h.chiPw phi w wd wdd
  | smlW w wd wdd => exact h.smlChi fuel w wd wdd
  | avgchiW w wd wdd => exact h.smlChi fuel w wd wdd
  | lmlConst => exact h
  | rateEst p w wd wdd => exact h.rateEst p w wd wdd

theorem PC.Inv.run {rnd : ℝ → ℝ} {data : List ℝ} {s : PC} (h : s.Inv rnd data) (fuel : ℕ) (calls : List Call) : (s.run rnd fuel calls).Inv rnd data := by
  unfold PC.run
  induction calls generalizing s with
  | nil => exact h
  | cons c cs ih => exact ih (h.step fuel c)

/-- The update of the parameters. -/
theorem PC.update_spec {rnd : ℝ → ℝ} {data : List ℝ} {s : PC} (h : s.Inv rnd data) {nb : ℕ} (hn : s.nbins = some nb) {w wd wdd : Option ℝ} {w' : ℝ} (hw : w.or s.w = some w') :
    s.update w wd wdd = ({ s with w := some w', wdot := wd.getD s.wdot, wddot := wdd.getD s.wddot, phases := phasesdd w' (wd.getD s.wdot) (wdd.getD s.wddot) data }, .none) := by
  unfold PC.update
  rw [hn]
  simp only
  split_ifs with hc
  · rw [hw]
    simp only [h.data_eq]
  · push Not at hc
    obtain ⟨h1, h2, h3⟩ := hc
    have hw' : s.w = some w' := by
      rw [h1] at hw
      cases hs : s.w with
      | none => rw [hs] at hw; simp at hw
      | some x => rw [hs] at hw; simpa using hw
    have hp := h.phases_eq
    rw [hw'] at hp
    simp only at hp
    simp only [h2, h3, Option.getD_some]
    rw [← hp]
    cases s
    simp only at hw' hn
    simp only [hw', hn]

theorem phasesdd_length (w wd wdd : ℝ) (data : List ℝ) : (phasesdd w wd wdd data).length = data.length := by simp [phasesdd]

end Verif.Point
