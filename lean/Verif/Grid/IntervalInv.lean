import Verif.Grid.IntervalUpdate

/-!
# Refined interval lists: what every history of updates preserves (helper lemmas)
-/

set_option linter.unusedSectionVars false
set_option linter.unusedSimpArgs false

namespace Verif.Grid1

section
variable {K : Type} [Field K] [LinearOrder K] [IsStrictOrderedRing K] [FloorRing K]

/-- `p` is (part of) what an update of `[lo, hi]` with the given step makes of `I`. -/
structure Piece (isLin : Bool) (lo hi step : K) (I p : Intv K) : Prop where
  plo : I.lo ≤ p.lo
  phi : p.hi ≤ I.hi
  fine : isLin = true → p.step ≤ I.step
  req : isLin = true → p.lo < hi → lo < p.hi → p.step ≤ step
  out : isLin = true → p.step = I.step ∨ (lo ≤ p.lo ∧ p.hi ≤ hi)
  lat : isLin = true → p.step = I.step → ∃ k : ℤ, p.lo = I.lo + k * I.step

/-- What holds of the list before merging. -/
structure Pre (c : LogExp K) (isLin : Bool) (lo hi step : K) (a b : K) (old new : List (Intv K)) : Prop where
  tiles : Tiles a new b
  good : ∀ p ∈ new, Good c p
  lin : ∀ p ∈ new, p.isLin = true
  piece : ∀ p ∈ new, ∃ I ∈ old, Piece isLin lo hi step I p

theorem Pre.append {c : LogExp K} {isLin : Bool} {lo hi step a b d : K} {l l' m m' : List (Intv K)}
    (h1 : Pre c isLin lo hi step a b l l') (h2 : Pre c isLin lo hi step b d m m') : Pre c isLin lo hi step a d (l ++ m) (l' ++ m') := by
  refine ⟨tiles_append.mpr ⟨b, h1.tiles, h2.tiles⟩, ?_, ?_, ?_⟩
  · intro p hp; rcases List.mem_append.mp hp with hp | hp
    · exact h1.good p hp
    · exact h2.good p hp
  · intro p hp; rcases List.mem_append.mp hp with hp | hp
    · exact h1.lin p hp
    · exact h2.lin p hp
  · intro p hp; rcases List.mem_append.mp hp with hp | hp
    · obtain ⟨I, hI, h⟩ := h1.piece p hp
      exact ⟨I, by simp [hI], h⟩
    · obtain ⟨I, hI, h⟩ := h2.piece p hp
      exact ⟨I, by simp [hI], h⟩

theorem pre_below {c : LogExp K} {isLin : Bool} {lo hi step a b : K} {A : List (Intv K)} (ht : Tiles a A b) (hg : ∀ I ∈ A, Good c I)
    (hl : ∀ I ∈ A, I.isLin = true) (h : b ≤ lo ∨ hi ≤ a) : Pre c isLin lo hi step a b A A := by
  refine ⟨ht, hg, hl, fun p hp => ⟨p, hp, le_refl _, le_refl _, fun _ => le_refl _, fun _ h1 h2 => ?_, fun _ => Or.inl rfl, fun _ _ => ⟨0, by simp⟩⟩⟩
  obtain ⟨h3, h4, h5⟩ := tiles_mem ht hp
  exfalso
  rcases h with h | h <;> linarith

theorem pre_coarse {c : LogExp K} {isLin : Bool} {lo hi step : K} {I : Intv K} (hg : Good c I)
    (hl : I.isLin = true) (h : I.step ≤ step) : Pre c isLin lo hi step I.lo I.hi [I] [I] := by
  refine ⟨⟨rfl, hg.lt, rfl⟩, by simpa using hg, by simpa using hl, fun p hp => ⟨p, hp, le_refl _, le_refl _, fun _ => le_refl _, fun _ h1 h2 => ?_, fun _ => Or.inl rfl, fun _ _ => ⟨0, by simp⟩⟩⟩
  rw [List.mem_singleton.mp hp]; exact h

theorem pre_left {c : LogExp K} {s : RIL K} {lo hi step : K} {I : Intv K} (hg : Good c I)
    (hlog : s.isLin = false → LogOk c ∧ 0 < I.lo) (hlo : I.lo ≤ lo) (hlh : lo ≤ I.hi)
    (hk : s.isLin = true → ∃ k : ℤ, lo - I.lo = k * I.step) :
    Pre c s.isLin lo hi step I.lo lo [I] (leftPiece c s I lo) := by
  unfold leftPiece
  by_cases h : lo > I.lo
  · rw [if_pos h]
    have hn := numPts_two h hg.step_pos hlog
    refine ⟨⟨rfl, h, rfl⟩, ?_, ?_, ?_⟩
    · intro p hp; rw [List.mem_singleton.mp hp]; exact linI_good c h hn
    · intro p hp; rw [List.mem_singleton.mp hp]; rfl
    · intro p hp; rw [List.mem_singleton.mp hp]
      have e : s.isLin = true → (linI I.lo lo (s.numPts c I.lo lo I.step)).step = I.step := fun hs => by
        obtain ⟨k, hk⟩ := hk hs
        exact numPts_exact hs hg.step_pos k hk h
      refine ⟨I, by simp, le_refl _, hlh, fun hs => le_of_eq (e hs), fun _ _ h2 => absurd h2 (lt_irrefl _), fun hs => Or.inl (e hs), fun _ _ => ⟨0, by simp [linI]⟩⟩
  · rw [if_neg h]
    have : I.lo = lo := le_antisymm hlo (not_lt.mp h)
    exact ⟨this, by simp, by simp, by simp⟩

theorem pre_right {c : LogExp K} {s : RIL K} {lo hi step : K} {J : Intv K} (hg : Good c J)
    (hlog : s.isLin = false → LogOk c ∧ 0 < J.lo) (hlo : J.lo ≤ hi) (hlh : hi ≤ J.hi)
    (hk : s.isLin = true → ∃ k : ℤ, J.hi - hi = k * J.step) (hk2 : s.isLin = true → ∃ k : ℤ, hi = J.lo + k * J.step) :
    Pre c s.isLin lo hi step hi J.hi [J] (rightPiece c s J hi) := by
  unfold rightPiece
  by_cases h : J.hi > hi
  · rw [if_pos h]
    have hn := numPts_two h hg.step_pos (fun hs => ⟨(hlog hs).1, by linarith [(hlog hs).2]⟩)
    refine ⟨⟨rfl, h, rfl⟩, ?_, ?_, ?_⟩
    · intro p hp; rw [List.mem_singleton.mp hp]; exact linI_good c h hn
    · intro p hp; rw [List.mem_singleton.mp hp]; rfl
    · intro p hp; rw [List.mem_singleton.mp hp]
      have e : s.isLin = true → (linI hi J.hi (s.numPts c hi J.hi J.step)).step = J.step := fun hs => by
        obtain ⟨k, hk⟩ := hk hs
        exact numPts_exact hs hg.step_pos k hk h
      refine ⟨J, by simp, hlo, le_refl _, fun hs => le_of_eq (e hs), fun _ h1 _ => absurd h1 (lt_irrefl _), fun hs => Or.inl (e hs), fun hs _ => hk2 hs⟩
  · rw [if_neg h]
    have : hi = J.hi := le_antisymm hlh (not_lt.mp h)
    exact ⟨this, by simp, by simp, by simp⟩

/-- A new linear interval inside `I`. -/
theorem pre_new {c : LogExp K} {isLin : Bool} {lo hi step u v : K} {n : ℤ} {I : Intv K} (hn : 2 ≤ n) (huv : u < v)
    (hst : isLin = true → (linI u v n).step ≤ step) (hI : step < I.step) (h1 : I.lo ≤ u) (h2 : v ≤ I.hi) (h3 : lo ≤ u) (h4 : v ≤ hi) :
    Pre c isLin lo hi step u v [I] [linI u v n] := by
  refine ⟨⟨rfl, huv, rfl⟩, ?_, ?_, ?_⟩
  · intro p hp; rw [List.mem_singleton.mp hp]; exact linI_good c huv hn
  · intro p hp; rw [List.mem_singleton.mp hp]; rfl
  · intro p hp; rw [List.mem_singleton.mp hp]
    exact ⟨I, by simp, h1, h2, fun hs => le_of_lt (lt_of_le_of_lt (hst hs) hI), fun hs _ _ => hst hs, fun _ => Or.inr ⟨h3, h4⟩,
      fun hs e => absurd e (ne_of_lt (lt_of_le_of_lt (hst hs) hI))⟩

theorem pre_resampled {c : LogExp K} {s : RIL K} {lo hi step : K} (hst : 0 < step) :
    ∀ {a b : K} {B : List (Intv K)}, Tiles a B b → (∀ I ∈ B, Good c I) → (∀ I ∈ B, I.isLin = true) →
    (s.isLin = false → LogOk c ∧ 0 < a) → lo ≤ a → b ≤ hi → Pre c s.isLin lo hi step a b B (B.map (resampled c s step)) := by
  intro a b B
  induction B generalizing a with
  | nil => intro ht _ _ _ _ _; exact ⟨ht, by simp, by simp, by simp⟩
  | cons I B ih =>
    intro ht hg hl hlog h1 h2
    obtain ⟨t1, t2, t3⟩ := ht
    have hgI := hg I (by simp)
    have hlI := hl I (by simp)
    have hb := tiles_le t3
    have rest := ih t3 (fun J hJ => hg J (by simp [hJ])) (fun J hJ => hl J (by simp [hJ]))
      (fun hs => ⟨(hlog hs).1, by have := (hlog hs).2; rw [← t1] at this; linarith⟩) (by rw [← t1] at h1; linarith) h2
    refine Pre.append (l := [I]) (l' := [resampled c s step I]) (b := I.hi) ?_ rest
    unfold resampled
    by_cases h : I.step > step
    · rw [if_pos h]
      have hlog' : s.isLin = false → LogOk c ∧ 0 < I.lo := fun hs => by rw [t1]; exact hlog hs
      have hn := numPts_two hgI.lt hst hlog'
      have e : I.resample c (s.numPts c I.lo I.hi step) = { I with n := s.numPts c I.lo I.hi step, step := (linI I.lo I.hi (s.numPts c I.lo I.hi step)).step } := by
        unfold Intv.resample; rw [if_pos hlI]; rfl
      rw [e]
      have hp : ∀ p ∈ [({ I with n := s.numPts c I.lo I.hi step, step := (linI I.lo I.hi (s.numPts c I.lo I.hi step)).step } : Intv K)],
          p = { I with n := s.numPts c I.lo I.hi step, step := (linI I.lo I.hi (s.numPts c I.lo I.hi step)).step } := fun p hp => List.mem_singleton.mp hp
      refine ⟨⟨t1, t2, rfl⟩, ?_, ?_, ?_⟩
      · intro p hp'; rw [hp p hp']
        exact ⟨hgI.lt, hn, fun _ => rfl, fun h => by simp [hlI] at h⟩
      · intro p hp'; rw [hp p hp']; exact hlI
      · intro p hp'; rw [hp p hp']
        have hle : s.isLin = true → (linI I.lo I.hi (s.numPts c I.lo I.hi step)).step ≤ step := fun hs => numPts_step hs hgI.lt hst
        exact ⟨I, by simp, le_refl _, le_refl _, fun hs => le_trans (hle hs) (le_of_lt h), fun hs _ _ => hle hs,
          fun _ => Or.inr ⟨by rw [t1]; exact h1, by linarith⟩,
          fun hs e => absurd e (ne_of_lt (lt_of_le_of_lt (hle hs) h))⟩
    · rw [if_neg h]
      have := pre_coarse (isLin := s.isLin) (lo := lo) (hi := hi) hgI hlI (not_lt.mp h)
      rwa [t1] at this

/-- The part of `I`, containing `lo`, after an update. -/
theorem pre_first {c : LogExp K} {s : RIL K} {lo hi step : K} {I : Intv K} (hst : 0 < step) (hg : Good c I) (hl : I.isLin = true)
    (hlog : s.isLin = false → LogOk c ∧ 0 < I.lo) (hlo : I.lo ≤ lo) (hlh : lo < I.hi) (hhi : I.hi ≤ hi)
    (hk : s.isLin = true → ∃ k : ℤ, lo - I.lo = k * I.step) :
    Pre c s.isLin lo hi step I.lo I.hi [I] (if step < I.step then leftPiece c s I lo ++ [linI lo I.hi (s.numPts c lo I.hi step)] else [I]) := by
  by_cases h : step < I.step
  · rw [if_pos h]
    have h1 := pre_left (hi := hi) (step := step) hg hlog hlo (le_of_lt hlh) hk
    have h2 : Pre c s.isLin lo hi step lo I.hi [I] [linI lo I.hi (s.numPts c lo I.hi step)] :=
      pre_new (numPts_two hlh hst fun hs => ⟨(hlog hs).1, by linarith [(hlog hs).2]⟩) hlh (fun hs => numPts_step hs hlh hst) h hlo (le_refl _) (le_refl _) hhi
    have := h1.append h2
    exact ⟨this.tiles, this.good, this.lin, fun p hp => by simpa using this.piece p hp⟩
  · rw [if_neg h]; exact pre_coarse hg hl (not_lt.mp h)

/-- The part of `J`, containing `hi`, after an update. -/
theorem pre_last {c : LogExp K} {s : RIL K} {lo hi step : K} {J : Intv K} (hst : 0 < step) (hg : Good c J) (hl : J.isLin = true)
    (hlog : s.isLin = false → LogOk c ∧ 0 < J.lo) (hhi : J.lo < hi) (hhj : hi ≤ J.hi) (hlo : lo ≤ J.lo)
    (hk : s.isLin = true → ∃ k : ℤ, J.hi - hi = k * J.step) (hk2 : s.isLin = true → ∃ k : ℤ, hi = J.lo + k * J.step) :
    Pre c s.isLin lo hi step J.lo J.hi [J] (if step < J.step then linI J.lo hi (s.numPts c J.lo hi step) :: rightPiece c s J hi else [J]) := by
  by_cases h : step < J.step
  · rw [if_pos h]
    have h1 := pre_right (lo := lo) (step := step) hg hlog (le_of_lt hhi) hhj hk hk2
    have h2 : Pre c s.isLin lo hi step J.lo hi [J] [linI J.lo hi (s.numPts c J.lo hi step)] :=
      pre_new (numPts_two hhi hst hlog) hhi (fun hs => numPts_step hs hhi hst) h (le_refl _) hhj hlo (le_refl _)
    have := h2.append h1
    exact ⟨this.tiles, this.good, this.lin, fun p hp => by simpa using this.piece p hp⟩
  · rw [if_neg h]; exact pre_coarse hg hl (not_lt.mp h)

/-- The interval containing both ends, after an update. -/
theorem pre_inside {c : LogExp K} {s : RIL K} {lo hi step : K} {n : ℤ} {I : Intv K} (hg : Good c I) (hn : 2 ≤ n)
    (hstep : s.isLin = true → (linI lo hi n).step ≤ step) (hst : step < I.step)
    (hlog : s.isLin = false → LogOk c ∧ 0 < I.lo) (hlo : I.lo ≤ lo) (hlh : lo < hi) (hhi : hi ≤ I.hi)
    (hk : s.isLin = true → ∃ k : ℤ, lo - I.lo = k * I.step) (hk' : s.isLin = true → ∃ k : ℤ, I.hi - hi = k * I.step)
    (hk2 : s.isLin = true → ∃ k : ℤ, hi = I.lo + k * I.step) :
    Pre c s.isLin lo hi step I.lo I.hi [I] (leftPiece c s I lo ++ linI lo hi n :: rightPiece c s I hi) := by
  have h1 := pre_left (hi := hi) (step := step) hg hlog hlo (by linarith) hk
  have h2 : Pre c s.isLin lo hi step lo hi [I] [linI lo hi n] := pre_new hn hlh hstep hst hlo hhi (le_refl _) (le_refl _)
  have h3 := pre_right (lo := lo) (step := step) hg hlog (by linarith) hhi hk' hk2
  have := (h1.append h2).append h3
  refine ⟨by simpa using this.tiles, fun p hp => this.good p (by simpa using hp), fun p hp => this.lin p (by simpa using hp), fun p hp => ?_⟩
  simpa using this.piece p (by simpa using hp)

/-! ### The invariant -/

structure RInv (c : LogExp K) (s : RIL K) : Prop where
  tiles : Tiles s.lo s.ilist s.hi
  lt : s.lo < s.hi
  good : ∀ I ∈ s.ilist, Good c I
  lin : s.isLin = true → ∀ I ∈ s.ilist, I.isLin = true
  log : s.isLin = false → LogOk c ∧ 0 < s.lo
  many : 2 ≤ s.ilist.length → ∀ I ∈ s.ilist, I.isLin = true
  cum : CumOk s
  base : s.isLin = true → ∀ I ∈ s.ilist, I.step ≤ s.base.step
  lat : s.isLin = true → ∀ I ∈ s.ilist, I.step = s.base.step → ∃ k : ℤ, I.lo = s.lo + k * s.base.step

/-- How an update of `[lo, hi]` changes the step at each abscissa. -/
structure StepRel (lo hi step : K) (old new : List (Intv K)) : Prop where
  fine : ∀ I ∈ old, ∀ M ∈ new, ∀ x, I.has x → M.has x → M.step ≤ I.step
  req : ∀ M ∈ new, ∀ x, M.has x → lo ≤ x → x < hi → M.step ≤ step
  out : ∀ I ∈ old, ∀ M ∈ new, ∀ x, I.has x → M.has x → x < lo ∨ hi ≤ x → M.step = I.step

/-- What stays the same. -/
def Same (s s' : RIL K) : Prop := s'.isPos = s.isPos ∧ s'.lo = s.lo ∧ s'.hi = s.hi ∧ s'.isLin = s.isLin ∧ s'.base = s.base

theorem finish {c : LogExp K} {s : RIL K} (h : RInv c s) {lo hi step : K} {new : List (Intv K)}
    (hp : Pre c s.isLin lo hi step s.lo s.hi s.ilist new) :
    ∃ s', (withL s new).merge c = ok s' ∧ RInv c s' ∧ Same s s' ∧ (s.isLin = true → StepRel lo hi step s.ilist s'.ilist) := by
  have hne : new ≠ [] := by
    intro e
    have := hp.tiles
    rw [e] at this
    have h2 : s.lo = s.hi := this
    exact absurd h.lt (by rw [h2]; exact lt_irrefl _)
  obtain ⟨s', e1, e2, e3, e4, e5, e6, e7, e8, e9, e10, e11⟩ := merge_spec (c := c) (s := withL s new) (a := s.lo) (b := s.hi) hne hp.good hp.tiles hp.lin
  have e8' : s'.lo = s.lo := e8
  have e9' : s'.hi = s.hi := e9
  have e10' : s'.isLin = s.isLin := e10
  have e11' : s'.base = s.base := e11
  have key : ∀ M ∈ s'.ilist, ∀ x, M.has x → ∃ p ∈ new, p.has x ∧ p.step = M.step ∧ ∃ I ∈ s.ilist, I.has x ∧ Piece s.isLin lo hi step I p := by
    intro M hM x hx
    obtain ⟨p, hp1, hp2, hp3⟩ := (e4 M hM).2 x hx
    obtain ⟨I, hI, hpc⟩ := hp.piece p hp1
    exact ⟨p, hp1, hp2, hp3, I, hI, ⟨le_trans hpc.plo hp2.1, lt_of_lt_of_le hp2.2 hpc.phi⟩, hpc⟩
  have uniq : ∀ I ∈ s.ilist, ∀ I' ∈ s.ilist, ∀ x, I.has x → I'.has x → I = I' := fun I hI I' hI' x h1 h2 =>
    tiles_unique h.tiles hI hI' h1 h2
  refine ⟨s', e1, ⟨?_, ?_, e3, fun _ => e5, ?_, fun _ => e5, e6, ?_, ?_⟩, ⟨e7, e8', e9', e10', e11'⟩, fun hs => ⟨?_, ?_, ?_⟩⟩
  · rw [e8', e9']; exact e2
  · rw [e8', e9']; exact h.lt
  · rw [e10', e8']; exact h.log
  · rw [e10', e11']
    intro hs M hM
    obtain ⟨p, _, _, h3, I, hI, _, hpc⟩ := key M hM M.lo ⟨le_refl _, (e3 M hM).lt⟩
    rw [← h3]
    exact le_trans (hpc.fine hs) (h.base hs I hI)
  · rw [e10', e11', e8']
    intro hs M hM hMs
    obtain ⟨p, hp1, hp2, hp3⟩ := (e4 M hM).1
    obtain ⟨I, hI, hpc⟩ := hp.piece p hp1
    have h1 := hpc.fine hs
    have h2 := h.base hs I hI
    have h3 : p.step = s.base.step := hp3.trans hMs
    have h4 : I.step = s.base.step := le_antisymm h2 (by rw [← h3]; exact h1)
    obtain ⟨k, hk⟩ := h.lat hs I hI h4
    obtain ⟨j, hj⟩ := hpc.lat hs (h3.trans h4.symm)
    refine ⟨k + j, ?_⟩
    rw [← hp2, hj, hk, h4]
    push_cast
    ring
  · intro I hI M hM x h1 h2
    obtain ⟨p, _, _, h3, I', hI', hx, hpc⟩ := key M hM x h2
    rw [uniq I hI I' hI' x h1 hx, ← h3]
    exact hpc.fine hs
  · intro M hM x h1 h2 h3
    obtain ⟨p, _, hpx, h3', I', hI', hx, hpc⟩ := key M hM x h1
    rw [← h3']
    exact hpc.req hs (lt_of_le_of_lt hpx.1 h3) (lt_of_le_of_lt h2 hpx.2)
  · intro I hI M hM x h1 h2 h4
    obtain ⟨p, _, hpx, h3, I', hI', hx, hpc⟩ := key M hM x h2
    rw [uniq I hI I' hI' x h1 hx, ← h3]
    rcases hpc.out hs with h5 | ⟨h5, h6⟩
    · exact h5
    · exfalso
      obtain ⟨a1, a2⟩ := hpx
      rcases h4 with h4 | h4
      · exact absurd (lt_of_lt_of_le h4 h5) (not_lt.mpr a1)
      · exact absurd (lt_of_lt_of_le a2 h6) (not_lt.mpr h4)

theorem findIdx_split {α : Type} {p : α → Bool} {I : α} : ∀ {A C : List α}, (∀ x ∈ A, p x = false) → p I = true → (A ++ I :: C).findIdx? p = some A.length
  | [], C, _, h => by simp [List.findIdx?_cons, h]
  | a :: A, C, ha, h => by
    have h1 := ha a (by simp)
    have h2 := findIdx_split (A := A) (C := C) (fun x hx => ha x (by simp [hx])) h
    rw [List.cons_append, List.findIdx?_cons, h1, h2]
    simp

/-- Where the ends of the range of an update lie. -/
theorem ends {a b : K} {l : List (Intv K)} (ht : Tiles a l b) {lo hi : K} (h1 : a ≤ lo) (h2 : lo < hi) (h3 : hi ≤ b) :
    ∃ A I C, l = A ++ I :: C ∧ I.lo ≤ lo ∧ lo < I.hi ∧
      l.findIdx? (fun I => decide (I.lo ≤ lo ∧ I.hi > lo)) = some A.length ∧
      ((hi ≤ I.hi ∧ l.findIdx? (fun I => decide (I.lo < hi ∧ I.hi ≥ hi)) = some A.length) ∨
       ∃ B J D, C = B ++ J :: D ∧ J.lo < hi ∧ hi ≤ J.hi ∧
        l.findIdx? (fun I => decide (I.lo < hi ∧ I.hi ≥ hi)) = some (A.length + 1 + B.length)) := by
  obtain ⟨I, hI, hI1, hI2⟩ := tiles_cover ht h1 (by linarith)
  obtain ⟨A, C, rfl⟩ := List.append_of_mem hI
  obtain ⟨J, hJ, hJ1, hJ2⟩ := tiles_cover' ht (show a < hi by linarith) h3
  obtain ⟨d, t1, t2, t3, t4⟩ := tiles_append.mp ht
  refine ⟨A, I, C, rfl, hI1, hI2, ?_, ?_⟩
  · refine findIdx_split (fun x hx => ?_) (by simp [hI1, hI2])
    have := (tiles_mem t1 hx).2.2
    rw [decide_eq_false_iff_not]
    intro h
    have := h.2
    linarith
  · by_cases hh : hi ≤ I.hi
    · refine Or.inl ⟨hh, findIdx_split (fun x hx => ?_) (by simp [hh]; linarith)⟩
      have := (tiles_mem t1 hx).2.2
      rw [decide_eq_false_iff_not]
      intro h
      have := h.2
      linarith
    · refine Or.inr ?_
      have hJC : J ∈ C := by
        rcases List.mem_append.mp hJ with hJ | hJ
        · have := (tiles_mem t1 hJ).2.2
          exfalso; linarith
        · rcases List.mem_cons.mp hJ with rfl | hJ
          · exact absurd hJ2 hh
          · exact hJ
      obtain ⟨B, D, rfl⟩ := List.append_of_mem hJC
      refine ⟨B, J, D, rfl, hJ1, hJ2, ?_⟩
      have e : A.length + 1 + B.length = (A ++ I :: B).length := by simp; omega
      have e2 : A ++ I :: (B ++ J :: D) = (A ++ I :: B) ++ J :: D := by simp
      rw [e, e2]
      rw [e2] at ht
      obtain ⟨d', u1, u2, u3, u4⟩ := tiles_append.mp ht
      refine findIdx_split (fun x hx => ?_) (by simp [hJ1, hJ2])
      have := (tiles_mem u1 hx).2.2
      rw [decide_eq_false_iff_not]
      intro h
      have := h.2
      linarith

/-- What an accepted update of a linear list does. -/
structure Updated (s s' : RIL K) (lo hi : K) (n : ℤ) : Prop where
  rel : ∃ I ∈ s.ilist, ∃ J ∈ s.ilist, ∃ lo2 hi2 step, I.lo ≤ lo ∧ lo < I.hi ∧ J.lo < hi ∧ hi ≤ J.hi ∧
    lo2 ≤ lo ∧ lo < lo2 + I.step ∧ hi ≤ hi2 ∧ hi2 < hi + J.step ∧
    (∃ k : ℤ, lo2 = I.lo + k * I.step) ∧ (∃ k : ℤ, hi2 = J.lo + k * J.step) ∧
    (I.step < 5 * ((hi - lo) / ((n : K) - 1)) → step ≤ (hi - lo) / ((n : K) - 1)) ∧
    (5 * ((hi - lo) / ((n : K) - 1)) ≤ I.step → step = (hi2 - lo2) / ((n : K) - 1)) ∧
    StepRel lo2 hi2 step s.ilist s'.ilist

theorem stepRel_refl {c : LogExp K} {s : RIL K} (h : RInv c s) {lo hi step : K} {I : Intv K} (hI : I ∈ s.ilist) (h1 : I.lo ≤ lo) (h2 : hi ≤ I.hi)
    (h3 : I.step ≤ step) : StepRel lo hi step s.ilist s.ilist := by
  have uniq : ∀ I ∈ s.ilist, ∀ I' ∈ s.ilist, ∀ x, I.has x → I'.has x → I = I' := fun I hI I' hI' x h1 h2 =>
    tiles_unique h.tiles hI hI' h1 h2
  refine ⟨?_, ?_, ?_⟩
  · intro I hI M hM x a b; rw [uniq I hI M hM x a b]
  · intro M hM x a b d
    rw [uniq M hM I hI x a ⟨by linarith, by linarith⟩]; exact h3
  · intro I hI M hM x a b; rw [uniq I hI M hM x a b]; exact fun _ => rfl

theorem update_spec {c : LogExp K} {s : RIL K} (h : RInv c s) (hpos : s.isPos = true) (lo hi : K) {n : ℤ} (hn : 2 ≤ n)
    (hlt : max lo s.lo < min hi s.hi) :
    ∃ s', s.update c lo hi n = ok s' ∧ RInv c s' ∧ Same s s' ∧ (s.isLin = true → Updated s s' (max lo s.lo) (min hi s.hi) n) := by
  set lo1 := max lo s.lo with hlo1
  set hi1 := min hi s.hi with hhi1
  have ha : s.lo ≤ lo1 := le_max_right _ _
  have hb : hi1 ≤ s.hi := min_le_right _ _
  have hn1 : (0 : K) < (n : K) - 1 := by
    have : ((2 : ℤ) : K) ≤ (n : K) := by exact_mod_cast hn
    push_cast at this; linarith
  obtain ⟨A, I, C, hl, hI1, hI2, hf1, hf2⟩ := ends h.tiles ha hlt hb
  have hgI := h.good I (by rw [hl]; simp)
  have hIpos : s.isLin = false → LogOk c ∧ 0 < I.lo := fun hs =>
    ⟨(h.log hs).1, lt_of_lt_of_le (h.log hs).2 (tiles_mem h.tiles (by rw [hl]; simp)).1⟩
  obtain ⟨L1, L2, L3, L4, L5, L6, L7⟩ := locate_lt hgI hI1 hI2
  -- facts about the upper end
  have upper : ∀ J ∈ s.ilist, J.lo < hi1 → hi1 ≤ J.hi →
      hi1 ≤ (if hi1 ≠ (J.locate c hi1).2.1 then (J.locate c hi1).2.2 else hi1) ∧
      (if hi1 ≠ (J.locate c hi1).2.1 then (J.locate c hi1).2.2 else hi1) ≤ J.hi ∧
      (s.isLin = true → (if hi1 ≠ (J.locate c hi1).2.1 then (J.locate c hi1).2.2 else hi1) < hi1 + J.step ∧
        ∃ k : ℤ, (if hi1 ≠ (J.locate c hi1).2.1 then (J.locate c hi1).2.2 else hi1) = J.lo + k * J.step) := by
    intro J hJ hJ1 hJ2
    have hgJ := h.good J hJ
    have hJs := hgJ.step_pos
    rcases lt_or_eq_of_le hJ2 with hJ2 | hJ2
    · obtain ⟨M1, M2, M3, M4, M5, M6, M7⟩ := locate_lt hgJ (le_of_lt hJ1) hJ2
      by_cases he : hi1 = (J.locate c hi1).2.1
      · rw [if_neg (not_not.mpr he)]
        refine ⟨le_refl _, le_of_lt hJ2, fun hs => ⟨by linarith, (J.locate c hi1).1, ?_⟩⟩
        rw [← (M7 (h.lin hs J hJ)).1]; exact he
      · rw [if_pos he]
        refine ⟨le_of_lt M5, M6, fun hs => ?_⟩
        obtain ⟨e1, e2⟩ := M7 (h.lin hs J hJ)
        refine ⟨?_, (J.locate c hi1).1 + 1, ?_⟩
        · rw [e2]
          have := lt_of_le_of_ne M4 (Ne.symm he)
          linarith
        · rw [e2, e1]; push_cast; ring
    · rw [hJ2, locate_hi hgJ]
      simp only [ne_eq, not_true_eq_false, if_false]
      refine ⟨le_refl _, le_refl _, fun hs => ⟨by linarith, J.n - 1, ?_⟩⟩
      have := hgJ.span (h.lin hs J hJ)
      push_cast
      linarith
  have ss : s.isLin = true → ∀ (u v : K) (m : ℤ), s.stepSize c u v m = (v - u) / ((m : K) - 1) := by
    intro hs u v m; unfold RIL.stepSize; rw [if_pos hs]
  -- the requested step
  have hst : ∀ u v : K, u < v → (s.isLin = false → 0 < u) → ∀ m : ℤ, 2 ≤ m → 0 < s.stepSize c u v m := by
    intro u v huv hu m hm
    have hm1 : (0 : K) < (m : K) - 1 := by
      have : ((2 : ℤ) : K) ≤ (m : K) := by exact_mod_cast hm
      push_cast at this; linarith
    unfold RIL.stepSize
    split_ifs with hs
    · exact div_pos (by linarith) hm1
    · have hs' : s.isLin = false := by simpa using hs
      exact div_pos ((h.log hs').1.lg_pos (by rw [one_lt_div (hu hs')]; exact huv)) hm1
  set lo2 := (I.locate c lo1).2.1 with hlo2
  have hst1 : 0 < s.stepSize c lo1 hi1 n := hst lo1 hi1 hlt (fun hs => by linarith [(hIpos hs).2]) n hn
  have hlo2k : s.isLin = true → ∃ k : ℤ, lo2 - I.lo = k * I.step := fun hs =>
    ⟨(I.locate c lo1).1, by rw [(L7 (h.lin hs I (by rw [hl]; simp))).1]; ring⟩
  -- the two cases
  unfold RIL.update
  rw [if_pos hpos]
  dsimp only
  rw [if_pos hpos]
  rw [← hlo1, ← hhi1, if_neg (not_le.mpr hlt), hf1]
  have key : ∀ J ∈ s.ilist, J.lo < hi1 → hi1 ≤ J.hi → ∃ hi2 n2 step2,
      hi2 = (if hi1 ≠ (J.locate c hi1).2.1 then (J.locate c hi1).2.2 else hi1) ∧
      n2 = (if 5 * s.stepSize c lo1 hi1 n > (I.locate c lo1).2.2 - (I.locate c lo1).2.1 then s.numPts c lo2 hi2 (s.stepSize c lo1 hi1 n) else n) ∧
      step2 = s.stepSize c lo2 hi2 n2 ∧ hi1 ≤ hi2 ∧ hi2 ≤ J.hi ∧ 2 ≤ n2 ∧ 0 < step2 ∧ (s.isLin = true → (linI lo2 hi2 n2).step = step2) ∧
      (s.isLin = true → hi2 < hi1 + J.step ∧ (∃ k : ℤ, hi2 = J.lo + k * J.step) ∧
        (I.step < 5 * ((hi1 - lo1) / ((n : K) - 1)) → step2 ≤ (hi1 - lo1) / ((n : K) - 1)) ∧
        (5 * ((hi1 - lo1) / ((n : K) - 1)) ≤ I.step → step2 = (hi2 - lo2) / ((n : K) - 1))) := by
    intro J hJ hJ1 hJ2
    obtain ⟨U1, U2, U3⟩ := upper J hJ hJ1 hJ2
    refine ⟨_, _, _, rfl, rfl, rfl, U1, U2, ?_⟩
    set hi2 := (if hi1 ≠ (J.locate c hi1).2.1 then (J.locate c hi1).2.2 else hi1) with hhi2
    have hlh : lo2 < hi2 := by linarith
    have hpos2 : s.isLin = false → LogOk c ∧ 0 < lo2 := fun hs => ⟨(hIpos hs).1, by linarith [(hIpos hs).2]⟩
    have hn2 : 2 ≤ (if 5 * s.stepSize c lo1 hi1 n > (I.locate c lo1).2.2 - (I.locate c lo1).2.1 then s.numPts c lo2 hi2 (s.stepSize c lo1 hi1 n) else n) := by
      split_ifs
      · exact numPts_two hlh hst1 hpos2
      · exact hn
    refine ⟨hn2, hst _ _ hlh (fun hs => (hpos2 hs).2) _ hn2, fun hs => ?_, fun hs => ?_⟩
    · rw [ss hs lo2 hi2]; rfl
    · have e := (L7 (h.lin hs I (by rw [hl]; simp))).2
      have e2 : (I.locate c lo1).2.2 - (I.locate c lo1).2.1 = I.step := by rw [e]; ring
      have e3 : s.stepSize c lo1 hi1 n = (hi1 - lo1) / ((n : K) - 1) := by unfold RIL.stepSize; rw [if_pos hs]
      refine ⟨(U3 hs).1, (U3 hs).2, fun hc => ?_, fun hc => ?_⟩
      · rw [e2, if_pos (by rw [e3]; exact hc), ← e3]
        rw [ss hs lo2 hi2]
        exact numPts_step (c := c) hs hlh hst1
      · rw [e2, if_neg (by rw [e3]; exact not_lt.mpr hc)]
        unfold RIL.stepSize; rw [if_pos hs]
  have hl7 : s.isLin = true → lo1 < lo2 + I.step := fun hs => by
    rw [← (L7 (h.lin hs I (by rw [hl]; simp))).2]; exact L5
  obtain ⟨d, tA, tI1, tI2, tC⟩ := tiles_append.mp (hl ▸ h.tiles)
  have gA : ∀ x ∈ A, Good c x := fun x hx => h.good x (by rw [hl]; simp [hx])
  rcases hf2 with ⟨hJ2, hf2⟩ | ⟨B, J, D, rfl, hJ1, hJ2, hf2⟩
  · rw [hf2]
    obtain ⟨hi2, n2, step2, E1, E2, E3, F1, F2, F3, F4, F5, F6⟩ := key I (by rw [hl]; simp) (by linarith) hJ2
    have hget : s.ilist[A.length]? = some I := by rw [hl]; simp
    simp only [hget]
    rw [if_neg (by omega : ¬ n = 1)]
    simp only [if_true]
    rw [← E1, ← E2, ← E3]
    have upd : ∀ s', (s.isLin = true → StepRel lo2 hi2 step2 s.ilist s'.ilist) → s.isLin = true → Updated s s' lo1 hi1 n := by
      intro s' hr hs
      obtain ⟨G1, G2, G3, G4⟩ := F6 hs
      exact ⟨I, by rw [hl]; simp, I, by rw [hl]; simp, lo2, hi2, step2, hI1, hI2, by linarith, hJ2, L4, hl7 hs, F1, G1,
        (by obtain ⟨k, hk⟩ := hlo2k hs; exact ⟨k, by linarith⟩), G2, G3, G4, hr hs⟩
    by_cases hge : step2 ≥ I.step
    · refine ⟨s, ?_, h, ⟨rfl, rfl, rfl, rfl, rfl⟩, upd s fun hs => stepRel_refl h (by rw [hl]; simp) L3 F2 hge⟩
      unfold RIL.updateInside; rw [if_pos hge]
    · have hge := not_le.mp hge
      rw [updateInside_shape hl hge hgI.step_pos L3 (by linarith) F3 hIpos]
      have hpA : Pre c s.isLin lo2 hi2 step2 s.lo I.lo A A := by
        refine pre_below (by rw [tI1]; exact tA) gA (fun x hx => ?_) (Or.inl L3)
        refine h.many ?_ x (by rw [hl]; simp [hx])
        rw [hl]
        have := List.length_pos_of_mem hx
        simp; omega
      have hpC : Pre c s.isLin lo2 hi2 step2 I.hi s.hi C C := by
        refine pre_below tC (fun x hx => h.good x (by rw [hl]; simp [hx])) (fun x hx => ?_) (Or.inr F2)
        refine h.many ?_ x (by rw [hl]; simp [hx])
        rw [hl]
        have := List.length_pos_of_mem hx
        simp; omega
      have hpI := pre_inside (step := step2) hgI F3 (fun hs => le_of_eq (F5 hs)) hge hIpos L3 (by linarith) F2 hlo2k (fun hs => by
        obtain ⟨k, hk⟩ := (F6 hs).2.1
        have := hgI.span (h.lin hs I (by rw [hl]; simp))
        refine ⟨I.n - 1 - k, ?_⟩
        push_cast
        linarith) (fun hs => (F6 hs).2.1)
      have hp := (hpA.append hpI).append hpC
      have hp' : Pre c s.isLin lo2 hi2 step2 s.lo s.hi s.ilist (A ++ (leftPiece c s I lo2 ++ linI lo2 hi2 n2 :: rightPiece c s I hi2) ++ C) := by
        rw [hl]; simpa using hp
      obtain ⟨s', e1, e2, e3, e4⟩ := finish h hp'
      exact ⟨s', e1, e2, e3, upd s' e4⟩
  · rw [hf2]
    have hJm : J ∈ s.ilist := by rw [hl]; simp
    obtain ⟨hi2, n2, step2, E1, E2, E3, F1, F2, F3, F4, F5, F6⟩ := key J hJm hJ1 hJ2
    have hget : s.ilist[A.length]? = some I := by rw [hl]; simp
    have hget2 : s.ilist[A.length + 1 + B.length]? = some J := by
      rw [hl, show A ++ I :: (B ++ J :: D) = (A ++ I :: B) ++ J :: D by simp, show A.length + 1 + B.length = (A ++ I :: B).length by simp; omega]
      rw [List.getElem?_append_right (le_refl _)]; simp
    simp only [hget, hget2]
    rw [if_neg (by omega : ¬ n = 1), if_neg (by omega : ¬ A.length = A.length + 1 + B.length)]
    rw [← E1, ← E2, ← E3]
    have hgJ := h.good J hJm
    have hJpos : s.isLin = false → LogOk c ∧ 0 < J.lo := fun hs =>
      ⟨(h.log hs).1, lt_of_lt_of_le (h.log hs).2 (tiles_mem h.tiles hJm).1⟩
    have upd : ∀ s', (s.isLin = true → StepRel lo2 hi2 step2 s.ilist s'.ilist) → s.isLin = true → Updated s s' lo1 hi1 n := by
      intro s' hr hs
      obtain ⟨G1, G2, G3, G4⟩ := F6 hs
      exact ⟨I, by rw [hl]; simp, J, hJm, lo2, hi2, step2, hI1, hI2, hJ1, hJ2, L4, hl7 hs, F1, G1,
        (by obtain ⟨k, hk⟩ := hlo2k hs; exact ⟨k, by linarith⟩), G2, G3, G4, hr hs⟩
    rw [updateAcross_shape hl F4 hgI.step_pos hgJ.step_pos L3 (by linarith) (by linarith) hIpos hJpos]
    obtain ⟨d', tB, tJ1, tJ2, tD⟩ := tiles_append.mp tC
    have hlinAll := h.many (by rw [hl]; simp; omega)
    have hIJ : I.hi ≤ J.lo := by rw [tJ1]; exact tiles_le tB
    have hp1 : Pre c s.isLin lo2 hi2 step2 s.lo I.lo A A :=
      pre_below (by rw [tI1]; exact tA) gA (fun x hx => hlinAll x (by rw [hl]; simp [hx])) (Or.inl L3)
    have hp2 := pre_first (s := s) (hi := hi2) F4 hgI (hlinAll I (by rw [hl]; simp)) hIpos L3 (by linarith) (by linarith) hlo2k
    have hp3 : Pre c s.isLin lo2 hi2 step2 I.hi J.lo B (B.map (resampled c s step2)) :=
      pre_resampled F4 (by rw [tJ1]; exact tB) (fun x hx => h.good x (by rw [hl]; simp [hx])) (fun x hx => hlinAll x (by rw [hl]; simp [hx]))
        (fun hs => ⟨(hIpos hs).1, by linarith [(hIpos hs).2, hgI.lt]⟩) (by linarith) (by linarith)
    have hp4 := pre_last (s := s) (lo := lo2) F4 hgJ (hlinAll J hJm) hJpos (show J.lo < hi2 by linarith) F2 (by linarith) (fun hs => by
        obtain ⟨k, hk⟩ := (F6 hs).2.1
        have := hgJ.span (h.lin hs J hJm)
        refine ⟨J.n - 1 - k, ?_⟩
        push_cast
        linarith) (fun hs => (F6 hs).2.1)
    have hp5 : Pre c s.isLin lo2 hi2 step2 J.hi s.hi D D :=
      pre_below tD (fun x hx => h.good x (by rw [hl]; simp [hx])) (fun x hx => hlinAll x (by rw [hl]; simp [hx])) (Or.inr F2)
    have hp := (((hp1.append hp2).append hp3).append hp4).append hp5
    have e : A ++ [I] ++ B ++ [J] ++ D = A ++ I :: (B ++ J :: D) := by simp
    rw [e, ← hl] at hp
    obtain ⟨s', e1, e2, e3, e4⟩ := finish h hp
    exact ⟨s', e1, e2, e3, upd s' e4⟩

theorem update_empty {c : LogExp K} {s : RIL K} (hpos : s.isPos = true) (lo hi : K) (n : ℤ)
    (hlt : min hi s.hi ≤ max lo s.lo) : s.update c lo hi n = (s, some .value) := by
  unfold RIL.update
  rw [if_pos hpos]
  dsimp only
  rw [if_pos hpos]
  rw [if_pos hlt]
  rfl

/-- A request for a single point. -/
theorem update_one {c : LogExp K} {s : RIL K} (h : RInv c s) (hpos : s.isPos = true) (lo hi : K) (hlt : max lo s.lo < min hi s.hi) :
    s.update c lo hi 1 = (s, some .zeroDiv) := by
  obtain ⟨A, I, C, hl, hI1, hI2, hf1, hf2⟩ := ends h.tiles (le_max_right lo s.lo) hlt (min_le_right hi s.hi)
  unfold RIL.update
  rw [if_pos hpos]
  dsimp only
  rw [if_pos hpos]
  rw [if_neg (not_le.mpr hlt), hf1]
  have hget : s.ilist[A.length]? = some I := by rw [hl]; simp
  rcases hf2 with ⟨hJ2, hf2⟩ | ⟨B, J, D, rfl, hJ1, hJ2, hf2⟩
  · rw [hf2]; simp only [hget, if_true]; rfl
  · rw [hf2]
    have hget2 : s.ilist[A.length + 1 + B.length]? = some J := by
      rw [hl, show A ++ I :: (B ++ J :: D) = (A ++ I :: B) ++ J :: D by simp, show A.length + 1 + B.length = (A ++ I :: B).length by simp; omega]
      rw [List.getElem?_append_right (le_refl _)]; simp
    simp only [hget, hget2, if_true]; rfl

theorem init_inv {c : LogExp K} {lo hi : K} {n : ℤ} {isLin : Bool} {s : RIL K} (h : RIL.init c lo hi n isLin = .ok s) (hlt : lo < hi)
    (hlog : isLin = false → LogOk c ∧ 0 < lo) :
    RInv c s ∧ s.isPos = true ∧ s.lo = lo ∧ s.hi = hi ∧ s.isLin = isLin ∧ s.ilist = [s.base] ∧ s.base.n = n ∧ s.base.lo = lo ∧ s.base.hi = hi := by
  unfold RIL.init at h
  split_ifs at h with h1 h2 h3
  simp only [decide_eq_true hlt, if_true] at h
  have hn : 2 ≤ n := by omega
  cases isLin with
  | true =>
    rw [mkIntv_lin c lo hi hn] at h
    injection h with h
    subst h
    refine ⟨⟨⟨rfl, hlt, rfl⟩, hlt, ?_, ?_, by simp, by simp, ⟨[], rfl, ?_⟩, ?_, ?_⟩, rfl, rfl, rfl, rfl, rfl, rfl, rfl, rfl⟩
    · intro I hI; rw [List.mem_singleton.mp hI]; exact linI_good c hlt hn
    · intro _ I hI; rw [List.mem_singleton.mp hI]; rfl
    · simp [cums, linI]
    · intro _ I hI; rw [List.mem_singleton.mp hI]
    · intro _ I hI _; rw [List.mem_singleton.mp hI]; exact ⟨0, by simp [linI]⟩
  | false =>
    obtain ⟨hc, h0⟩ := hlog rfl
    unfold mkIntv at h
    have hm : ¬ lo * hi ≤ 0 := not_le.mpr (mul_pos h0 (by linarith))
    rw [if_neg h1] at h
    simp only [Bool.false_eq_true, if_false, if_neg hm] at h
    injection h with h
    subst h
    refine ⟨⟨⟨rfl, hlt, rfl⟩, hlt, ?_, by simp, fun _ => ⟨hc, h0⟩, by simp, ⟨[], rfl, ?_⟩, by simp, by simp⟩, rfl, rfl, rfl, rfl, rfl, rfl, rfl, rfl⟩
    · intro I hI; rw [List.mem_singleton.mp hI]
      exact ⟨hlt, hn, by simp, fun _ => ⟨hc, h0, rfl, rfl⟩⟩
    · simp [cums]

theorem run_cons (c : LogExp K) (s : RIL K) (o : K × K × ℤ) (ops : List (K × K × ℤ)) :
    s.run c (o :: ops) = ((s.update c o.1 o.2.1 o.2.2).1).run c ops := rfl

theorem Same.refl (s : RIL K) : Same s s := ⟨rfl, rfl, rfl, rfl, rfl⟩

theorem Same.trans {s t u : RIL K} (h1 : Same s t) (h2 : Same t u) : Same s u :=
  ⟨h2.1.trans h1.1, h2.2.1.trans h1.2.1, h2.2.2.1.trans h1.2.2.1, h2.2.2.2.1.trans h1.2.2.2.1, h2.2.2.2.2.trans h1.2.2.2.2⟩

/-- One call, whatever it does. -/
theorem updateRIL_inv {c : LogExp K} {s : RIL K} (h : RInv c s) (hpos : s.isPos = true) (lo hi : K) {n : ℤ} (hn : 1 ≤ n) :
    RInv c (s.update c lo hi n).1 ∧ Same s (s.update c lo hi n).1 := by
  by_cases hlt : max lo s.lo < min hi s.hi
  · by_cases h1 : n = 1
    · subst h1; rw [update_one h hpos lo hi hlt]; exact ⟨h, Same.refl s⟩
    · obtain ⟨s', e, e1, e2, _⟩ := update_spec h hpos lo hi (show 2 ≤ n by omega) hlt
      rw [e]; exact ⟨e1, e2⟩
  · rw [update_empty hpos lo hi n (not_lt.mp hlt)]; exact ⟨h, Same.refl s⟩

theorem run_inv {c : LogExp K} : ∀ {ops : List (K × K × ℤ)} {s : RIL K}, RInv c s → s.isPos = true → (∀ o ∈ ops, 1 ≤ o.2.2) →
    RInv c (s.run c ops) ∧ Same s (s.run c ops)
  | [], s, h, _, _ => ⟨h, Same.refl s⟩
  | o :: ops, s, h, hpos, hn => by
    obtain ⟨h1, h2⟩ := updateRIL_inv h hpos o.1 o.2.1 (hn o (by simp))
    obtain ⟨h3, h4⟩ := run_inv (ops := ops) h1 (h2.1.trans hpos) (fun x hx => hn x (by simp [hx]))
    rw [run_cons]
    exact ⟨h3, h2.trans h4⟩

end
end Verif.Grid1
