import Verif.Grid.IntervalLemmas

/-!
# Refined interval lists: what `update` and `merge` do (helper lemmas)
-/

set_option linter.unusedSectionVars false
set_option linter.unusedSimpArgs false

namespace Verif.Grid1

section
variable {K : Type} [Field K] [LinearOrder K] [IsStrictOrderedRing K] [FloorRing K]

/-! ### List positions -/

theorem insIdx_app {α : Type} (A B : List α) (x : α) : (A ++ B).insertIdx A.length x = A ++ x :: B := by
  induction A with
  | nil => simp
  | cons a A ih => simp [ih]

theorem erIdx_app {α : Type} (A B : List α) (x : α) : (A ++ x :: B).eraseIdx A.length = A ++ B := by
  induction A with
  | nil => simp
  | cons a A ih => simp [ih]

/-- Replace the list of intervals. -/
def withL (s : RIL K) (l : List (Intv K)) : RIL K := { s with ilist := l }

theorem withL_self (s : RIL K) : withL s s.ilist = s := rfl

theorem del_at {s : RIL K} {A C : List (Intv K)} {I : Intv K} (h : s.ilist = A ++ I :: C) : s.del A.length = withL s (A ++ C) := by
  unfold RIL.del withL; rw [h, erIdx_app]

theorem del_w (s : RIL K) (A C : List (Intv K)) (I : Intv K) : (withL s (A ++ I :: C)).del A.length = withL s (A ++ C) := by
  rw [del_at (A := A) (I := I) (C := C) rfl]; rfl

theorem insertNew_w (c : LogExp K) (s : RIL K) (A C : List (Intv K)) (k : ℕ) (hk : k = A.length) (lo hi : K) {n : ℤ} (hn : 2 ≤ n) :
    (withL s (A ++ C)).insertNew c k lo hi n = ok (withL s (A ++ linI lo hi n :: C)) := by
  subst hk
  unfold RIL.insertNew
  rw [mkIntv_lin c lo hi hn]
  dsimp only [withL]
  rw [insIdx_app]

theorem numPts_w (c : LogExp K) (s : RIL K) (l : List (Intv K)) (lo hi st : K) : (withL s l).numPts c lo hi st = s.numPts c lo hi st := rfl

theorem okThen {σ : Type} (s : σ) (f : σ → Res σ) : (ok s).andThen f = f s := rfl

/-! ### `merge` -/

/-- Running sums of the numbers of steps. -/
def cums : ℤ → List (Intv K) → List ℤ
  | _, [] => []
  | a, I :: l => (a + I.n - 1) :: cums (a + I.n - 1) l

theorem cums_append (a : ℤ) (l m : List (Intv K)) :
    cums a (l ++ m) = cums a l ++ cums (a + (l.map fun I => I.n - 1).sum) m := by
  induction l generalizing a with
  | nil => simp [cums]
  | cons I l ih =>
    simp only [List.cons_append, cums, ih, List.map_cons, List.sum_cons]
    congr 3
    ring

theorem cums_length (a : ℤ) (l : List (Intv K)) : (cums a l).length = l.length := by
  induction l generalizing a with
  | nil => rfl
  | cons I l ih => simp [cums, ih]

/-- The point `x` lies in the interval, counting the lower end. -/
def Intv.has (I : Intv K) (x : K) : Prop := I.lo ≤ x ∧ x < I.hi

theorem linI_merge {c : LogExp K} {I J : Intv K} (hI : Good c I) (hJ : Good c J) (h1 : I.isLin = true) (h2 : J.isLin = true)
    (h : I.hi = J.lo) (hs : I.step = J.step) : (linI I.lo J.hi (I.n + J.n - 1)).step = I.step := by
  have a := hI.span h1
  have b := hJ.span h2
  have p := hI.nm1
  have q := hJ.nm1
  unfold linI
  dsimp only
  push_cast
  rw [← hs] at b
  have : J.hi - I.lo = ((I.n : K) + J.n - 1 - 1) * I.step := by
    have : J.hi - I.lo = (J.hi - J.lo) + (I.hi - I.lo) := by rw [h]; ring
    rw [this, ← a, ← b]; ring
  rw [this]
  have : (0 : K) < (I.n : K) + J.n - 1 - 1 := by linarith
  field_simp

theorem mergeLoop_spec (c : LogExp K) : ∀ (C A : List (Intv K)) (I : Intv K) (s : RIL K) (pre : List ℤ) (a b : K),
    s.ilist = A ++ I :: C → pre.length = A.length → s.cumpts = pre ++ [s.npts] → (∀ J ∈ I :: C, Good c J) → Tiles a (I :: C) b →
    (C ≠ [] → ∀ J ∈ I :: C, J.isLin = true) →
    ∃ s' l', mergeLoop c s A.length = ok s' ∧ s'.ilist = A ++ l' ∧ Tiles a l' b ∧ (∀ M ∈ l', Good c M) ∧
      (∀ M ∈ l', (∃ J ∈ I :: C, J.lo = M.lo ∧ J.step = M.step) ∧ ∀ x, M.has x → ∃ J ∈ I :: C, J.has x ∧ J.step = M.step) ∧
      ((∀ J ∈ I :: C, J.isLin = true) → ∀ M ∈ l', M.isLin = true) ∧ (C = [] → l' = [I]) ∧
      (∃ pre', s'.cumpts = pre' ++ [s'.npts] ∧ pre ++ cums (s.npts - I.n + 1) l' = pre' ++ [s'.npts - 1]) ∧
      s'.isPos = s.isPos ∧ s'.lo = s.lo ∧ s'.hi = s.hi ∧ s'.isLin = s.isLin ∧ s'.base = s.base := by
  intro C
  induction C with
  | nil =>
    intro A I s pre a b hl hp hc hg ht hlin
    have hlen : ¬(A.length + 1 < s.ilist.length) := by rw [hl]; simp
    unfold mergeLoop
    rw [dif_neg hlen]
    refine ⟨_, [I], rfl, hl, ht, hg, ?_, fun h => h, fun _ => rfl, ⟨pre, ?_, ?_⟩, rfl, rfl, rfl, rfl, rfl⟩
    · intro M hM; exact ⟨⟨M, hM, rfl, rfl⟩, fun x hx => ⟨M, hM, hx, rfl⟩⟩
    · dsimp only; rw [hc]; simp
    · dsimp only [cums]; congr 1; congr 1; ring
  | cons J C ih =>
    intro A I s pre a b hl hp hc hg ht hlin
    have hlin' := hlin (by simp)
    have hlen : A.length + 1 < s.ilist.length := by rw [hl]; simp
    have hI : s.ilist[A.length]'(by omega) = I := by simp [hl]
    have hJ : s.ilist[A.length + 1] = J := by simp [hl, List.getElem_append]
    obtain ⟨ht1, ht2, ht3, ht4, ht5⟩ := ht
    unfold mergeLoop
    rw [dif_pos hlen]
    dsimp only
    rw [hI, hJ]
    by_cases hst : I.step = J.step
    · rw [if_pos hst]
      have hgI := hg I (by simp)
      have hgJ := hg J (by simp)
      have hn : 2 ≤ I.n + J.n - 1 := by have := hgI.n; have := hgJ.n; omega
      rw [mkIntv_lin c _ _ hn]
      dsimp only
      have hstep := linI_merge hgI hgJ (hlin' I (by simp)) (hlin' J (by simp)) ht3.symm hst
      have hlist : ((s.ilist.eraseIdx A.length).eraseIdx A.length).insertIdx A.length (linI I.lo J.hi (I.n + J.n - 1)) =
          A ++ linI I.lo J.hi (I.n + J.n - 1) :: C := by
        rw [hl, erIdx_app, erIdx_app, insIdx_app]
      have hcum : ((s.cumpts ++ [s.npts + J.n - 1]).set A.length ((s.cumpts ++ [s.npts + J.n - 1]).getD (A.length + 1) 0)).dropLast =
          pre ++ [s.npts + J.n - 1] := by
        rw [hc, ← hp]
        simp
      rw [hlist, hcum]
      set M := linI I.lo J.hi (I.n + J.n - 1) with hM
      have hMlt : I.lo < J.hi := by linarith
      have hMg : Good c M := linI_good c hMlt hn
      obtain ⟨s', l', e, e1, e2, e3, e4, e5, e6, e7, e8⟩ := ih A M
        { s with npts := s.npts + J.n - 1, ilist := A ++ M :: C, cumpts := pre ++ [s.npts + J.n - 1] } pre a b
        rfl hp rfl
        (fun N hN => by
          rcases List.mem_cons.mp hN with rfl | hN
          · exact hMg
          · exact hg N (by simp [hN]))
        ⟨ht1, hMlt, ht5⟩
        (fun _ N hN => by
          rcases List.mem_cons.mp hN with rfl | hN
          · rfl
          · exact hlin' N (by simp [hN]))
      refine ⟨s', l', e, e1, e2, e3, ?_, ?_, by simp, ?_, e8⟩
      · intro N hN
        refine ⟨?_, fun x hx => ?_⟩
        · obtain ⟨Q, hQ, hQx, hQs⟩ := (e4 N hN).1
          rcases List.mem_cons.mp hQ with rfl | hQ
          · exact ⟨I, by simp, hQx, by rw [← hQs]; exact hstep.symm⟩
          · exact ⟨Q, by simp [hQ], hQx, hQs⟩
        obtain ⟨Q, hQ, hQx, hQs⟩ := (e4 N hN).2 x hx
        rcases List.mem_cons.mp hQ with rfl | hQ
        · by_cases hx2 : x < I.hi
          · exact ⟨I, by simp, ⟨hQx.1, hx2⟩, by rw [← hQs]; exact hstep.symm⟩
          · refine ⟨J, by simp, ⟨by rw [ht3]; exact not_lt.mp hx2, hQx.2⟩, ?_⟩
            rw [← hQs, ← hst]; exact hstep.symm
        · exact ⟨Q, by simp [hQ], hQx, hQs⟩
      · intro h
        refine e5 fun N hN => ?_
        rcases List.mem_cons.mp hN with rfl | hN
        · rfl
        · exact h N (by simp [hN])
      · obtain ⟨pre', h1, h2⟩ := e7
        refine ⟨pre', h1, ?_⟩
        rw [← h2]
        congr 2
        simp only [hM, linI]
        ring
    · rw [if_neg hst]
      have := ih (A ++ [I]) J { s with npts := s.npts + J.n - 1, cumpts := s.cumpts ++ [s.npts + J.n - 1] } (pre ++ [s.npts]) I.hi b
        (by simp [hl]) (by simp [hp]) (by simp [hc]) (fun N hN => hg N (by simp only [List.mem_cons] at hN ⊢; tauto)) ⟨ht3, ht4, ht5⟩
        (fun _ N hN => hlin' N (by simp only [List.mem_cons] at hN ⊢; tauto))
      rw [List.length_append, List.length_singleton] at this
      obtain ⟨s', l', e, e1, e2, e3, e4, e5, e6, e7, e8⟩ := this
      refine ⟨s', I :: l', e, by rw [e1]; simp, ⟨ht1, ht2, e2⟩, ?_, ?_, ?_, by simp, ?_, e8⟩
      · intro N hN
        rcases List.mem_cons.mp hN with rfl | hN
        · exact hg _ (by simp)
        · exact e3 N hN
      · intro N hN
        rcases List.mem_cons.mp hN with rfl | hN
        · exact ⟨⟨N, by simp, rfl, rfl⟩, fun x hx => ⟨N, by simp, hx, rfl⟩⟩
        · obtain ⟨⟨Q, hQ, h⟩, h'⟩ := e4 N hN
          refine ⟨⟨Q, by simp only [List.mem_cons] at hQ ⊢; tauto, h⟩, fun x hx => ?_⟩
          obtain ⟨Q, hQ, h⟩ := h' x hx
          exact ⟨Q, by simp only [List.mem_cons] at hQ ⊢; tauto, h⟩
      · intro h N hN
        rcases List.mem_cons.mp hN with rfl | hN
        · exact h _ (by simp)
        · exact e5 (fun Q hQ => h Q (by simp only [List.mem_cons] at hQ ⊢; tauto)) N hN
      · obtain ⟨pre', h1, h2⟩ := e7
        refine ⟨pre', h1, ?_⟩
        rw [← h2]
        simp only [cums, List.append_assoc, List.singleton_append]
        congr 2
        · ring
        · congr 1; ring

/-- Point counts agree with the list. -/
def CumOk (s : RIL K) : Prop := ∃ pre, s.cumpts = pre ++ [s.npts] ∧ cums 0 s.ilist = pre ++ [s.npts - 1]

theorem merge_spec {c : LogExp K} {s : RIL K} {a b : K} (hne : s.ilist ≠ []) (hg : ∀ J ∈ s.ilist, Good c J) (ht : Tiles a s.ilist b)
    (hlin : ∀ J ∈ s.ilist, J.isLin = true) :
    ∃ s', s.merge c = ok s' ∧ Tiles a s'.ilist b ∧ (∀ M ∈ s'.ilist, Good c M) ∧
      (∀ M ∈ s'.ilist, (∃ J ∈ s.ilist, J.lo = M.lo ∧ J.step = M.step) ∧ ∀ x, M.has x → ∃ J ∈ s.ilist, J.has x ∧ J.step = M.step) ∧ (∀ M ∈ s'.ilist, M.isLin = true) ∧ CumOk s' ∧
      s'.isPos = s.isPos ∧ s'.lo = s.lo ∧ s'.hi = s.hi ∧ s'.isLin = s.isLin ∧ s'.base = s.base := by
  obtain ⟨I, C, hl⟩ := List.exists_cons_of_ne_nil hne
  have hm : s.merge c = mergeLoop c { s with npts := I.n - 1, cumpts := [I.n - 1] } 0 := by
    unfold RIL.merge
    split
    · next h => rw [hl] at h; exact absurd h (by simp)
    · next h => rw [hl] at h; injection h with h1 h2; subst h1; rfl
  rw [hl] at hg ht hlin ⊢
  rw [hm]
  obtain ⟨s', l', e, e1, e2, e3, e4, e5, e6, ⟨pre', e7, e7'⟩, e8⟩ := mergeLoop_spec c C [] I
    { s with npts := I.n - 1, cumpts := [I.n - 1] } [] a b (by simpa using hl) rfl rfl hg ht (fun _ => hlin)
  rw [List.nil_append] at e1
  refine ⟨s', e, ?_⟩
  rw [e1]
  refine ⟨e2, e3, e4, e5 hlin, ⟨pre', e7, ?_⟩, e8⟩
  rw [e1, ← e7']
  simp

/-! ### The shapes of updated lists -/

/-- The optional piece left of the new interval. -/
def leftPiece (c : LogExp K) (s : RIL K) (I : Intv K) (lo : K) : List (Intv K) :=
  if lo > I.lo then [linI I.lo lo (s.numPts c I.lo lo I.step)] else []

/-- The optional piece right of the new interval. -/
def rightPiece (c : LogExp K) (s : RIL K) (J : Intv K) (hi : K) : List (Intv K) :=
  if J.hi > hi then [linI hi J.hi (s.numPts c hi J.hi J.step)] else []

theorem updateInside_shape {c : LogExp K} {s : RIL K} {A C : List (Intv K)} {I : Intv K} (hl : s.ilist = A ++ I :: C)
    {lo hi : K} {n : ℤ} {step : K} (hst : step < I.step) (hIs : 0 < I.step) (hlo : I.lo ≤ lo) (hlh : lo < hi) (hn : 2 ≤ n)
    (hlog : s.isLin = false → LogOk c ∧ 0 < I.lo) :
    s.updateInside c A.length I lo hi n step =
      (withL s (A ++ (leftPiece c s I lo ++ linI lo hi n :: rightPiece c s I hi) ++ C)).merge c := by
  unfold RIL.updateInside
  rw [if_neg (not_le.mpr hst)]
  rw [del_at hl]
  dsimp only
  have hlog2 : s.isLin = false → LogOk c ∧ 0 < hi := fun h => ⟨(hlog h).1, by linarith [(hlog h).2]⟩
  simp only [leftPiece, rightPiece, numPts_w]
  by_cases h1 : lo > I.lo <;> by_cases h2 : I.hi > hi
  · simp only [if_pos h1, if_pos h2]
    rw [insertNew_w c s A C _ rfl _ _ (numPts_two h1 hIs hlog), okThen, List.append_cons]
    rw [insertNew_w c s _ C _ (by simp) _ _ hn, okThen, List.append_cons, numPts_w]
    rw [insertNew_w c s _ C _ (by simp) _ _ (numPts_two h2 hIs hlog2), okThen]
    simp
  · simp only [if_pos h1, if_neg h2]
    rw [insertNew_w c s A C _ rfl _ _ (numPts_two h1 hIs hlog), okThen, List.append_cons]
    rw [insertNew_w c s _ C _ (by simp) _ _ hn, okThen, okThen]
    simp
  · simp only [if_neg h1, if_pos h2]
    rw [okThen, insertNew_w c s A C _ rfl _ _ hn, okThen, List.append_cons, numPts_w]
    rw [insertNew_w c s _ C _ (by simp) _ _ (numPts_two h2 hIs hlog2), okThen]
    simp
  · simp only [if_neg h1, if_neg h2]
    rw [okThen, insertNew_w c s A C _ rfl _ _ hn, okThen, okThen]
    simp

theorem splitLo_shape {c : LogExp K} {s : RIL K} {A C : List (Intv K)} {I : Intv K} (hl : s.ilist = A ++ I :: C)
    {lo step : K} (hst : 0 < step) (hIs : 0 < I.step) (hlo : I.lo ≤ lo) (hlh : lo < I.hi)
    (hlog : s.isLin = false → LogOk c ∧ 0 < I.lo) :
    s.splitLo c A.length I lo step =
      ok (withL s (A ++ (leftPiece c s I lo ++ [linI lo I.hi (s.numPts c lo I.hi step)]) ++ C)) := by
  unfold RIL.splitLo
  rw [del_at hl]
  dsimp only
  have hn : 2 ≤ s.numPts c lo I.hi step := numPts_two hlh hst fun h => ⟨(hlog h).1, by linarith [(hlog h).2]⟩
  simp only [leftPiece, numPts_w]
  by_cases h1 : lo > I.lo
  · simp only [if_pos h1]
    rw [insertNew_w c s A C _ rfl _ _ (numPts_two h1 hIs hlog), okThen, List.append_cons, numPts_w]
    rw [insertNew_w c s _ C _ (by simp) _ _ hn]
    simp
  · simp only [if_neg h1]
    rw [okThen, numPts_w, insertNew_w c s A C _ rfl _ _ hn]
    simp

theorem splitHi_shape {c : LogExp K} {s : RIL K} {A C : List (Intv K)} {J : Intv K}
    {hi step : K} (hst : 0 < step) (hJs : 0 < J.step) (hlo : J.lo < hi)
    (hlog : s.isLin = false → LogOk c ∧ 0 < J.lo) :
    (withL s (A ++ J :: C)).splitHi c A.length J hi step =
      ok (withL s (A ++ (linI J.lo hi (s.numPts c J.lo hi step) :: rightPiece c s J hi) ++ C)) := by
  unfold RIL.splitHi
  rw [del_w]
  dsimp only
  have hn : 2 ≤ s.numPts c J.lo hi step := numPts_two hlo hst hlog
  rw [numPts_w, insertNew_w c s A C _ rfl _ _ hn, okThen]
  simp only [rightPiece, numPts_w]
  by_cases h2 : J.hi > hi
  · simp only [if_pos h2]
    rw [List.append_cons, insertNew_w c s _ C _ (by simp) _ _ (numPts_two h2 hJs fun h => ⟨(hlog h).1, by linarith [(hlog h).2]⟩)]
    simp
  · simp only [if_neg h2]
    simp

/-- What becomes of an interval inside the new one. -/
def resampled (c : LogExp K) (s : RIL K) (step : K) (I : Intv K) : Intv K :=
  if I.step > step then I.resample c (s.numPts c I.lo I.hi step) else I

theorem mapIdx_none {α : Type} (X : List α) (lo hi : ℕ) (p : α → Prop) [DecidablePred p] (f : α → α) (k : ℕ)
    (h : X.length + k ≤ lo ∨ hi ≤ k) : X.mapIdx (fun i I => if lo ≤ i + k ∧ i + k < hi ∧ p I then f I else I) = X := by
  refine List.ext_getElem (by simp) fun i h1 h2 => ?_
  rw [List.getElem_mapIdx]
  rw [if_neg]
  omega

theorem mapIdx_all {α : Type} (X : List α) (lo hi : ℕ) (p : α → Prop) [DecidablePred p] (f : α → α) (k : ℕ)
    (h1 : lo ≤ k) (h2 : X.length + k ≤ hi) :
    X.mapIdx (fun i I => if lo ≤ i + k ∧ i + k < hi ∧ p I then f I else I) = X.map fun I => if p I then f I else I := by
  refine List.ext_getElem (by simp) fun i h3 h4 => ?_
  rw [List.getElem_mapIdx, List.getElem_map]
  have : i < X.length := by simpa using h3
  by_cases hp : p X[i]
  · rw [if_pos ⟨by omega, by omega, hp⟩, if_pos hp]
  · rw [if_neg (fun h => hp h.2.2), if_neg hp]

theorem resampleRange_shape (c : LogExp K) (s : RIL K) (X B Y : List (Intv K)) (step : K) (i j : ℕ) (hi : i = X.length)
    (hj : j = X.length + B.length) :
    (withL s (X ++ B ++ Y)).resampleRange c i j step = withL s (X ++ B.map (resampled c s step) ++ Y) := by
  subst hi hj
  unfold RIL.resampleRange
  dsimp only [withL]
  congr 1
  rw [List.mapIdx_append, List.mapIdx_append]
  congr 1
  · congr 1
    · exact mapIdx_none X X.length (X.length + B.length) (fun I => I.step > step) _ 0 (Or.inl (by omega))
    · exact mapIdx_all B X.length (X.length + B.length) (fun I => I.step > step) _ X.length (le_refl _) (by omega)
  · have := mapIdx_none Y X.length (X.length + B.length) (fun I => I.step > step)
      (fun I => I.resample c (s.numPts c I.lo I.hi step)) (X ++ B).length (Or.inr (by simp))
    exact this

theorem updateAcross_shape {c : LogExp K} {s : RIL K} {A B C : List (Intv K)} {I J : Intv K} (hl : s.ilist = A ++ I :: (B ++ J :: C))
    {lo hi step : K} (hst : 0 < step) (hIs : 0 < I.step) (hJs : 0 < J.step) (hlo : I.lo ≤ lo) (hlh : lo < I.hi) (hhi : J.lo < hi)
    (hlogI : s.isLin = false → LogOk c ∧ 0 < I.lo) (hlogJ : s.isLin = false → LogOk c ∧ 0 < J.lo) :
    s.updateAcross c A.length (A.length + 1 + B.length) I J lo hi step =
      (withL s (A ++ (if step < I.step then leftPiece c s I lo ++ [linI lo I.hi (s.numPts c lo I.hi step)] else [I]) ++
          B.map (resampled c s step) ++
          (if step < J.step then linI J.lo hi (s.numPts c J.lo hi step) :: rightPiece c s J hi else [J]) ++ C)).merge c := by
  -- the first part of the list after `splitLo`
  obtain ⟨P, hP, hPe⟩ : ∃ P, (if step < I.step then s.splitLo c A.length I lo step else ok s) =
      ok (withL s (A ++ P ++ (B ++ J :: C))) ∧
      P = (if step < I.step then leftPiece c s I lo ++ [linI lo I.hi (s.numPts c lo I.hi step)] else [I]) := by
    by_cases h : step < I.step
    · simp only [if_pos h]
      exact ⟨_, splitLo_shape hl hst hIs hlo hlh hlogI, rfl⟩
    · simp only [if_neg h]
      refine ⟨[I], ?_, rfl⟩
      have : s.ilist = A ++ [I] ++ (B ++ J :: C) := by rw [hl]; simp
      rw [← this, withL_self]
  obtain ⟨Q, hQ⟩ : ∃ Q, Q = (if step < J.step then linI J.lo hi (s.numPts c J.lo hi step) :: rightPiece c s J hi else [J]) := ⟨_, rfl⟩
  have hnhi : (if step < I.step ∧ lo > I.lo then A.length + 1 + B.length + 1 else A.length + 1 + B.length) = (A ++ P ++ B).length := by
    rw [hPe]
    by_cases h1 : step < I.step <;> by_cases h2 : lo > I.lo
    · rw [if_pos ⟨h1, h2⟩, if_pos h1, leftPiece, if_pos h2]; simp; omega
    · rw [if_neg (fun h => h2 h.2), if_pos h1, leftPiece, if_neg h2]; simp; omega
    · rw [if_neg (fun h => h1 h.1), if_neg h1]; simp; omega
    · rw [if_neg (fun h => h1 h.1), if_neg h1]; simp; omega
  unfold RIL.updateAcross
  rw [hP, okThen, ← hPe, ← hQ]
  dsimp only
  rw [hnhi]
  have hsplit : (if step < J.step then (withL s (A ++ P ++ (B ++ J :: C))).splitHi c (A ++ P ++ B).length J hi step
      else ok (withL s (A ++ P ++ (B ++ J :: C)))) = ok (withL s (A ++ P ++ B ++ (Q ++ C))) := by
    by_cases h : step < J.step
    · rw [if_pos h, show A ++ P ++ (B ++ J :: C) = (A ++ P ++ B) ++ J :: C by simp]
      rw [splitHi_shape (A := A ++ P ++ B) (C := C) hst hJs hhi hlogJ, hQ, if_pos h]
      simp
    · rw [if_neg h, hQ, if_neg h]
      simp
  rw [hsplit, okThen]
  congr 1
  by_cases h1 : step < I.step
  · rw [resampleRange_shape c s (A ++ P) B (Q ++ C)]
    · simp only [List.append_assoc]
    · rw [hPe, if_pos h1, if_pos h1]
      by_cases h2 : lo > I.lo
      · rw [if_pos h2, leftPiece, if_pos h2]; simp
      · rw [if_neg h2, leftPiece, if_neg h2]; simp
    · simp; omega
  · have hPI : P = [I] := by rw [hPe, if_neg h1]
    rw [show A ++ P ++ B ++ (Q ++ C) = A ++ (I :: B) ++ (Q ++ C) by rw [hPI]; simp]
    rw [resampleRange_shape c s A (I :: B) (Q ++ C)]
    · rw [List.map_cons, resampled, if_neg (not_lt.mpr (not_lt.mp h1)), hPI]
      simp only [List.append_assoc, List.singleton_append, List.cons_append, List.nil_append]
    · rw [if_neg h1]
    · rw [hPI]; simp

end
end Verif.Grid1
