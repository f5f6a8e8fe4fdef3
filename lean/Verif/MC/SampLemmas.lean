import Verif.MC.PopLemmas

/-! # Lemmas on the draws: the samples have distinct entries, in range, and use up the numbers in order -/

set_option linter.unusedSectionVars false
set_option linter.unusedSimpArgs false

namespace Verif.MC

variable {K : Type*} [Field K] [LinearOrder K] [IsStrictOrderedRing K] [FloorRing K] {α : Type*}

theorem ratioLoop_spec (rmax : ℕ) (cr : List (Ext K)) (tot : Ext K) (n : ℕ) (sample rs out rest : List ℕ) (hd : sample.Nodup)
    (h : ratioLoop rmax cr tot n sample rs = some (out, false, rest)) :
    out.Nodup ∧ out.length = sample.length + n ∧ (∃ used, rs = used ++ rest) ∧
      ∀ i ∈ out, i ∈ sample ∨ ∃ r ∈ rs, i = cr.findIdx (Ext.le (rval rmax tot r)) := by
  induction n generalizing sample rs with
  | zero =>
    simp only [ratioLoop, Option.some.injEq, Prod.mk.injEq, true_and] at h
    obtain ⟨rfl, rfl⟩ := h
    exact ⟨hd, rfl, ⟨[], rfl⟩, fun i hi => Or.inl hi⟩
  | succ n ih =>
    cases rs with
    | nil => simp [ratioLoop] at h
    | cons r rs =>
      unfold ratioLoop at h
      dsimp only at h
      split_ifs at h with hm
      · simp at h
      · obtain ⟨h1, h2, ⟨used, h3⟩, h4⟩ := ih _ _ (by
          rw [List.nodup_append]
          refine ⟨hd, by simp, ?_⟩
          intro a ha b hb
          simp at hb
          rintro rfl
          rw [← hb] at hm
          exact hm ha) h
        refine ⟨h1, by rw [h2]; simp; omega, ⟨r :: used, by rw [h3]; rfl⟩, fun i hi => ?_⟩
        rcases h4 i hi with h5 | ⟨r', hr', h5⟩
        · rcases List.mem_append.1 h5 with h6 | h6
          · exact Or.inl h6
          · right; exact ⟨r, List.mem_cons_self .., by simpa using h6⟩
        · right; exact ⟨r', List.mem_cons_of_mem _ hr', h5⟩

theorem ratioLoop_used (rmax : ℕ) (cr : List (Ext K)) (tot : Ext K) (n : ℕ) (sample rs out rest : List ℕ) (d : Bool)
    (h : ratioLoop rmax cr tot n sample rs = some (out, d, rest)) : ∃ used, rs = used ++ rest := by
  induction n generalizing sample rs with
  | zero =>
    simp only [ratioLoop, Option.some.injEq, Prod.mk.injEq] at h
    exact ⟨[], h.2.2⟩
  | succ n ih =>
    cases rs with
    | nil => simp [ratioLoop] at h
    | cons r rs =>
      unfold ratioLoop at h
      dsimp only at h
      split_ifs at h with hm
      · simp only [Option.some.injEq, Prod.mk.injEq] at h
        exact ⟨[r], by rw [h.2.2]; rfl⟩
      · obtain ⟨u, hu⟩ := ih _ _ h
        exact ⟨r :: u, by rw [hu]; rfl⟩

/-- A sample of the rejection loop: distinct entries; the words and numbers are used up in order. -/
theorem tryLoop_spec (rmax : ℕ) (cw : List K) (wtot : K) (cr : List (Ext K)) (tot : Ext K) (nsamp : ℤ) (k : ℕ) :
    ∀ (ws rs : List ℕ), ws.length ≤ k → ∀ ntry out ws' rs', tryLoop rmax cw wtot cr tot nsamp ws rs = some (ntry, out, ws', rs') →
    out.Nodup ∧ out.length = 1 + (nsamp - 1).toNat ∧ (∃ used, used ≠ [] ∧ ws = used ++ ws') ∧ (∃ used, rs = used ++ rs') ∧
      ∀ i ∈ out, (∃ w1 ∈ ws, ∃ w2 ∈ ws, i = cw.findIdx (fun c => wtot * rkDouble w1 w2 ≤ c)) ∨ ∃ r ∈ rs, i = cr.findIdx (Ext.le (rval rmax tot r)) := by
  induction k with
  | zero =>
    intro ws rs hl ntry out ws' rs' h
    have : ws = [] := List.length_eq_zero_iff.1 (by omega)
    subst this
    simp [tryLoop] at h
  | succ k ih =>
    intro ws rs hl ntry out ws' rs' h
    match ws, hl, h with
    | [], _, h => simp [tryLoop] at h
    | [w], _, h => simp [tryLoop] at h
    | w1 :: w2 :: ws, hl, h =>
      unfold tryLoop at h
      dsimp only at h
      rcases hr : ratioLoop rmax cr tot (nsamp - 1).toNat [cw.findIdx (fun c => wtot * rkDouble w1 w2 ≤ c)] rs with _ | ⟨s, d, rs1⟩
      · rw [hr] at h; simp at h
      · rw [hr] at h
        cases d with
        | false =>
          simp only [Option.some.injEq, Prod.mk.injEq] at h
          obtain ⟨_, rfl, rfl, rfl⟩ := h
          obtain ⟨h1, h2, h3, h4⟩ := ratioLoop_spec rmax cr tot _ _ _ _ _ (by simp) hr
          refine ⟨h1, by rw [h2]; simp, ⟨[w1, w2], by simp, rfl⟩, h3, fun i hi => ?_⟩
          rcases h4 i hi with h5 | h5
          · left
            simp only [List.mem_singleton] at h5
            exact ⟨w1, by simp, w2, by simp, h5⟩
          · right; exact h5
        | true =>
          dsimp only at h
          rcases ht : tryLoop rmax cw wtot cr tot nsamp ws rs1 with _ | ⟨n', o'⟩
          · rw [ht] at h; simp at h
          · rw [ht] at h
            simp only [Option.some.injEq, Prod.mk.injEq] at h
            obtain ⟨_, rfl⟩ := h
            obtain ⟨h1, h2, ⟨u, hu0, hu⟩, ⟨v, hv⟩, h4⟩ := ih ws rs1 (by simp at hl; omega) _ _ _ _ ht
            obtain ⟨v', hv'⟩ := ratioLoop_used _ _ _ _ _ _ _ _ _ hr
            refine ⟨h1, h2, ⟨w1 :: w2 :: u, by simp, by rw [hu]; rfl⟩, ⟨v' ++ v, by rw [hv', hv]; simp⟩, fun i hi => ?_⟩
            rcases h4 i hi with ⟨a, ha, b, hb, h5⟩ | ⟨r, hr1, h5⟩
            · left; exact ⟨a, by simp [ha], b, by simp [hb], h5⟩
            · right; exact ⟨r, by rw [hv']; exact List.mem_append_right _ hr1, h5⟩

theorem dran_used (s : Sampler) (ws : List ℕ) (i : ℕ) (rest : List ℕ) (h : dran s ws = some (i, rest)) : ∃ used, ws = used ++ rest := by
  cases hs : s.prob1 with
  | some k =>
    rw [dran.eq_def, hs] at h
    simp only [Option.some.injEq, Prod.mk.injEq] at h
    exact ⟨[], h.2⟩
  | none =>
    induction ws with
    | nil => rw [dran_nil s hs] at h; cases h
    | cons w ws ih =>
      rw [dran_cons s hs] at h
      cases hl : s.look (w >>> 2) with
      | item k =>
        rw [hl] at h
        simp only [Option.some.injEq, Prod.mk.injEq] at h
        exact ⟨[w], by rw [h.2]; rfl⟩
      | again =>
        rw [hl] at h
        obtain ⟨u, hu⟩ := ih h
        exact ⟨w :: u, by rw [hu]; rfl⟩
      | wild => rw [hl] at h; cases h

theorem dranArray_used (s : Sampler) (n : ℕ) (ws out rest : List ℕ) (h : dranArray s n ws = some (out, rest)) : ∃ used, ws = used ++ rest := by
  rw [C51_array] at h
  induction n generalizing ws out with
  | zero => simp only [draws, Option.some.injEq, Prod.mk.injEq] at h; exact ⟨[], h.2⟩
  | succ n ih =>
    unfold draws at h
    rcases hd : dran s ws with _ | ⟨i, ws1⟩
    · rw [hd] at h; cases h
    · rw [hd] at h
      dsimp only at h
      rcases h2 : draws s n ws1 with _ | ⟨o, ws2⟩
      · rw [h2] at h; cases h
      · rw [h2] at h
        simp only [Option.some.injEq, Prod.mk.injEq] at h
        obtain ⟨u, hu⟩ := dran_used s ws i ws1 hd
        obtain ⟨v, hv⟩ := ih ws1 o (by rw [h2, h.2])
        exact ⟨u ++ v, by rw [hu, hv]; simp⟩

theorem fill_mem (k : ℕ) (P : List ℕ) (i j : ℕ) (h : j ∈ fill k P i) : j < i + P.length := by
  induction P generalizing i with
  | nil => simp [fill] at h
  | cons a P ih =>
    unfold fill at h
    rcases List.mem_append.1 h with h | h
    · have := List.eq_of_mem_replicate h; simp; omega
    · have := ih (i + 1) h; simp; omega

theorem findOne_lt (P : List ℕ) (i j : ℕ) (h : findOne P i = some j) : j < i + P.length := by
  induction P generalizing i with
  | nil => simp [findOne] at h
  | cons a P ih =>
    unfold findOne at h
    split_ifs at h with h1
    · simp only [Option.some.injEq] at h; simp; omega
    · have := ih (i + 1) h; simp; omega

/-- A draw gives the number of one of the weights. -/
theorem dran_lt (w : List K) (s : Sampler) (hi : initSampler w = some s) (ws : List ℕ) (i : ℕ) (rest : List ℕ) (h : dran s ws = some (i, rest)) :
    i < w.length := by
  have hq : (quant w).length = w.length := by simp [quant]
  unfold initSampler at hi
  have hentry : ∀ (t : List ℕ) (k j : ℕ), entry t k = .item j → j ∈ t := by
    intro t k j he
    unfold entry at he
    cases ht : t[k]? with
    | none => rw [ht] at he; cases he
    | some x => rw [ht] at he; simp at he; subst he; exact List.mem_of_getElem? ht
  have key : ∀ s : Sampler, (∀ j, s.prob1 = some j → j < w.length) → (∀ word j, s.look word = .item j → j < w.length) → ∀ ws, dran s ws = some (i, rest) →
      i < w.length := by
    intro s h1 h2 ws hd
    cases hp : s.prob1 with
    | some k =>
      rw [dran.eq_def, hp] at hd
      simp only [Option.some.injEq, Prod.mk.injEq] at hd
      rw [← hd.1]; exact h1 k hp
    | none =>
      induction ws with
      | nil => rw [dran_nil s hp] at hd; cases hd
      | cons x ws ih =>
        rw [dran_cons s hp] at hd
        cases hl : s.look (x >>> 2) with
        | item k =>
          rw [hl] at hd
          simp only [Option.some.injEq, Prod.mk.injEq] at hd
          rw [← hd.1]; exact h2 _ k hl
        | again => rw [hl] at hd; exact ih hd
        | wild => rw [hl] at hd; cases hd
  by_cases h1 : wsum w ≤ 0
  · rw [if_pos h1] at hi; cases hi
  rw [if_neg h1] at hi
  dsimp only at hi
  by_cases h2 : tsize (quant w) 1 + tsize (quant w) 2 + tsize (quant w) 3 + tsize (quant w) 4 + tsize (quant w) 5 = 0
  · rw [if_pos h2] at hi
    simp only [Option.some.injEq] at hi
    subst hi
    refine key _ ?_ ?_ ws h
    · intro j hj; have := findOne_lt _ _ _ hj; omega
    · intro word j hj; simp [Sampler.look] at hj
  · rw [if_neg h2] at hi
    simp only [Option.some.injEq] at hi
    subst hi
    refine key _ (by simp) ?_ ws h
    intro word j hj
    unfold Sampler.look at hj
    dsimp only at hj
    split_ifs at hj
    · have := fill_mem _ _ _ _ (hentry _ _ _ hj); omega
    · have := fill_mem _ _ _ _ (hentry _ _ _ hj); omega
    · have := fill_mem _ _ _ _ (hentry _ _ _ hj); omega
    · have := fill_mem _ _ _ _ (hentry _ _ _ hj); omega
    · have := fill_mem _ _ _ _ (hentry _ _ _ hj); omega

theorem tableLoop_spec (tab : Sampler) (indices : List ℕ) (n : ℕ) (sample ws out rest : List ℕ) (d : Bool) (hd : sample.Nodup)
    (h : tableLoop tab indices n sample ws = some (out, d, rest)) :
    (∃ used, ws = used ++ rest) ∧ (d = false → out.Nodup ∧ out.length = sample.length + n ∧ ∀ i ∈ out, i ∈ sample ∨ i ∈ indices) := by
  induction n generalizing sample ws with
  | zero =>
    simp only [tableLoop, Option.some.injEq, Prod.mk.injEq] at h
    obtain ⟨rfl, rfl, rfl⟩ := h
    exact ⟨⟨[], rfl⟩, fun _ => ⟨hd, rfl, fun i hi => Or.inl hi⟩⟩
  | succ n ih =>
    unfold tableLoop at h
    rcases hr : dran tab ws with _ | ⟨k, ws1⟩
    · rw [hr] at h; cases h
    · rw [hr] at h
      dsimp only at h
      obtain ⟨u, hu⟩ := dran_used tab ws k ws1 hr
      cases hk : indices[k]? with
      | none => rw [hk] at h; cases h
      | some i =>
        rw [hk] at h
        dsimp only at h
        split_ifs at h with hm
        · simp only [Option.some.injEq, Prod.mk.injEq] at h
          obtain ⟨_, rfl, rfl⟩ := h
          exact ⟨⟨u, hu⟩, by simp⟩
        · obtain ⟨⟨v, hv⟩, h2⟩ := ih (sample ++ [i]) ws1 (by
            rw [List.nodup_append]
            refine ⟨hd, by simp, ?_⟩
            intro a ha b hb
            simp at hb
            rintro rfl
            rw [hb] at ha
            exact hm ha) h
          refine ⟨⟨u ++ v, by rw [hu, hv]; simp⟩, fun hdf => ?_⟩
          obtain ⟨h3, h4, h5⟩ := h2 hdf
          refine ⟨h3, by rw [h4]; simp; omega, fun j hj => ?_⟩
          rcases h5 j hj with h6 | h6
          · rcases List.mem_append.1 h6 with h7 | h7
            · exact Or.inl h7
            · right; simp only [List.mem_singleton] at h7; rw [h7]; exact List.mem_of_getElem? hk
          · exact Or.inr h6

theorem tryLoop5_spec (main tab : Sampler) (indices : List ℕ) (nsamp : ℤ) (fuel : ℕ) (ws : List ℕ) (ntry : ℕ) (out ws' : List ℕ)
    (h : tryLoop5 main tab indices nsamp fuel ws = some (ntry, out, ws')) :
    out.Nodup ∧ out.length = 1 + (nsamp - 1).toNat ∧ (∃ used, ws = used ++ ws') ∧ ∀ i ∈ out, i ∈ indices ∨ ∃ a b, dran main a = some (i, b) := by
  induction fuel generalizing ws ntry with
  | zero => simp [tryLoop5] at h
  | succ fuel ih =>
    unfold tryLoop5 at h
    rcases hr : dran main ws with _ | ⟨i, ws1⟩
    · rw [hr] at h; cases h
    · rw [hr] at h
      dsimp only at h
      obtain ⟨u, hu⟩ := dran_used main ws i ws1 hr
      rcases ht : tableLoop tab indices (nsamp - 1).toNat [i] ws1 with _ | ⟨s, d, ws2⟩
      · rw [ht] at h; cases h
      · rw [ht] at h
        obtain ⟨⟨v, hv⟩, h2⟩ := tableLoop_spec tab indices _ _ _ _ _ _ (by simp) ht
        cases d with
        | false =>
          simp only [Option.some.injEq, Prod.mk.injEq] at h
          obtain ⟨_, rfl, rfl⟩ := h
          obtain ⟨h3, h4, h5⟩ := h2 rfl
          refine ⟨h3, by rw [h4]; simp, ⟨u ++ v, by rw [hu, hv]; simp⟩, fun j hj => ?_⟩
          rcases h5 j hj with h6 | h6
          · simp only [List.mem_singleton] at h6; right; exact ⟨ws, ws1, by rw [h6]; exact hr⟩
          · exact Or.inl h6
        | true =>
          dsimp only at h
          rcases hl : tryLoop5 main tab indices nsamp fuel ws2 with _ | ⟨n', o'⟩
          · rw [hl] at h; cases h
          · rw [hl] at h
            simp only [Option.some.injEq, Prod.mk.injEq] at h
            obtain ⟨_, rfl⟩ := h
            obtain ⟨h3, h4, ⟨x, hx⟩, h5⟩ := ih ws2 n' hl
            exact ⟨h3, h4, ⟨u ++ v ++ x, by rw [hu, hv, hx]; simp⟩, h5⟩

end Verif.MC
