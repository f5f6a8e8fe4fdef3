import Verif.Km.BinLemmas

set_option linter.unusedSectionVars false

namespace Verif.Km

variable {K : Type*} [Field K] [LinearOrder K] [IsStrictOrderedRing K]

theorem xsign_nonneg : ∀ (ind : List ℤ), (∀ i ∈ ind, 0 ≤ i) → ind.foldl (fun s i => if i = 0 then s else i.sign) 1 = 1
  | [], _ => rfl
  | i :: r, h => by
    have hi := h i (by simp)
    have ih := xsign_nonneg r (fun j hj => h j (by simp [hj]))
    rw [List.foldl_cons]
    by_cases h0 : i = 0
    · rw [if_pos h0]; exact ih
    · rw [if_neg h0, Int.sign_eq_one_of_pos (by omega)]; exact ih

theorem xmixed_nonneg (ind : List ℤ) (h : ∀ i ∈ ind, 0 ≤ i) : xmixed ind = false := by
  unfold xmixed xsign
  rw [xsign_nonneg ind h, List.any_eq_false]
  intro i hi
  have := h i hi
  simp only [Bool.and_eq_true, decide_eq_true_eq, not_and, not_not]
  intro h0
  exact Int.sign_eq_one_of_pos (by omega)

theorem xsign_nonpos_aux : ∀ (ind : List ℤ), (∀ i ∈ ind, i ≤ 0) → ind.foldl (fun s i => if i = 0 then s else i.sign) (-1) = -1
  | [], _ => rfl
  | i :: r, h => by
    have hi := h i (by simp)
    have ih := xsign_nonpos_aux r (fun j hj => h j (by simp [hj]))
    rw [List.foldl_cons]
    by_cases h0 : i = 0
    · rw [if_pos h0]; exact ih
    · rw [if_neg h0, Int.sign_eq_neg_one_of_neg (by omega)]; exact ih

theorem xsign_nonpos : ∀ (ind : List ℤ), (∀ i ∈ ind, i ≤ 0) → (∃ i ∈ ind, i ≠ 0) →
    ind.foldl (fun s i => if i = 0 then s else i.sign) 1 = -1
  | [], _, h => by simp at h
  | i :: r, h, hex => by
    have hi := h i (by simp)
    rw [List.foldl_cons]
    by_cases h0 : i = 0
    · rw [if_pos h0]
      obtain ⟨j, hj, hj0⟩ := hex
      rcases List.mem_cons.mp hj with rfl | hj
      · exact absurd h0 hj0
      · exact xsign_nonpos r (fun j hj => h j (by simp [hj])) ⟨j, hj, hj0⟩
    · rw [if_neg h0, Int.sign_eq_neg_one_of_neg (by omega)]
      exact xsign_nonpos_aux r (fun j hj => h j (by simp [hj]))

theorem xmixed_nonpos (ind : List ℤ) (h : ∀ i ∈ ind, i ≤ 0) (hex : ∃ i ∈ ind, i ≠ 0) : xmixed ind = false := by
  unfold xmixed xsign
  rw [xsign_nonpos ind h hex, List.any_eq_false]
  intro i hi
  have := h i hi
  simp only [Bool.and_eq_true, decide_eq_true_eq, not_and, not_not]
  intro h0
  exact Int.sign_eq_neg_one_of_neg (by omega)

theorem xdets_eq (sg : ℤ) (ind : List ℤ) (x : List K) :
    xdets sg ind x = (picked ind x (fun i => decide (i = 0))).map (fun v => (sg : K) * v) := by
  unfold xdets picked
  induction ind.zip x with
  | nil => rfl
  | cons p l ih =>
    by_cases h : p.1 = 0
    · rw [List.filterMap_cons_some (by rw [if_pos h]), List.filter_cons_of_pos (by simpa using h), ih]; rfl
    · rw [List.filterMap_cons_none (by rw [if_neg h]), List.filter_cons_of_neg (by simpa using h), ih]

theorem xlims_eq (sg : ℤ) (ind : List ℤ) (x : List K) :
    xlims sg ind x = (picked ind x (fun i => decide (i ≠ 0))).map (fun v => (sg : K) * v) := by
  unfold xlims picked
  induction ind.zip x with
  | nil => rfl
  | cons p l ih =>
    by_cases h : p.1 = 0
    · rw [List.filterMap_cons_none (by rw [if_pos h]), List.filter_cons_of_neg (by simpa using h), ih]
    · rw [List.filterMap_cons_some (by rw [if_neg h]), List.filter_cons_of_pos (by simpa using h), ih]; rfl

theorem dedupe_ne_nil : ∀ (l : List (Row K)), l ≠ [] → dedupe l ≠ []
  | [], h => absurd rfl h
  | [a], _ => by simp [dedupe]
  | a :: b :: r, _ => by
    rw [dedupe]
    split
    · exact dedupe_ne_nil (b :: r) (by simp)
    · simp

/-- The rows for lower limits. -/
theorem rows_lower (d c : List K) :
    ((dedupe (go (sorted c) 1 0 (sorted d))).map Row.z).Pairwise (· < ·) ∧
      (∀ x, x ∈ (dedupe (go (sorted c) 1 0 (sorted d))).map Row.z ↔ x ∈ d) ∧
      ∀ r ∈ dedupe (go (sorted c) 1 0 (sorted d)), r.s = prodLimit d c r.z ∧ r.v = greenwood d c r.z := by
  have hpd := sorted_perm d
  have hgo : go (sorted c) 1 0 (sorted d) = go c (1 : K) 0 (sorted d) :=
    go_congr _ _ _ _ _ fun u _ => (sorted_perm c).countP_eq _
  rw [hgo]
  obtain ⟨h1, h2, h3⟩ := go_spec d c _ [] (sorted d) 1 0 le_rfl (fun x => by rw [List.nil_append, hpd.count_eq]) (sorted_pairwise d)
    (by simp) (by simp) (by simp)
  exact ⟨h1, fun x => by rw [h2, hpd.mem_iff], h3⟩

/-- The rows for upper limits, before they are turned round. -/
theorem rows_upper (d c : List K) :
    ((dedupe (goShift (sorted c) 1 0 (sorted d)).reverse).map Row.z).Pairwise (· > ·) ∧
      (∀ x, x ∈ (dedupe (goShift (sorted c) 1 0 (sorted d)).reverse).map Row.z ↔ x ∈ d) ∧
      ∀ r ∈ dedupe (goShift (sorted c) 1 0 (sorted d)).reverse,
        r.s = prodLimitLeft d c r.z ∧ r.v = prodLimitLeft d c r.z ^ 2 * gwBefore d c r.z := by
  have hpd := sorted_perm d
  have hgs : ∀ (us : List K) (pt v1 : K), goShift (sorted c) pt v1 us = goShift c pt v1 us := by
    intro us
    induction us with
    | nil => intros; rfl
    | cons u r ih => intro pt v1; simp only [goShift, (sorted_perm c).countP_eq, ih]
  rw [hgs]
  obtain ⟨h1, h2, h3⟩ := shift_spec d c _ [] (sorted d) 1 0 le_rfl (fun x => by rw [List.nil_append, hpd.count_eq]) (sorted_pairwise d)
    (by simp) (by simp) (by simp)
  exact ⟨h1, fun x => by rw [h2, hpd.mem_iff], h3⟩

theorem sorted_map_neg_ne (d : List K) (hd : d ≠ []) : sorted d ≠ [] := by
  intro h
  have hpd := sorted_perm d
  rw [h] at hpd; exact hd hpd.symm.eq_nil

theorem kmCore_mean (ntot : ℕ) (d c : List K) (hd : d ≠ []) (hlim : ∀ m ∈ c, ∃ x ∈ d, m < x) (sg : ℤ) (o : Out K)
    (ho : kmCore sg ntot d c = .out o) : o.mean = (sg : K) * ∑ v ∈ d.toFinset, v * (prodLimitLeft d c v - prodLimit d c v) := by
  have hne := sorted_map_neg_ne d hd
  unfold kmCore at ho
  simp only [if_neg hne] at ho
  rw [plest_none (sorted d) (sorted c) (fun m hm => by
      obtain ⟨x, hx, hlt⟩ := hlim m ((sorted_perm c).mem_iff.mp hm)
      exact ⟨x, (sorted_perm d).mem_iff.mpr hx, hlt⟩) (sorted_pairwise d) (sorted_pairwise c)] at ho
  simp only [Nat.not_lt_zero, if_false, KmRes.out.injEq] at ho
  rw [← ho]
  simp only
  rw [meanOf_go d c hd hlim (sorted c) (sorted_perm c)]

theorem kmCore_upper (ntot : ℕ) (d c : List K) (hd : d ≠ []) (hlim : ∀ m ∈ c, ∃ x ∈ d, m < x) (h0 : d ≠ [0] ∨ ntot ≤ 1) :
    ∃ mean, kmCore (-1) ntot d c =
      .out ⟨(dedupe (goShift (sorted c) 1 0 (sorted d)).reverse).map flip, mean, (sorted c).reverse.map fun z => -z⟩ := by
  have hne := sorted_map_neg_ne d hd
  have hpd := sorted_perm d
  have hl' : ∀ m ∈ sorted c, ∃ x ∈ sorted d, m < x := fun m hm => by
      obtain ⟨x, hx, hlt⟩ := hlim m ((sorted_perm c).mem_iff.mp hm)
      exact ⟨x, hpd.mem_iff.mpr hx, hlt⟩
  unfold kmCore
  simp only [if_neg hne, show ((-1 : ℤ) < 0) by decide, if_true]
  rw [plest_none (sorted d) (sorted c) hl' (sorted_pairwise d) (sorted_pairwise c)]
  simp only [adjust_go (sorted c) (sorted d) hne (sorted_pairwise d) hl']
  have hded : dedupe1 ntot ((goShift (sorted c) 1 0 (sorted d)).map flip).reverse =
      (dedupe (goShift (sorted c) 1 0 (sorted d)).reverse).map flip := by
    rw [dedupe1_eq, ← List.map_reverse, dedupe_map flip (by intro a b; simp [flip])]
    intro a ha
    rcases h0 with h0 | h0
    · right
      intro hz0
      apply h0
      have h1 : ((goShift (sorted c) 1 0 (sorted d)).map flip) = [a] := by
        rw [← List.reverse_reverse (List.map flip _), ha]; rfl
      have h2 := congrArg (List.map Row.z) h1
      rw [List.map_map] at h2
      have h3 : (goShift (sorted c) 1 0 (sorted d)).map (Row.z ∘ flip) = (sorted d).map (fun z => -z) := by
        conv_rhs => rw [← goShift_z (sorted c) (sorted d) 1 0]
        rw [List.map_map]; rfl
      rw [h3, List.map_cons, List.map_nil, hz0] at h2
      match hs : sorted d, h2 with
      | [y], h2 =>
        have hy : y = 0 := by simpa using h2
        rw [hs, hy] at hpd
        exact List.perm_singleton.mp hpd.symm
      | [], h2 => simp at h2
      | y :: z :: r, h2 => simp at h2
    · exact Or.inl h0
  simp only [hded, Nat.not_lt_zero, if_false, Nat.sub_zero, List.take_length, List.drop_length, List.append_nil]
  exact ⟨_, rfl⟩

theorem left_first (d c : List K) (v : K) (h : ∀ x ∈ d, v ≤ x) : prodLimitLeft d c v = 1 := by
  unfold prodLimitLeft
  rw [Finset.filter_eq_empty_iff.mpr (by intro x hx; rw [List.mem_toFinset] at hx; exact not_lt.mpr (h x hx)), Finset.prod_empty]

theorem before_first (d c : List K) (v : K) (h : ∀ x ∈ d, v < x) : prodLimit d c v = 1 := by
  unfold prodLimit
  rw [Finset.filter_eq_empty_iff.mpr (by intro x hx; rw [List.mem_toFinset] at hx; exact not_le.mpr (h x hx)), Finset.prod_empty]

theorem left_next (d c : List K) (a b : K) (hab : a < b) (h : ∀ x ∈ d, x < b → x ≤ a) : prodLimitLeft d c b = prodLimit d c a := by
  unfold prodLimitLeft prodLimit
  congr 1
  apply Finset.filter_congr
  intro x hx
  rw [List.mem_toFinset] at hx
  exact ⟨h x hx, fun hh => hh.trans_lt hab⟩

/-- Nothing lies above a value that no datum reaches. -/
theorem prodLimit_top (d c : List K) (hd : d ≠ []) (hlim : ∀ m ∈ c, ∃ x ∈ d, m < x) (t : K) (ht : ∀ x ∈ d, x ≤ t) :
    prodLimit d c t = 0 := by
  have hne := sorted_map_neg_ne d hd
  have hpd := sorted_perm d
  set v := (sorted d).getLastD 0
  have hv : v ∈ d := hpd.mem_iff.mp (getLastD_mem _ _ hne)
  have hmax : ∀ x ∈ d, x ≤ v := fun x hx => getLastD_ge _ x 0 (sorted_pairwise d) (hpd.mem_iff.mpr hx)
  unfold prodLimit
  apply Finset.prod_eq_zero (i := v)
  · simp [hv, ht v hv]
  · have h1 : d.countP (fun x => decide (v ≤ x)) = d.count v := by
      rw [List.count]
      apply List.countP_congr
      intro x hx
      have := hmax x hx
      simp only [decide_eq_true_eq, beq_iff_eq]
      constructor
      · intro h; exact le_antisymm this h
      · intro h; exact h.ge
    have h2 : c.countP (fun x => decide (v ≤ x)) = 0 := by
      rw [List.countP_eq_zero]
      intro m hm
      obtain ⟨x, hx, hlt⟩ := hlim m hm
      simpa using hlt.trans_le (hmax x hx)
    have h3 : atRisk d c v = d.count v := by unfold atRisk; rw [h1, h2]; rfl
    have h4 : (d.count v : K) ≠ 0 := by
      have := List.count_pos_iff.mpr hv
      exact_mod_cast (show d.count v ≠ 0 by omega)
    rw [h3, div_self h4, sub_self]

theorem stepPts_spec (d c : List K) : ∀ (l : List K) (y a0 : K) (q : K × K),
    (∀ b, l.head? = some b → y = prodLimitLeft d c b) → l.Pairwise (· < ·) →
    (∀ x ∈ d, x ∈ l ∨ ∀ b ∈ l, x < b) → (∀ b ∈ l, b ∈ d) →
    q ∈ stepPts y (l.zip (l.map (prodLimit d c))) → q.2 = prodLimit d c q.1 ∨ q.2 = prodLimitLeft d c q.1
  | [], _, _, _, _, _, _, _, h => by simp [stepPts] at h
  | x :: r, y, a0, q, hy, hs, hd, hm, hq => by
    rw [List.pairwise_cons] at hs
    simp only [List.map_cons, List.zip_cons_cons, stepPts, List.mem_cons] at hq
    rcases hq with rfl | rfl | hq
    · exact Or.inr (hy x rfl)
    · exact Or.inl rfl
    · apply stepPts_spec d c r (prodLimit d c x) a0 q _ hs.2 _ (fun b hb => hm b (by simp [hb])) hq
      · intro b hb
        have hbr : b ∈ r := List.mem_of_mem_head? hb
        rw [left_next d c x b (hs.1 b hbr)]
        intro z hz hzb
        rcases hd z hz with h | h
        · rcases List.mem_cons.mp h with rfl | h
          · exact le_rfl
          · exfalso
            have : b ≤ z := by
              cases r with
              | nil => simp at hb
              | cons w r =>
                simp only [List.head?_cons, Option.some.injEq] at hb
                subst hb
                rcases List.mem_cons.mp h with rfl | h
                · exact le_rfl
                · exact ((List.pairwise_cons.mp hs.2).1 z h).le
            exact absurd hzb (not_lt.mpr this)
        · exact (h x (by simp)).le
      · intro z hz
        rcases hd z hz with h | h
        · rcases List.mem_cons.mp h with rfl | h
          · exact Or.inr fun b hb => hs.1 b hb
          · exact Or.inl h
        · exact Or.inr fun b hb => h b (by simp [hb])

end Verif.Km
