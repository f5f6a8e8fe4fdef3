import Verif.Km.KmLemmas

set_option linter.unusedSectionVars false

namespace Verif.Km

variable {K : Type*} [Field K] [LinearOrder K] [IsStrictOrderedRing K]

theorem rows_plest (u c : List K) (hu : u.Pairwise (· ≤ ·)) (hc : c.Pairwise (· ≤ ·)) :
    zipRows u ((plSteps (u.length + c.length) 1 0 (ranks 1 0 u c)).map Prod.fst)
      ((plSteps (u.length + c.length) 1 0 (ranks 1 0 u c)).map Prod.snd) = go c 1 0 u :=
  rows_go _ u c 1 0 1 0 hu hc (by omega)

theorem getLastD_ge : ∀ (l : List K) (x e : K), l.Pairwise (· ≤ ·) → x ∈ l → x ≤ l.getLastD e
  | [a], x, e, _, hx => by simp_all
  | a :: b :: r, x, e, h, hx => by
    rw [List.pairwise_cons] at h
    have hl : (a :: b :: r).getLastD e = (b :: r).getLastD a := by simp [List.getLastD]
    rw [hl]
    rcases List.mem_cons.mp hx with rfl | hx
    · exact (h.1 b (by simp)).trans (getLastD_ge (b :: r) b x h.2 (by simp))
    · exact getLastD_ge (b :: r) x a h.2 hx

theorem getLastD_mem : ∀ (l : List K) (e : K), l ≠ [] → l.getLastD e ∈ l
  | [a], e, _ => by simp
  | a :: b :: r, e, _ => by
    have hl : (a :: b :: r).getLastD e = (b :: r).getLastD a := by simp [List.getLastD]
    rw [hl]
    exact List.mem_cons_of_mem _ (getLastD_mem (b :: r) a (by simp))

/-- Nothing is changed when the largest datum is a detection alone. -/
theorem moveTail_none (u cr : List K) (h : ∀ m ∈ cr, ∃ x ∈ u, m < x) (hu : u.Pairwise (· ≤ ·)) :
    moveTail u cr = (u, cr.reverse, 0) := by
  cases cr with
  | nil => rfl
  | cons c cs =>
    obtain ⟨x, hx, hlt⟩ := h c (by simp)
    have : ¬ u.getLastD 0 ≤ c := not_le.mpr (hlt.trans_le (getLastD_ge u x 0 hu hx))
    rw [moveTail, if_neg this]

/-- One limit is changed when it alone is the largest datum. -/
theorem moveTail_one (u cs : List K) (m : K) (hm : u.getLastD 0 ≤ m) (h : ∀ x ∈ cs, x < m) :
    moveTail u (m :: cs) = (u ++ [m], cs.reverse, 1) := by
  rw [moveTail, if_pos hm]
  cases cs with
  | nil => rfl
  | cons c cs =>
    have : ¬ (u ++ [m]).getLastD 0 ≤ c := by
      rw [List.getLastD_eq_getLast?, List.getLast?_append]; simpa using h c (by simp)
    rw [moveTail, if_neg this]

theorem plest_none (u c : List K) (h : ∀ m ∈ c, ∃ x ∈ u, m < x) (hu : u.Pairwise (· ≤ ·)) (hc : c.Pairwise (· ≤ ·)) :
    plest u c = (go c 1 0 u, c, 0) := by
  unfold plest
  rw [moveTail_none u c.reverse (by simpa using h) hu]
  simp only [List.reverse_reverse]
  rw [rows_plest u c hu hc]

theorem plest_one (u c : List K) (m : K) (hm : ∀ x ∈ u, x < m) (hne : u ≠ []) (h : ∀ x ∈ c, x < m) (hu : u.Pairwise (· ≤ ·))
    (hc : c.Pairwise (· ≤ ·)) : plest u (c ++ [m]) = (go c 1 0 (u ++ [m]), c, 1) := by
  unfold plest
  rw [List.reverse_append, List.reverse_singleton, List.singleton_append,
    moveTail_one u c.reverse m (hm _ (getLastD_mem u 0 hne)).le (by simpa using h)]
  simp only [List.reverse_reverse]
  rw [rows_plest (u ++ [m]) c _ hc]
  rw [List.pairwise_append]
  exact ⟨hu, by simp, fun a ha b hb => by rw [List.mem_singleton.mp hb]; exact (hm a ha).le⟩

theorem go_z (c : List K) : ∀ (us : List K) (pt v1 : K), (go c pt v1 us).map Row.z = us
  | [], _, _ => rfl
  | u :: r, pt, v1 => by
    rw [go]; simp only
    split <;> rw [List.map_cons, go_z c r]

theorem dedupe_append (B : List (Row K)) : ∀ (A : List (Row K)), (∀ a ∈ A, ∀ b ∈ B, a.z ≠ b.z) → dedupe (A ++ B) = dedupe A ++ dedupe B
  | [], _ => rfl
  | [a], h => by
    cases B with
    | nil => rfl
    | cons b r =>
      have := h a (by simp) b (by simp)
      simp [dedupe, this]
  | a :: a' :: r, h => by
    have ih := dedupe_append B (a' :: r) (fun x hx => h x (by simp at hx ⊢; tauto))
    simp only [List.cons_append] at ih ⊢
    by_cases he : a.z = a'.z
    · simp only [dedupe, he, if_true]; exact ih
    · simp only [dedupe, he, if_false, List.cons_append]; rw [ih]

/-- Adding a datum above all others as a detection, or as a limit, leaves the rows of the others. -/
theorem go_snoc (c : List K) (m : K) : ∀ (us : List K) (pt v1 : K), (∀ x ∈ us, x < m) →
    ∃ r, r.z = m ∧ go c pt v1 (us ++ [m]) = go (c ++ [m]) pt v1 us ++ [r]
  | [], pt, v1, _ => by
    simp only [List.nil_append, go]
    split <;> exact ⟨_, rfl, rfl⟩
  | u :: us, pt, v1, h => by
    have h0 := h u (by simp)
    have hn : ((us ++ [m]).length + 1 + c.countP (fun x => decide (u ≤ x)) : ℕ) = us.length + 1 + (c ++ [m]).countP (fun x => decide (u ≤ x)) := by
      simp only [List.length_append, List.countP_append, List.length_singleton, List.countP_singleton, h0.le, decide_true, if_true]
      omega
    simp only [List.cons_append, go, hn]
    split
    · obtain ⟨r, hr, e⟩ := go_snoc c m us (pt * (((us.length + 1 + (c ++ [m]).countP (fun x => decide (u ≤ x)) : ℕ) : K) - 1) /
        ((us.length + 1 + (c ++ [m]).countP (fun x => decide (u ≤ x)) : ℕ) : K)) v1 (fun x hx => h x (by simp [hx]))
      rw [mul_div_assoc] at e
      exact ⟨r, hr, by rw [e]; rfl⟩
    · obtain ⟨r, hr, e⟩ := go_snoc c m us (pt * (((us.length + 1 + (c ++ [m]).countP (fun x => decide (u ≤ x)) : ℕ) : K) - 1) /
        ((us.length + 1 + (c ++ [m]).countP (fun x => decide (u ≤ x)) : ℕ) : K)) (v1 + 1 /
        ((((us.length + 1 + (c ++ [m]).countP (fun x => decide (u ≤ x)) : ℕ) : K) - 1) *
          ((us.length + 1 + (c ++ [m]).countP (fun x => decide (u ≤ x)) : ℕ) : K))) (fun x hx => h x (by simp [hx]))
      rw [mul_div_assoc] at e
      exact ⟨r, hr, by rw [e]; rfl⟩

theorem dedupe1_eq (n : ℕ) (l : List (Row K)) (h : ∀ a, l = [a] → n ≤ 1 ∨ a.z ≠ 0) : dedupe1 n l = dedupe l := by
  match l, h with
  | [], _ => rfl
  | [a], h =>
    have : ¬ (2 ≤ n ∧ a.z = 0) := by
      rintro ⟨h1, h2⟩
      rcases h a rfl with h | h
      · omega
      · exact h h2
    rw [dedupe1, if_neg this]; rfl
  | a :: b :: r, _ => rfl

/-- A sorted list with a single largest element. -/
theorem sorted_snoc (c : List K) (m : K) (hmem : m ∈ c) (hmax : ∀ x ∈ c, x ≤ m) (h1 : c.count m = 1) :
    ∃ c', sorted c = c' ++ [m] ∧ (∀ x ∈ c', x < m) ∧ c'.Pairwise (· ≤ ·) := by
  have hp := sorted_perm c
  have hs := sorted_pairwise c
  have hne : sorted c ≠ [] := by
    intro h; rw [h] at hp; rw [hp.symm.eq_nil] at hmem; simp at hmem
  have hl := List.dropLast_append_getLast hne
  have hlast : (sorted c).getLast hne = m := by
    apply le_antisymm (hmax _ (hp.mem_iff.mp (List.getLast_mem hne)))
    have := getLastD_ge (sorted c) m 0 hs (hp.mem_iff.mpr hmem)
    rwa [List.getLastD_eq_getLast?, List.getLast?_eq_some_getLast hne] at this
  rw [hlast] at hl
  refine ⟨(sorted c).dropLast, hl.symm, ?_, hs.sublist (List.dropLast_sublist _)⟩
  intro x hx
  have hxc : x ∈ c := hp.mem_iff.mp (List.mem_of_mem_dropLast hx)
  apply lt_of_le_of_ne (hmax x hxc)
  rintro rfl
  have hc : (sorted c).count x = 1 := by rw [hp.count_eq, h1]
  rw [← hl, List.count_append, List.count_singleton_self] at hc
  have := List.count_pos_iff.mpr hx
  omega

/-- The rows `kmestm` leaves, for lower limits. -/
theorem kmCore_lower (ntot : ℕ) (d c : List K) (hd : d ≠ [])
    (htop : ∀ m ∈ c, (∀ x ∈ c, x ≤ m) → (∃ x ∈ d, m < x) ∨ ((∀ x ∈ d, x < m) ∧ c.count m = 1))
    (h0 : d ≠ [0] ∨ ntot ≤ 1) :
    ∃ mean, kmCore 1 ntot d c = .out ⟨dedupe (go (sorted c) 1 0 (sorted d)), mean, sorted c⟩ := by
  have hpd := sorted_perm d
  have hpc := sorted_perm c
  have hsd := sorted_pairwise d
  have hsc := sorted_pairwise c
  have hne : sorted d ≠ [] := by
    intro h; rw [h] at hpd; exact hd hpd.symm.eq_nil
  unfold kmCore
  simp only [if_neg hne, show ¬ ((1 : ℤ) < 0) by decide, if_false]
  by_cases hA : ∀ m ∈ c, ∃ x ∈ d, m < x
  · rw [plest_none (sorted d) (sorted c) (fun m hm => by
      obtain ⟨x, hx, hlt⟩ := hA m (hpc.mem_iff.mp hm)
      exact ⟨x, hpd.mem_iff.mpr hx, hlt⟩) hsd hsc]
    have hded : dedupe1 ntot (go (sorted c) 1 0 (sorted d)) = dedupe (go (sorted c) 1 0 (sorted d)) := by
      apply dedupe1_eq
      intro a ha
      have hz := go_z (sorted c) (sorted d) 1 0
      rw [ha] at hz
      rcases h0 with h0 | h0
      · right
        intro hz0
        apply h0
        have : sorted d = [0] := by rw [← hz]; simp [hz0]
        rw [this] at hpd
        exact (List.perm_singleton.mp hpd.symm)
      · exact Or.inl h0
    simp only [hded, Nat.not_lt_zero, if_false, Nat.sub_zero, List.take_length, List.drop_length, List.append_nil]
    exact ⟨_, rfl⟩
  · push Not at hA
    obtain ⟨m0, hm0, hge⟩ := hA
    have hcne : sorted c ≠ [] := by
      intro h; rw [h] at hpc; rw [hpc.symm.eq_nil] at hm0; simp at hm0
    set m := (sorted c).getLastD 0 with hm
    have hmc : m ∈ c := hpc.mem_iff.mp (getLastD_mem _ 0 hcne)
    have hmax : ∀ x ∈ c, x ≤ m := fun x hx => getLastD_ge _ x 0 hsc (hpc.mem_iff.mpr hx)
    rcases htop m hmc hmax with ⟨x, hx, hlt⟩ | ⟨hall, hcnt⟩
    · exact absurd ((hge x hx).trans (hmax m0 hm0)) (not_le.mpr hlt)
    · obtain ⟨c', he, hlt, hp⟩ := sorted_snoc c m hmc hmax hcnt
      have hall' : ∀ x ∈ sorted d, x < m := fun x hx => hall x (hpd.mem_iff.mp hx)
      rw [he, plest_one (sorted d) c' m hall' hne hlt hsd hp]
      obtain ⟨r, hr, e⟩ := go_snoc c' m (sorted d) (1 : K) 0 hall'
      have hlen : 2 ≤ (go c' 1 0 (sorted d ++ [m])).length := by
        have := congrArg List.length (go_z c' (sorted d ++ [m]) 1 0)
        rw [List.length_map, List.length_append, List.length_singleton] at this
        have := List.length_pos_iff.mpr hne
        omega
      have hded : dedupe1 ntot (go c' 1 0 (sorted d ++ [m])) = dedupe (go (c' ++ [m]) 1 0 (sorted d)) ++ [r] := by
        rw [dedupe1_eq]
        · rw [e, dedupe_append]
          · rfl
          · intro a ha b hb
            rw [List.mem_singleton.mp hb, hr]
            have : a.z ∈ sorted d := by
              rw [← go_z (c' ++ [m]) (sorted d) 1 0]; exact List.mem_map_of_mem ha
            exact (hall' _ this).ne
        · intro a ha; rw [ha] at hlen; simp at hlen
      simp only [hded, List.length_append, List.length_singleton]
      have hnl : ¬ ((dedupe (go (c' ++ [m]) 1 0 (sorted d))).length + 1 < 1) := by omega
      rw [if_neg hnl, Nat.add_sub_cancel, List.take_left']
      · rw [List.drop_left' rfl]
        exact ⟨_, rfl⟩
      · rfl

end Verif.Km
