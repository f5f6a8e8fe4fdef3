import Verif.Km.CoreLemmas

set_option linter.unusedSectionVars false

namespace Verif.Km

variable {K : Type*} [Field K] [LinearOrder K] [IsStrictOrderedRing K]

/-- The rows with the estimate and error before each value. -/
def goShift (cc : List K) (pt v1 : K) : List K → List (Row K)
  | [] => []
  | u :: r =>
    let n : ℕ := r.length + 1 + cc.countP (fun c => decide (u ≤ c))
    let pt' := pt * (((n : K) - 1) / n)
    if (n : K) - 1 ≤ 0 then ⟨u, pt, pt ^ 2 * v1⟩ :: goShift cc pt' v1 r
    else ⟨u, pt, pt ^ 2 * v1⟩ :: goShift cc pt' (v1 + 1 / (((n : K) - 1) * n)) r

theorem jumps_sum : ∀ (ss : List K) (s0 : K), (jumps s0 ss).sum = s0 - ss.getLastD s0
  | [], s0 => by simp [jumps]
  | s :: r, s0 => by
    rw [jumps, List.sum_cons, jumps_sum r s]
    have : (s :: r).getLastD s0 = r.getLastD s := List.getLastD_cons
    rw [this]; ring

theorem survive_append : ∀ (l : List K) (a : K) (x : K), survive a (l ++ [x]) = survive a l ++ [a - l.sum - x]
  | [], a, x => by simp [survive]
  | f :: r, a, x => by
    rw [List.cons_append, survive, survive, survive_append r, List.cons_append, List.sum_cons]
    congr 2
    simp only [List.cons.injEq, and_true]
    ring

theorem survive_rev : ∀ (ss : List K) (a s0 : K),
    survive a (jumps s0 ss).reverse = ((s0 :: ss).dropLast.map fun s => a - (s - ss.getLastD s0)).reverse
  | [], a, s0 => rfl
  | s :: r, a, s0 => by
    have hl : (s :: r).getLastD s0 = r.getLastD s := List.getLastD_cons
    rw [jumps, List.reverse_cons, survive_append, survive_rev r a s, List.sum_reverse, jumps_sum, hl,
      show (s0 :: s :: r).dropLast = s0 :: (s :: r).dropLast from rfl, List.map_cons, List.reverse_cons]
    congr 2
    ring

theorem goShift_z (c : List K) : ∀ (us : List K) (pt v1 : K), (goShift c pt v1 us).map Row.z = us
  | [], _, _ => rfl
  | u :: r, pt, v1 => by
    simp only [goShift]
    split <;> rw [List.map_cons, goShift_z c r]

theorem goShift_s (c : List K) : ∀ (us : List K) (pt v1 : K),
    (goShift c pt v1 us).map Row.s = (pt :: (go c pt v1 us).map Row.s).dropLast
  | [], _, _ => rfl
  | u :: r, pt, v1 => by
    simp only [goShift, go]
    split <;> simp only [List.map_cons, goShift_s c r] <;> rfl

/-- The last row, when no limit is at or above the largest detection. -/
theorem go_last (c : List K) : ∀ (us : List K) (pt v1 : K), us ≠ [] → (∀ m ∈ c, ∃ x ∈ us, m < x) → us.Pairwise (· ≤ ·) →
    ((go c pt v1 us).map Row.s).getLastD pt = 0 ∧ ((go c pt v1 us).map Row.v).getLast? = some 0
  | [], _, _, h, _, _ => absurd rfl h
  | [u], pt, v1, _, h, _ => by
    have : c.countP (fun x => decide (u ≤ x)) = 0 := by
      rw [List.countP_eq_zero]; intro x hx
      obtain ⟨y, hy, hlt⟩ := h x hx
      rw [List.mem_singleton] at hy
      simpa [hy] using hlt
    simp [go, this]
  | u :: w :: r, pt, v1, _, h, hs => by
    rw [List.pairwise_cons] at hs
    have h' : ∀ m ∈ c, ∃ x ∈ w :: r, m < x := by
      intro m hm
      obtain ⟨x, hx, hlt⟩ := h m hm
      rcases List.mem_cons.mp hx with rfl | hx
      · exact ⟨w, by simp, hlt.trans_le (hs.1 w (by simp))⟩
      · exact ⟨x, hx, hlt⟩
    have hne : ∀ pt v1 f, (go c pt v1 (w :: r)).map (f : Row K → K) ≠ [] := by
      intro pt v1 f hh
      have h1 := congrArg List.length (go_z c (w :: r) pt v1)
      rw [List.map_eq_nil_iff.mp hh] at h1
      simp at h1
    have hl : ∀ (l : List K) (a b e : K), l ≠ [] → (a :: l).getLastD b = l.getLastD e := by
      intro l a b e hl
      cases l with
      | nil => exact absurd rfl hl
      | cons x l => simp [List.getLastD]
    rw [go]
    simp only
    split
    · obtain ⟨a, b⟩ := go_last c (w :: r) (pt * (((((w :: r).length + 1 + c.countP (fun c => decide (u ≤ c)) : ℕ) : K) - 1) /
        (((w :: r).length + 1 + c.countP (fun c => decide (u ≤ c)) : ℕ) : K))) v1 (by simp) h' hs.2
      rw [List.map_cons, List.map_cons, List.getLast?_cons, Option.getD_eq_iff.mpr (Or.inl b)]
      exact ⟨by rw [← a]; exact hl _ _ _ _ (hne _ _ _), rfl⟩
    · obtain ⟨a, b⟩ := go_last c (w :: r) (pt * (((((w :: r).length + 1 + c.countP (fun c => decide (u ≤ c)) : ℕ) : K) - 1) /
        (((w :: r).length + 1 + c.countP (fun c => decide (u ≤ c)) : ℕ) : K))) (v1 + 1 /
        (((((w :: r).length + 1 + c.countP (fun c => decide (u ≤ c)) : ℕ) : K) - 1) *
          (((w :: r).length + 1 + c.countP (fun c => decide (u ≤ c)) : ℕ) : K))) (by simp) h' hs.2
      rw [List.map_cons, List.map_cons, List.getLast?_cons, Option.getD_eq_iff.mpr (Or.inl b)]
      exact ⟨by rw [← a]; exact hl _ _ _ _ (hne _ _ _), rfl⟩

theorem goShift_v (c : List K) : ∀ (us : List K) (pt v1 : K), us ≠ [] → us.Pairwise (· ≤ ·) →
    (goShift c pt v1 us).map Row.v = pt ^ 2 * v1 :: ((go c pt v1 us).map Row.v).dropLast
  | [], _, _, h, _ => absurd rfl h
  | [u], pt, v1, _, _ => by
    simp only [goShift, go]
    split <;> simp [goShift, go]
  | u :: w :: r, pt, v1, _, hs => by
    have hs' := (List.pairwise_cons.mp hs).2
    rw [goShift, go]
    have hne : ∀ pt v1, (go c pt v1 (w :: r)).map Row.v ≠ [] := by
      intro pt v1 hh
      have h1 := congrArg List.length (go_z c (w :: r) pt v1)
      rw [List.map_eq_nil_iff.mp hh] at h1
      simp at h1
    split
    · next h =>
      exfalso
      have : (0 : K) < (((w :: r).length + c.countP (fun c => decide (u ≤ c)) : ℕ) : K) := by
        exact_mod_cast (show 0 < (w :: r).length + c.countP (fun c => decide (u ≤ c)) by simp)
      push_cast at h this
      linarith
    · rw [List.map_cons, List.map_cons, goShift_v c (w :: r) _ _ (by simp) hs', List.dropLast_cons_of_ne_nil (hne _ _)]

theorem zipRows_map : ∀ (l : List (Row K)), zipRows (l.map Row.z) (l.map Row.s) (l.map Row.v) = l
  | [] => rfl
  | r :: l => by rw [List.map_cons, List.map_cons, List.map_cons, zipRows, zipRows_map l]

/-- Turned round and negated. -/
def flip (r : Row K) : Row K := ⟨-r.z, 1 - r.s, r.v⟩

theorem adjust_go (c us : List K) (hne : us ≠ []) (hs : us.Pairwise (· ≤ ·)) (h : ∀ m ∈ c, ∃ x ∈ us, m < x) :
    adjust (go c 1 0 us) = ((goShift c 1 0 us).map flip).reverse := by
  obtain ⟨h1, h2⟩ := go_last c us 1 0 hne h hs
  rw [adjust, ← zipRows_map (((goShift c 1 0 us).map flip).reverse)]
  congr 1
  · rw [go_z, List.map_reverse, List.map_reverse, List.map_map]
    conv_lhs => rw [← goShift_z c us 1 0]
    rw [List.map_map]
    rfl
  · rw [survive_rev, h1, ← goShift_s c us 1 0, List.map_reverse, List.map_map, List.map_map]
    congr 1
    apply List.map_congr_left
    intro r _
    simp [flip]
  · rw [vswap, h2, List.map_reverse, List.map_map]
    have : (goShift c 1 0 us).map (Row.v ∘ flip) = (goShift c 1 0 us).map Row.v := by
      apply List.map_congr_left; intro r _; rfl
    rw [this, goShift_v c us 1 0 hne hs, List.reverse_cons]
    simp

theorem dedupe_map (f : Row K → Row K) (hf : ∀ a b, (f a).z = (f b).z ↔ a.z = b.z) : ∀ (l : List (Row K)),
    dedupe (l.map f) = (dedupe l).map f
  | [] => rfl
  | [a] => rfl
  | a :: b :: r => by
    have ih := dedupe_map f hf (b :: r)
    simp only [List.map_cons] at ih
    simp only [List.map_cons, dedupe, hf]
    split
    · exact ih
    · rw [List.map_cons, ih]

theorem dedupe_same : ∀ (X : List (Row K)) (a : Row K), (∀ x ∈ X, x.z = a.z) → dedupe (X ++ [a]) = [a]
  | [], a, _ => rfl
  | [x], a, h => by simp [dedupe, h x (by simp)]
  | x :: y :: r, a, h => by
    have ih := dedupe_same (y :: r) a (fun z hz => h z (by simp at hz ⊢; tauto))
    simp only [List.cons_append] at ih ⊢
    rw [dedupe, if_pos (by rw [h x (by simp), h y (by simp)]), ih]

/-- A whole group of ties, with the estimates before it. -/
theorem goShift_group (cc : List K) (v : K) (rest : List K) : ∀ (m : ℕ) (pt v1 : K),
    ∃ (v1' : K) (X : List (Row K)), (∀ x ∈ X, x.z = v) ∧ goShift cc pt v1 (List.replicate (m + 1) v ++ rest) =
        (⟨v, pt, pt ^ 2 * v1⟩ :: X) ++
        goShift cc (pt * (1 - ((m + 1 : ℕ) : K) / ((m + 1 + rest.length + cc.countP (fun c => decide (v ≤ c)) : ℕ) : K))) v1' rest ∧
      (rest.length + cc.countP (fun c => decide (v ≤ c)) ≠ 0 → v1' = v1 + ((m + 1 : ℕ) : K) /
        (((m + 1 + rest.length + cc.countP (fun c => decide (v ≤ c)) : ℕ) : K) *
          (((m + 1 + rest.length + cc.countP (fun c => decide (v ≤ c)) : ℕ) : K) - ((m + 1 : ℕ) : K)))) := by
  intro m
  set k := rest.length + cc.countP (fun c => decide (v ≤ c)) with hk
  have hkk : ∀ j, j + rest.length + cc.countP (fun c => decide (v ≤ c)) = j + k := fun j => by omega
  simp only [hkk]
  induction m with
  | zero =>
    intro pt v1
    have hn : (rest.length + 1 + cc.countP (fun c => decide (v ≤ c)) : ℕ) = 1 + k := by omega
    have h1k : ((1 + k : ℕ) : K) ≠ 0 := by exact_mod_cast (show 1 + k ≠ 0 by omega)
    have hfac : (((1 + k : ℕ) : K) - 1) / ((1 + k : ℕ) : K) = 1 - ((1 : ℕ) : K) / ((1 + k : ℕ) : K) := by
      rw [sub_div, div_self h1k]; simp
    simp only [List.replicate_succ, List.replicate_zero, List.cons_append, List.nil_append, goShift, hn, hfac, zero_add]
    split
    · next h =>
      have hk0 : k = 0 := by
        by_contra h0
        have : (0 : K) < k := by exact_mod_cast Nat.pos_of_ne_zero h0
        push_cast at h; linarith
      exact ⟨v1, [], by simp, rfl, fun h => absurd hk0 h⟩
    · next h =>
      refine ⟨_, [], by simp, rfl, fun _ => ?_⟩
      congr 1
      push_cast; rw [mul_comm]
  | succ m ih =>
    intro pt v1
    have hn : ((List.replicate (m + 1) v ++ rest).length + 1 + cc.countP (fun c => decide (v ≤ c)) : ℕ) = m + 1 + 1 + k := by
      simp only [List.length_append, List.length_replicate]; omega
    have hN : (0 : K) < ((m + 1 + k : ℕ) : K) := by exact_mod_cast (show 0 < m + 1 + k by omega)
    have hcast : ((m + 1 + 1 + k : ℕ) : K) = ((m + 1 + k : ℕ) : K) + 1 := by push_cast; ring
    have hnot : ¬ ((m + 1 + 1 + k : ℕ) : K) - 1 ≤ 0 := by rw [hcast]; linarith
    rw [List.replicate_succ, List.cons_append, goShift]
    simp only [hn, if_neg hnot]
    obtain ⟨v1', X, hX, e1, e2⟩ := ih (pt * ((((m + 1 + 1 + k : ℕ) : K) - 1) / ((m + 1 + 1 + k : ℕ) : K)))
      (v1 + 1 / ((((m + 1 + 1 + k : ℕ) : K) - 1) * ((m + 1 + 1 + k : ℕ) : K)))
    have hpt : pt * ((((m + 1 + 1 + k : ℕ) : K) - 1) / ((m + 1 + 1 + k : ℕ) : K)) * (1 - ((m + 1 : ℕ) : K) / ((m + 1 + k : ℕ) : K)) =
        pt * (1 - ((m + 1 + 1 : ℕ) : K) / ((m + 1 + 1 + k : ℕ) : K)) := by
      have h2 : ((m + 1 : ℕ) : K) = ((m + 1 + k : ℕ) : K) - k := by push_cast; ring
      have h3 : ((m + 1 + 1 : ℕ) : K) = ((m + 1 + k : ℕ) : K) + 1 - k := by push_cast; ring
      rw [hcast, h2, h3]
      generalize ((m + 1 + k : ℕ) : K) = N at hN ⊢
      have : N + 1 ≠ 0 := by linarith
      have : N ≠ 0 := hN.ne'
      field_simp
      ring
    rw [hpt] at e1
    refine ⟨v1', _ :: X, ?_, by rw [e1]; rfl, fun hk0 => ?_⟩
    · intro x hx
      rcases List.mem_cons.mp hx with rfl | hx
      · rfl
      · exact hX x hx
    rw [e2 hk0]
    have hkpos : (0 : K) < k := by exact_mod_cast Nat.pos_of_ne_zero hk0
    have h2 : ((m + 1 : ℕ) : K) = ((m + 1 + k : ℕ) : K) - k := by push_cast; ring
    have h3 : ((m + 1 + 1 : ℕ) : K) = ((m + 1 + k : ℕ) : K) + 1 - k := by push_cast; ring
    rw [hcast, h2, h3]
    generalize ((m + 1 + k : ℕ) : K) = N at hN ⊢
    have h4 : N + 1 ≠ 0 := by linarith
    have h5 : N ≠ 0 := hN.ne'
    have h6 : (k : K) ≠ 0 := hkpos.ne'
    have e3 : N - (N - (k : K)) = k := by ring
    have e4 : N + 1 - (N + 1 - (k : K)) = k := by ring
    have e5 : N + 1 - 1 = N := by ring
    rw [e3, e4, e5]
    field_simp
    ring

/-- Greenwood's sum before `t`. -/
def gwBefore (d c : List K) (t : K) : K :=
  ∑ v ∈ d.toFinset.filter (fun v => v < t), (d.count v : K) / ((atRisk d c v : K) * ((atRisk d c v : K) - (d.count v : K)))

theorem shift_spec (d c : List K) : ∀ (k : ℕ) (pre us : List K) (pt v1 : K), us.length ≤ k →
    (∀ x, (pre ++ us).count x = d.count x) → us.Pairwise (· ≤ ·) → (∀ a ∈ pre, ∀ b ∈ us, a < b) →
    pt = ∏ v ∈ pre.toFinset, (1 - (d.count v : K) / (atRisk d c v : K)) →
    (us ≠ [] → v1 = ∑ v ∈ pre.toFinset, (d.count v : K) / ((atRisk d c v : K) * ((atRisk d c v : K) - (d.count v : K)))) →
    ((dedupe (goShift c pt v1 us).reverse).map Row.z).Pairwise (· > ·) ∧
      (∀ x, x ∈ (dedupe (goShift c pt v1 us).reverse).map Row.z ↔ x ∈ us) ∧
      ∀ r ∈ dedupe (goShift c pt v1 us).reverse, r.s = prodLimitLeft d c r.z ∧ r.v = prodLimitLeft d c r.z ^ 2 * gwBefore d c r.z
  | k, pre, [], pt, v1, _, _, _, _, _, _ => by simp [goShift, dedupe]
  | 0, pre, u :: us, pt, v1, hk, _, _, _, _, _ => by simp at hk
  | k + 1, pre, u :: us, pt, v1, hk, hcount, hs, hpre, hpt, hv1 => by
    obtain ⟨v, m, rest, he, hlt, hp⟩ := sorted_group (u :: us) hs (by simp)
    have hv1 := hv1 (by simp)
    rw [he] at hcount hpre ⊢
    have hmemd : ∀ x, x ∈ d ↔ x ∈ pre ∨ x = v ∨ x ∈ rest := by
      intro x
      rw [← List.count_pos_iff, ← hcount x, List.count_pos_iff]
      simp
    have hvpre : v ∉ pre := fun h => lt_irrefl v (hpre v h v (by simp))
    have hvrest : v ∉ rest := fun h => lt_irrefl v (hlt v h)
    have hdc : d.count v = m + 1 := by
      rw [← hcount v, List.count_append, List.count_append, List.count_eq_zero.mpr hvpre, List.count_eq_zero.mpr hvrest,
        List.count_replicate_self]; omega
    have hperm : d.Perm (pre ++ (List.replicate (m + 1) v ++ rest)) := (List.perm_iff_count.mpr hcount).symm
    have hrisk : atRisk d c v = m + 1 + rest.length + c.countP (fun x => decide (v ≤ x)) := by
      unfold atRisk
      rw [hperm.countP_eq, List.countP_append, List.countP_append]
      have h1 : pre.countP (fun x => decide (v ≤ x)) = 0 := by
        rw [List.countP_eq_zero]; intro x hx; simpa using hpre x hx v (by simp)
      have h2 : (List.replicate (m + 1) v).countP (fun x => decide (v ≤ x)) = m + 1 := by
        rw [List.countP_eq_length.mpr]
        · simp
        · intro x hx; simp [List.eq_of_mem_replicate hx]
      have h3 : rest.countP (fun x => decide (v ≤ x)) = rest.length := by
        rw [List.countP_eq_length]; intro x hx; simpa using (hlt x hx).le
      omega
    obtain ⟨v1', X, hX, e1, e2⟩ := goShift_group c v rest m pt v1
    have hdK : ((m + 1 : ℕ) : K) = (d.count v : K) := by rw [hdc]
    rw [← hrisk, hdK] at e1 e2
    have hfin : d.toFinset.filter (fun x => x < v) = pre.toFinset := by
      ext x
      simp only [Finset.mem_filter, List.mem_toFinset, hmemd]
      constructor
      · rintro ⟨h | h | h, hx⟩
        · exact h
        · exact absurd hx (by rw [h]; exact lt_irrefl v)
        · exact absurd hx (not_lt.mpr (hlt x h).le)
      · intro h
        exact ⟨Or.inl h, hpre x h v (by simp)⟩
    have hnot : v ∉ pre.toFinset := by simpa using hvpre
    have hset : (pre ++ List.replicate (m + 1) v).toFinset = insert v pre.toFinset := by
      ext x
      simp only [List.toFinset_append, Finset.mem_union, List.mem_toFinset, Finset.mem_insert, List.mem_replicate]
      constructor
      · rintro (h | ⟨_, h⟩)
        · exact Or.inr h
        · exact Or.inl h
      · rintro (h | h)
        · exact Or.inr ⟨by simp, h⟩
        · exact Or.inl h
    have hprod : pt * (1 - (d.count v : K) / (atRisk d c v : K)) =
        ∏ v ∈ insert v pre.toFinset, (1 - (d.count v : K) / (atRisk d c v : K)) := by
      rw [Finset.prod_insert hnot, hpt, mul_comm]
    have hsum : rest.length + c.countP (fun x => decide (v ≤ x)) ≠ 0 → v1' =
        ∑ v ∈ insert v pre.toFinset, (d.count v : K) / ((atRisk d c v : K) * ((atRisk d c v : K) - (d.count v : K))) := by
      intro h
      rw [e2 h, Finset.sum_insert hnot, hv1, add_comm]
    have hlen : rest.length ≤ k := by
      have : (u :: us).length = m + 1 + rest.length := by rw [he]; simp
      omega
    have hrec := shift_spec d c k (pre ++ List.replicate (m + 1) v) rest (pt * (1 - (d.count v : K) / (atRisk d c v : K))) v1' hlen
      (by intro x; rw [← hcount x, List.append_assoc]) hp
      (by
        intro a ha b hb
        rcases List.mem_append.mp ha with ha | ha
        · exact hpre a ha b (by simp [hb])
        · rw [List.eq_of_mem_replicate ha]; exact hlt b hb)
      (by rw [hprod, hset])
      (by
        intro h
        rw [hsum (by have := List.length_pos_iff.mpr h; omega), hset])
    obtain ⟨r1, r2, r3⟩ := hrec
    have hsplit : dedupe (goShift c pt v1 (List.replicate (m + 1) v ++ rest)).reverse =
        dedupe (goShift c (pt * (1 - (d.count v : K) / (atRisk d c v : K))) v1' rest).reverse ++ [⟨v, pt, pt ^ 2 * v1⟩] := by
      rw [e1, List.reverse_append, List.reverse_cons, dedupe_append, dedupe_same]
      · intro x hx; exact hX x (List.mem_reverse.mp hx)
      · intro a ha b hb
        have ha' : a.z ∈ rest := by
          rw [← goShift_z c rest (pt * (1 - (d.count v : K) / (atRisk d c v : K))) v1']
          exact List.mem_map_of_mem (List.mem_reverse.mp ha)
        have hb' : b.z = v := by
          rcases List.mem_append.mp hb with hb | hb
          · exact hX b (List.mem_reverse.mp hb)
          · rw [List.mem_singleton.mp hb]
        rw [hb']; exact (hlt _ ha').ne'
    rw [hsplit]
    refine ⟨?_, ?_, ?_⟩
    · rw [List.map_append, List.pairwise_append]
      refine ⟨r1, by simp, fun a ha b hb => ?_⟩
      simp only [List.map_cons, List.map_nil, List.mem_singleton] at hb
      rw [hb]; exact hlt a ((r2 a).mp ha)
    · intro x
      rw [List.map_append, List.mem_append, r2 x]
      simp [or_comm]
    · intro r hr
      rcases List.mem_append.mp hr with hr | hr
      · exact r3 r hr
      · rw [List.mem_singleton.mp hr]
        simp only [prodLimitLeft, gwBefore, hfin]
        rw [hpt, hv1]; simp

theorem atRisk_neg (d c : List K) (v : K) : atRisk (d.map fun x => -x) (c.map fun x => -x) (-v) = atRiskUp d c v := by
  unfold atRisk atRiskUp
  rw [List.countP_map, List.countP_map]
  congr 1 <;> apply List.countP_congr <;> intro x _ <;> simp

theorem count_neg (d : List K) (v : K) : (d.map fun x => -x).count (-v) = d.count v :=
  List.count_map_of_injective d _ neg_injective v

theorem filter_neg (d : List K) (t : K) :
    (d.map fun x => -x).toFinset.filter (fun v => v < -t) = (d.toFinset.filter (fun v => t < v)).map ⟨fun x => -x, neg_injective⟩ := by
  ext x
  simp only [Finset.mem_filter, List.mem_toFinset, List.mem_map, Finset.mem_map, Function.Embedding.coeFn_mk]
  constructor
  · rintro ⟨⟨a, ha, rfl⟩, h⟩
    exact ⟨a, ⟨ha, by linarith⟩, rfl⟩
  · rintro ⟨a, ⟨ha, h⟩, rfl⟩
    exact ⟨⟨a, ha, rfl⟩, by linarith⟩

theorem before_neg (d c : List K) (t : K) :
    prodLimitLeft (d.map fun x => -x) (c.map fun x => -x) (-t) = 1 - prodLimitUp d c t := by
  unfold prodLimitLeft prodLimitUp
  rw [filter_neg, Finset.prod_map]
  simp only [Function.Embedding.coeFn_mk, count_neg, atRisk_neg, sub_sub_cancel]

theorem gw_neg (d c : List K) (t : K) :
    prodLimitLeft (d.map fun x => -x) (c.map fun x => -x) (-t) ^ 2 * gwBefore (d.map fun x => -x) (c.map fun x => -x) (-t) =
      greenwoodUp d c t := by
  rw [before_neg, greenwoodUp, gwBefore, filter_neg, Finset.sum_map]
  simp only [Function.Embedding.coeFn_mk, count_neg, atRisk_neg]

theorem filter_neg_le (d : List K) (t : K) :
    (d.map fun x => -x).toFinset.filter (fun v => v ≤ -t) = (d.toFinset.filter (fun v => t ≤ v)).map ⟨fun x => -x, neg_injective⟩ := by
  ext x
  simp only [Finset.mem_filter, List.mem_toFinset, List.mem_map, Finset.mem_map, Function.Embedding.coeFn_mk]
  constructor
  · rintro ⟨⟨a, ha, rfl⟩, h⟩
    exact ⟨a, ⟨ha, by linarith⟩, rfl⟩
  · rintro ⟨a, ⟨ha, h⟩, rfl⟩
    exact ⟨⟨a, ha, rfl⟩, by linarith⟩

theorem after_neg (d c : List K) (t : K) :
    prodLimit (d.map fun x => -x) (c.map fun x => -x) (-t) = 1 - prodLimitUpLeft d c t := by
  unfold prodLimit prodLimitUpLeft
  rw [filter_neg_le, Finset.prod_map]
  simp only [Function.Embedding.coeFn_mk, count_neg, atRisk_neg, sub_sub_cancel]

/-! ### The mean -/

theorem meanGo_group (v : K) (R : List (K × K)) : ∀ (X : List (K × K)) (up sp s : K), (∀ x ∈ X, x.1 = v) →
    meanGo up sp (X ++ (v, s) :: R) = sp * (v - up) + meanGo v s R
  | [], up, sp, s, _ => by
    simp only [List.nil_append, meanGo]
    split
    · rfl
    · next h => rw [not_ne_iff] at h; rw [h]; ring
  | (x, s') :: X, up, sp, s, h => by
    have hx : x = v := h (x, s') (by simp)
    subst hx
    have ih := meanGo_group x R X x s' s (fun y hy => h y (by simp [hy]))
    simp only [List.cons_append, meanGo]
    split
    · rw [ih]; ring
    · next h => rw [not_ne_iff] at h; subst h; rw [ih]; ring

theorem go_group_raw (cc : List K) (v : K) (rest : List K) : ∀ (m : ℕ) (pt v1 : K),
    ∃ (v1' y : K) (X : List (Row K)), (∀ x ∈ X, x.z = v) ∧ go cc pt v1 (List.replicate (m + 1) v ++ rest) =
        X ++ ⟨v, pt * (1 - ((m + 1 : ℕ) : K) / ((m + 1 + rest.length + cc.countP (fun c => decide (v ≤ c)) : ℕ) : K)), y⟩ ::
        go cc (pt * (1 - ((m + 1 : ℕ) : K) / ((m + 1 + rest.length + cc.countP (fun c => decide (v ≤ c)) : ℕ) : K))) v1' rest := by
  intro m
  set k := rest.length + cc.countP (fun c => decide (v ≤ c)) with hk
  have hkk : ∀ j, j + rest.length + cc.countP (fun c => decide (v ≤ c)) = j + k := fun j => by omega
  simp only [hkk]
  induction m with
  | zero =>
    intro pt v1
    have hn : (rest.length + 1 + cc.countP (fun c => decide (v ≤ c)) : ℕ) = 1 + k := by omega
    have h1k : ((1 + k : ℕ) : K) ≠ 0 := by exact_mod_cast (show 1 + k ≠ 0 by omega)
    have hfac : (((1 + k : ℕ) : K) - 1) / ((1 + k : ℕ) : K) = 1 - ((1 : ℕ) : K) / ((1 + k : ℕ) : K) := by
      rw [sub_div, div_self h1k]; simp
    simp only [List.replicate_succ, List.replicate_zero, List.cons_append, List.nil_append, go, hn, hfac, zero_add]
    split <;> exact ⟨_, _, [], by simp, rfl⟩
  | succ m ih =>
    intro pt v1
    have hn : ((List.replicate (m + 1) v ++ rest).length + 1 + cc.countP (fun c => decide (v ≤ c)) : ℕ) = m + 1 + 1 + k := by
      simp only [List.length_append, List.length_replicate]; omega
    have hN : (0 : K) < ((m + 1 + k : ℕ) : K) := by exact_mod_cast (show 0 < m + 1 + k by omega)
    have hcast : ((m + 1 + 1 + k : ℕ) : K) = ((m + 1 + k : ℕ) : K) + 1 := by push_cast; ring
    have hnot : ¬ ((m + 1 + 1 + k : ℕ) : K) - 1 ≤ 0 := by rw [hcast]; linarith
    rw [List.replicate_succ, List.cons_append, go]
    simp only [hn, if_neg hnot]
    obtain ⟨v1', y, X, hX, e1⟩ := ih (pt * ((((m + 1 + 1 + k : ℕ) : K) - 1) / ((m + 1 + 1 + k : ℕ) : K)))
      (v1 + 1 / ((((m + 1 + 1 + k : ℕ) : K) - 1) * ((m + 1 + 1 + k : ℕ) : K)))
    have hpt : pt * ((((m + 1 + 1 + k : ℕ) : K) - 1) / ((m + 1 + 1 + k : ℕ) : K)) * (1 - ((m + 1 : ℕ) : K) / ((m + 1 + k : ℕ) : K)) =
        pt * (1 - ((m + 1 + 1 : ℕ) : K) / ((m + 1 + 1 + k : ℕ) : K)) := by
      have h2 : ((m + 1 : ℕ) : K) = ((m + 1 + k : ℕ) : K) - k := by push_cast; ring
      have h3 : ((m + 1 + 1 : ℕ) : K) = ((m + 1 + k : ℕ) : K) + 1 - k := by push_cast; ring
      rw [hcast, h2, h3]
      generalize ((m + 1 + k : ℕ) : K) = N at hN ⊢
      have : N + 1 ≠ 0 := by linarith
      have : N ≠ 0 := hN.ne'
      field_simp
      ring
    rw [hpt] at e1
    refine ⟨v1', y, _ :: X, ?_, by rw [e1]; rfl⟩
    intro x hx
    rcases List.mem_cons.mp hx with rfl | hx
    · rfl
    · exact hX x hx

theorem mean_spec (d c : List K) : ∀ (k : ℕ) (pre us : List K) (pt v1 up : K), us.length ≤ k →
    (∀ x, (pre ++ us).count x = d.count x) → us.Pairwise (· ≤ ·) → (∀ a ∈ pre, ∀ b ∈ us, a < b) →
    pt = ∏ v ∈ pre.toFinset, (1 - (d.count v : K) / (atRisk d c v : K)) →
    (∀ m ∈ c, ∃ x ∈ d, m < x) → (us = [] → pt = 0) →
    meanGo up pt ((go c pt v1 us).map fun r => (r.z, r.s)) =
      ∑ v ∈ us.toFinset, v * (prodLimitLeft d c v - prodLimit d c v) - up * pt
  | k, pre, [], pt, v1, up, _, _, _, _, _, _, h0 => by simp [go, meanGo, h0 rfl]
  | 0, pre, u :: us, pt, v1, up, hk, _, _, _, _, _, _ => by simp at hk
  | k + 1, pre, u :: us, pt, v1, up, hk, hcount, hs, hpre, hpt, hlim, _ => by
    obtain ⟨v, m, rest, he, hlt, hp⟩ := sorted_group (u :: us) hs (by simp)
    rw [he] at hcount hpre ⊢
    have hmemd : ∀ x, x ∈ d ↔ x ∈ pre ∨ x = v ∨ x ∈ rest := by
      intro x
      rw [← List.count_pos_iff, ← hcount x, List.count_pos_iff]
      simp
    have hvpre : v ∉ pre := fun h => lt_irrefl v (hpre v h v (by simp))
    have hvrest : v ∉ rest := fun h => lt_irrefl v (hlt v h)
    have hdc : d.count v = m + 1 := by
      rw [← hcount v, List.count_append, List.count_append, List.count_eq_zero.mpr hvpre, List.count_eq_zero.mpr hvrest,
        List.count_replicate_self]; omega
    have hperm : d.Perm (pre ++ (List.replicate (m + 1) v ++ rest)) := (List.perm_iff_count.mpr hcount).symm
    have hrisk : atRisk d c v = m + 1 + rest.length + c.countP (fun x => decide (v ≤ x)) := by
      unfold atRisk
      rw [hperm.countP_eq, List.countP_append, List.countP_append]
      have h1 : pre.countP (fun x => decide (v ≤ x)) = 0 := by
        rw [List.countP_eq_zero]; intro x hx; simpa using hpre x hx v (by simp)
      have h2 : (List.replicate (m + 1) v).countP (fun x => decide (v ≤ x)) = m + 1 := by
        rw [List.countP_eq_length.mpr]
        · simp
        · intro x hx; simp [List.eq_of_mem_replicate hx]
      have h3 : rest.countP (fun x => decide (v ≤ x)) = rest.length := by
        rw [List.countP_eq_length]; intro x hx; simpa using (hlt x hx).le
      omega
    obtain ⟨v1', y, X, hX, e1⟩ := go_group_raw c v rest m pt v1
    have hdK : ((m + 1 : ℕ) : K) = (d.count v : K) := by rw [hdc]
    rw [← hrisk, hdK] at e1
    have hfin : d.toFinset.filter (fun x => x < v) = pre.toFinset := by
      ext x
      simp only [Finset.mem_filter, List.mem_toFinset, hmemd]
      constructor
      · rintro ⟨h | h | h, hx⟩
        · exact h
        · exact absurd hx (by rw [h]; exact lt_irrefl v)
        · exact absurd hx (not_lt.mpr (hlt x h).le)
      · intro h
        exact ⟨Or.inl h, hpre x h v (by simp)⟩
    have hfin' : d.toFinset.filter (fun x => x ≤ v) = insert v pre.toFinset := by
      ext x
      simp only [Finset.mem_filter, List.mem_toFinset, Finset.mem_insert, hmemd]
      constructor
      · rintro ⟨h | h | h, hx⟩
        · exact Or.inr h
        · exact Or.inl h
        · exact absurd hx (not_le.mpr (hlt x h))
      · rintro (h | h)
        · exact ⟨Or.inr (Or.inl h), h.le⟩
        · exact ⟨Or.inl h, (hpre x h v (by simp)).le⟩
    have hnot : v ∉ pre.toFinset := by simpa using hvpre
    have hset : (pre ++ List.replicate (m + 1) v).toFinset = insert v pre.toFinset := by
      ext x
      simp only [List.toFinset_append, Finset.mem_union, List.mem_toFinset, Finset.mem_insert, List.mem_replicate]
      constructor
      · rintro (h | ⟨_, h⟩)
        · exact Or.inr h
        · exact Or.inl h
      · rintro (h | h)
        · exact Or.inr ⟨by simp, h⟩
        · exact Or.inl h
    have hprod : pt * (1 - (d.count v : K) / (atRisk d c v : K)) =
        ∏ v ∈ insert v pre.toFinset, (1 - (d.count v : K) / (atRisk d c v : K)) := by
      rw [Finset.prod_insert hnot, hpt, mul_comm]
    have hlen : rest.length ≤ k := by
      have : (u :: us).length = m + 1 + rest.length := by rw [he]; simp
      omega
    have hrec := mean_spec d c k (pre ++ List.replicate (m + 1) v) rest (pt * (1 - (d.count v : K) / (atRisk d c v : K))) v1' v hlen
      (by intro x; rw [← hcount x, List.append_assoc]) hp
      (by
        intro a ha b hb
        rcases List.mem_append.mp ha with ha | ha
        · exact hpre a ha b (by simp [hb])
        · rw [List.eq_of_mem_replicate ha]; exact hlt b hb)
      (by rw [hprod, hset]) hlim
      (by
        intro h
        have hz : c.countP (fun x => decide (v ≤ x)) = 0 := by
          rw [List.countP_eq_zero]; intro x hx
          obtain ⟨w, hw, hxw⟩ := hlim x hx
          rw [hmemd, h] at hw
          simp only [decide_eq_true_eq, not_le]
          rcases hw with hw | hw | hw
          · exact hxw.trans (hpre w hw v (by simp))
          · rw [← hw]; exact hxw
          · simp at hw
        have : atRisk d c v = d.count v := by rw [hrisk, hdc, h, hz]; simp
        rw [this, div_self (by rw [hdc]; exact_mod_cast Nat.succ_ne_zero m)]; simp)
    rw [e1, List.map_append, List.map_cons, meanGo_group v _ _ up pt _ (by
      intro x hx
      obtain ⟨r, hr, rfl⟩ := List.mem_map.mp hx
      exact hX r hr), hrec]
    have hus : (List.replicate (m + 1) v ++ rest).toFinset = insert v rest.toFinset := by
      ext x; simp
    have hL : prodLimitLeft d c v = pt := by rw [prodLimitLeft, hfin, hpt]
    have hR : prodLimit d c v = pt * (1 - (d.count v : K) / (atRisk d c v : K)) := by rw [prodLimit, hfin', hprod]
    rw [hus, Finset.sum_insert (by simpa using hvrest), hL, hR]
    ring

theorem meanOf_eq (l : List (K × K)) : meanOf l = meanGo 0 1 l := by
  match l with
  | [] => rfl
  | (u, s) :: r =>
    simp only [meanOf, meanGo]
    split
    · ring
    · next h => rw [not_ne_iff] at h; rw [h]; ring

theorem meanOf_go (d c : List K) (hd : d ≠ []) (hlim : ∀ m ∈ c, ∃ x ∈ d, m < x) (cc : List K) (hcc : cc.Perm c) :
    meanOf ((go cc 1 0 (sorted d)).map fun r => (r.z, r.s)) =
      ∑ v ∈ d.toFinset, v * (prodLimitLeft d c v - prodLimit d c v) := by
  have hpd := sorted_perm d
  have hgo : ∀ pt v1, go cc pt v1 (sorted d) = go c pt v1 (sorted d) := fun pt v1 =>
    go_congr cc c _ pt v1 fun u _ => hcc.countP_eq _
  rw [hgo, meanOf_eq, mean_spec d c _ [] (sorted d) 1 0 0 le_rfl (fun x => by rw [List.nil_append, hpd.count_eq]) (sorted_pairwise d)
    (by simp) (by simp) hlim (by
      intro h; rw [h] at hpd; exact absurd hpd.symm.eq_nil hd)]
  rw [List.toFinset_eq_of_perm _ _ hpd]
  simp

end Verif.Km
