import Verif.Km.Km
import Mathlib.Tactic.Ring
import Mathlib.Tactic.FieldSimp
import Mathlib.Tactic.Linarith
import Mathlib.Tactic.Push
import Mathlib.Algebra.Order.Ring.Cast

set_option linter.unusedSectionVars false

namespace Verif.Km

variable {K : Type*} [Field K] [LinearOrder K] [IsStrictOrderedRing K]

theorem sorted_pairwise (l : List K) : (sorted l).Pairwise (· ≤ ·) := List.pairwise_insertionSort _ l

theorem sorted_perm (l : List K) : (sorted l).Perm l := List.perm_insertionSort _ l

/-- The estimate with the numbers at risk read off the data. -/
def go (cc : List K) (pt v1 : K) : List K → List (Row K)
  | [] => []
  | u :: r =>
    let n : ℕ := r.length + 1 + cc.countP (fun c => decide (u ≤ c))
    let pt' := pt * (((n : K) - 1) / n)
    if (n : K) - 1 ≤ 0 then ⟨u, pt', 0⟩ :: go cc pt' v1 r
    else
      let v1' := v1 + 1 / (((n : K) - 1) * n)
      ⟨u, pt', pt' ^ 2 * v1'⟩ :: go cc pt' v1' r

theorem takeWhile_count (u : K) : ∀ (cs : List K), cs.Pairwise (· ≤ ·) →
    (cs.takeWhile fun c => decide (c < u)).length = cs.countP (fun c => decide (c < u)) ∧
      cs.drop (cs.takeWhile fun c => decide (c < u)).length = cs.filter (fun c => decide (u ≤ c))
  | [], _ => by simp
  | c :: cs, h => by
    rw [List.pairwise_cons] at h
    obtain ⟨h1, h2⟩ := takeWhile_count u cs h.2
    by_cases hc : c < u
    · simp [List.takeWhile_cons, hc, h1, h2, not_le.mpr hc]
      rw [← h1]; exact h2
    · have hall : ∀ x ∈ cs, u ≤ x := fun x hx => (not_lt.mp hc).trans (h.1 x hx)
      have hz : cs.countP (fun c => decide (c < u)) = 0 := by
        rw [List.countP_eq_zero]; intro x hx; simpa using hall x hx
      have hf : cs.filter (fun c => decide (u ≤ c)) = cs := by
        rw [List.filter_eq_self]; intro x hx; simpa using hall x hx
      simp [List.takeWhile_cons, hc, hz, hf, not_lt.mp hc]

theorem count_split (u : K) (cs : List K) :
    cs.countP (fun c => decide (c < u)) + cs.countP (fun c => decide (u ≤ c)) = cs.length := by
  induction cs with
  | nil => rfl
  | cons c cs ih =>
    by_cases hc : c < u
    · simp [List.countP_cons, hc, not_le.mpr hc]; omega
    · simp [List.countP_cons, hc, not_lt.mp hc]; omega

theorem count_filter_le (u w : K) (h : u ≤ w) (cs : List K) :
    (cs.filter fun c => decide (u ≤ c)).countP (fun c => decide (w ≤ c)) = cs.countP (fun c => decide (w ≤ c)) := by
  rw [List.countP_filter]
  apply List.countP_congr
  intro c _
  simp only [Bool.and_eq_true, decide_eq_true_eq, and_iff_left_iff_imp]
  exact fun hw => h.trans hw

theorem go_congr (cc cc' : List K) : ∀ (us : List K) (pt v1 : K),
    (∀ u ∈ us, cc.countP (fun c => decide (u ≤ c)) = cc'.countP (fun c => decide (u ≤ c))) → go cc pt v1 us = go cc' pt v1 us
  | [], _, _, _ => rfl
  | u :: r, pt, v1, h => by
    have h0 := h u (by simp)
    have hr : ∀ pt v1, go cc pt v1 r = go cc' pt v1 r := fun pt v1 => go_congr cc cc' r pt v1 fun w hw => h w (by simp [hw])
    simp only [go, h0, hr]

/-- The code's ranks give the numbers at risk. -/
theorem rows_go (nt : ℕ) : ∀ (us cs : List K) (i kk : ℕ) (pt v1 : K), us.Pairwise (· ≤ ·) → cs.Pairwise (· ≤ ·) →
    nt + 1 = i + kk + us.length + cs.length →
    zipRows us ((plSteps nt pt v1 (ranks i kk us cs)).map Prod.fst) ((plSteps nt pt v1 (ranks i kk us cs)).map Prod.snd) =
      go cs pt v1 us
  | [], cs, i, kk, pt, v1, _, _, _ => rfl
  | u :: us, cs, i, kk, pt, v1, hu, hc, hn => by
    obtain ⟨h1, h2⟩ := takeWhile_count u cs hc
    rw [List.pairwise_cons] at hu
    have hs := count_split u cs
    set m := (cs.takeWhile fun c => decide (c < u)).length with hm
    have hlen : (cs.drop m).length = cs.length - m := by simp
    have hmle : m ≤ cs.length := by omega
    have key : nt + 1 = (i + kk + m) + (us.length + 1 + cs.countP (fun c => decide (u ≤ c))) := by
      simp only [List.length_cons] at hn; omega
    have hnK : (nt : K) - ((i + kk + m : ℕ) : K) + 1 = ((us.length + 1 + cs.countP (fun c => decide (u ≤ c)) : ℕ) : K) := by
      have : ((nt + 1 : ℕ) : K) = ((i + kk + m + (us.length + 1 + cs.countP (fun c => decide (u ≤ c))) : ℕ) : K) := by rw [key]
      push_cast at this ⊢
      linarith
    have hnK' : (nt : K) - ((i + kk + m : ℕ) : K) = ((us.length + 1 + cs.countP (fun c => decide (u ≤ c)) : ℕ) : K) - 1 := by
      linarith
    have hrec : ∀ pt v1, zipRows us ((plSteps nt pt v1 (ranks (i + 1) (kk + m) us (cs.drop m))).map Prod.fst)
        ((plSteps nt pt v1 (ranks (i + 1) (kk + m) us (cs.drop m))).map Prod.snd) = go cs pt v1 us := by
      intro pt v1
      rw [rows_go nt us (cs.drop m) (i + 1) (kk + m) pt v1 hu.2 (hc.sublist (List.drop_sublist _ _))
        (by simp only [List.length_cons] at hn; rw [hlen]; omega)]
      rw [h2]
      apply go_congr
      intro w hw
      exact count_filter_le u w (hu.1 w hw) cs
    simp only [ranks, plSteps, go, ← hm, hnK', sub_add_cancel]
    split
    · simp only [List.map_cons, zipRows, hrec]
    · simp only [List.map_cons, zipRows, hrec]

/-- A whole group of ties. -/
theorem go_group (cc : List K) (v : K) (rest : List K) (hr : ∀ w ∈ rest, v < w) : ∀ (m : ℕ) (pt v1 : K),
    ∃ v1', dedupe (go cc pt v1 (List.replicate (m + 1) v ++ rest)) =
        ⟨v, pt * (1 - ((m + 1 : ℕ) : K) / ((m + 1 + rest.length + cc.countP (fun c => decide (v ≤ c)) : ℕ) : K)),
          (pt * (1 - ((m + 1 : ℕ) : K) / ((m + 1 + rest.length + cc.countP (fun c => decide (v ≤ c)) : ℕ) : K))) ^ 2 * v1'⟩ ::
        dedupe (go cc (pt * (1 - ((m + 1 : ℕ) : K) / ((m + 1 + rest.length + cc.countP (fun c => decide (v ≤ c)) : ℕ) : K))) v1' rest) ∧
      (rest.length + cc.countP (fun c => decide (v ≤ c)) ≠ 0 → v1' = v1 + ((m + 1 : ℕ) : K) /
        (((m + 1 + rest.length + cc.countP (fun c => decide (v ≤ c)) : ℕ) : K) *
          (((m + 1 + rest.length + cc.countP (fun c => decide (v ≤ c)) : ℕ) : K) - ((m + 1 : ℕ) : K)))) := by
  intro m
  set k := rest.length + cc.countP (fun c => decide (v ≤ c)) with hk
  have hkk : ∀ j, j + rest.length + cc.countP (fun c => decide (v ≤ c)) = j + k := fun j => by omega
  simp only [hkk]
  have dd : ∀ (x y : K) (pt v1 : K), dedupe (⟨v, x, y⟩ :: go cc pt v1 rest) = ⟨v, x, y⟩ :: dedupe (go cc pt v1 rest) := by
    intro x y pt v1
    match rest, hr with
    | [], _ => rfl
    | w :: r, hr =>
      have : v ≠ w := (hr w (by simp)).ne
      simp only [go]
      split <;> simp [dedupe, this]
  induction m with
  | zero =>
    intro pt v1
    have hn : (rest.length + 1 + cc.countP (fun c => decide (v ≤ c)) : ℕ) = 1 + k := by omega
    have h1k : ((1 + k : ℕ) : K) ≠ 0 := by exact_mod_cast (show 1 + k ≠ 0 by omega)
    have hfac : (((1 + k : ℕ) : K) - 1) / ((1 + k : ℕ) : K) = 1 - ((1 : ℕ) : K) / ((1 + k : ℕ) : K) := by
      rw [sub_div, div_self h1k]; simp
    simp only [List.replicate_succ, List.replicate_zero, List.cons_append, List.nil_append, go, hn, hfac, zero_add]
    split
    · next h =>
      have hk0 : k = 0 := by
        by_contra h0
        have : (0 : K) < k := by exact_mod_cast Nat.pos_of_ne_zero h0
        push_cast at h; linarith
      refine ⟨v1, ?_, fun h => absurd hk0 h⟩
      rw [dd, hk0]; simp
    · next h =>
      refine ⟨_, dd _ _ _ _, fun _ => ?_⟩
      congr 1
      push_cast; rw [mul_comm]
  | succ m ih =>
    intro pt v1
    have hn : ((List.replicate (m + 1) v ++ rest).length + 1 + cc.countP (fun c => decide (v ≤ c)) : ℕ) = m + 1 + 1 + k := by
      simp only [List.length_append, List.length_replicate]; omega
    have hN : (0 : K) < ((m + 1 + k : ℕ) : K) := by exact_mod_cast (show 0 < m + 1 + k by omega)
    have hcast : ((m + 1 + 1 + k : ℕ) : K) = ((m + 1 + k : ℕ) : K) + 1 := by push_cast; ring
    have hnot : ¬ ((m + 1 + 1 + k : ℕ) : K) - 1 ≤ 0 := by rw [hcast]; linarith
    have key : ∀ x y pt v1, dedupe (⟨v, x, y⟩ :: go cc pt v1 (List.replicate (m + 1) v ++ rest)) =
        dedupe (go cc pt v1 (List.replicate (m + 1) v ++ rest)) := by
      intro x y pt v1
      simp only [List.replicate_succ, List.cons_append, go]
      split <;> simp [dedupe]
    rw [List.replicate_succ, List.cons_append, go]
    simp only [hn, if_neg hnot, key]
    obtain ⟨v1', e1, e2⟩ := ih (pt * ((((m + 1 + 1 + k : ℕ) : K) - 1) / ((m + 1 + 1 + k : ℕ) : K)))
      (v1 + 1 / ((((m + 1 + 1 + k : ℕ) : K) - 1) * ((m + 1 + 1 + k : ℕ) : K)))
    have hpt : pt * ((((m + 1 + 1 + k : ℕ) : K) - 1) / ((m + 1 + 1 + k : ℕ) : K)) * (1 - ((m + 1 : ℕ) : K) / ((m + 1 + k : ℕ) : K)) =
        pt * (1 - ((m + 1 + 1 : ℕ) : K) / ((m + 1 + 1 + k : ℕ) : K)) := by
      have h2 : ((m + 1 : ℕ) : K) = ((m + 1 + k : ℕ) : K) - k := by push_cast; ring
      have h3 : ((m + 1 + 1 : ℕ) : K) = ((m + 1 + k : ℕ) : K) + 1 - k := by push_cast; ring
      rw [hcast, h2, h3]
      generalize ((m + 1 + k : ℕ) : K) = N at hN ⊢
      have : N + 1 ≠ 0 := by linarith
      have : N ≠ 0 := hN.ne'
      field_simp
      ring
    rw [hpt] at e1
    refine ⟨v1', e1, fun hk0 => ?_⟩
    rw [e2 hk0]
    have hkpos : (0 : K) < k := by exact_mod_cast Nat.pos_of_ne_zero hk0
    have h2 : ((m + 1 : ℕ) : K) = ((m + 1 + k : ℕ) : K) - k := by push_cast; ring
    have h3 : ((m + 1 + 1 : ℕ) : K) = ((m + 1 + k : ℕ) : K) + 1 - k := by push_cast; ring
    rw [hcast, h2, h3]
    generalize ((m + 1 + k : ℕ) : K) = N at hN ⊢
    have h4 : N + 1 ≠ 0 := by linarith
    have h5 : N ≠ 0 := hN.ne'
    have h6 : (k : K) ≠ 0 := hkpos.ne'
    have e3 : N - (N - (k : K)) = k := by ring
    have e4 : N + 1 - (N + 1 - (k : K)) = k := by ring
    have e5 : N + 1 - 1 = N := by ring
    rw [e3, e4, e5]
    field_simp
    ring

/-- A sorted list begins with all copies of its least element. -/
theorem sorted_group : ∀ (l : List K), l.Pairwise (· ≤ ·) → l ≠ [] →
    ∃ (v : K) (m : ℕ) (rest : List K), l = List.replicate (m + 1) v ++ rest ∧ (∀ w ∈ rest, v < w) ∧ rest.Pairwise (· ≤ ·)
  | [], _, h => absurd rfl h
  | [a], _, _ => ⟨a, 0, [], by simp, by simp, List.Pairwise.nil⟩
  | a :: b :: r, h, _ => by
    rw [List.pairwise_cons] at h
    obtain ⟨v, m, rest, he, hlt, hp⟩ := sorted_group (b :: r) h.2 (by simp)
    by_cases hab : a = v
    · exact ⟨v, m + 1, rest, by rw [he, hab, List.replicate_succ (n := m + 1), List.cons_append], hlt, hp⟩
    · refine ⟨a, 0, b :: r, by simp, ?_, h.2⟩
      intro w hw
      have hbv : v ∈ b :: r := by rw [he]; simp
      have hav : a < v := lt_of_le_of_ne (h.1 v hbv) hab
      rw [he] at hw
      rcases List.mem_append.mp hw with hw | hw
      · rw [List.eq_of_mem_replicate hw]; exact hav
      · exact hav.trans (hlt w hw)

/-- The rows with ties removed, when some rows have been done. -/
theorem go_spec (d c : List K) : ∀ (k : ℕ) (pre us : List K) (pt v1 : K), us.length ≤ k →
    (∀ x, (pre ++ us).count x = d.count x) → us.Pairwise (· ≤ ·) → (∀ a ∈ pre, ∀ b ∈ us, a < b) →
    pt = ∏ v ∈ pre.toFinset, (1 - (d.count v : K) / (atRisk d c v : K)) →
    (us ≠ [] → v1 = ∑ v ∈ pre.toFinset, (d.count v : K) / ((atRisk d c v : K) * ((atRisk d c v : K) - (d.count v : K)))) →
    ((dedupe (go c pt v1 us)).map Row.z).Pairwise (· < ·) ∧ (∀ x, x ∈ (dedupe (go c pt v1 us)).map Row.z ↔ x ∈ us) ∧
      ∀ r ∈ dedupe (go c pt v1 us), r.s = prodLimit d c r.z ∧ r.v = greenwood d c r.z
  | k, pre, [], pt, v1, _, _, _, _, _, _ => by simp [go, dedupe]
  | 0, pre, u :: us, pt, v1, hk, _, _, _, _, _ => by simp at hk
  | k + 1, pre, u :: us, pt, v1, hk, hcount, hs, hpre, hpt, hv1 => by
    obtain ⟨v, m, rest, he, hlt, hp⟩ := sorted_group (u :: us) hs (by simp)
    have hv1 := hv1 (by simp)
    rw [he] at hcount hpre ⊢
    have hmemd : ∀ x, x ∈ d ↔ x ∈ pre ∨ x = v ∨ x ∈ rest := by
      intro x
      rw [← List.count_pos_iff, ← hcount x, List.count_pos_iff]
      simp
    have hvpre : v ∉ pre := fun h => lt_irrefl v (hpre v h v (by simp))
    have hvrest : v ∉ rest := fun h => lt_irrefl v (hlt v h)
    have hdc : d.count v = m + 1 := by
      rw [← hcount v, List.count_append, List.count_append, List.count_eq_zero.mpr hvpre, List.count_eq_zero.mpr hvrest,
        List.count_replicate_self]; omega
    have hperm : d.Perm (pre ++ (List.replicate (m + 1) v ++ rest)) := (List.perm_iff_count.mpr hcount).symm
    have hrisk : atRisk d c v = m + 1 + rest.length + c.countP (fun x => decide (v ≤ x)) := by
      unfold atRisk
      rw [hperm.countP_eq, List.countP_append, List.countP_append]
      have h1 : pre.countP (fun x => decide (v ≤ x)) = 0 := by
        rw [List.countP_eq_zero]; intro x hx; simpa using hpre x hx v (by simp)
      have h2 : (List.replicate (m + 1) v).countP (fun x => decide (v ≤ x)) = m + 1 := by
        rw [List.countP_eq_length.mpr]
        · simp
        · intro x hx; simp [List.eq_of_mem_replicate hx]
      have h3 : rest.countP (fun x => decide (v ≤ x)) = rest.length := by
        rw [List.countP_eq_length]; intro x hx; simpa using (hlt x hx).le
      omega
    obtain ⟨v1', e1, e2⟩ := go_group c v rest hlt m pt v1
    have hdK : ((m + 1 : ℕ) : K) = (d.count v : K) := by rw [hdc]
    rw [← hrisk, hdK] at e1 e2
    have hfin : d.toFinset.filter (fun x => x ≤ v) = insert v pre.toFinset := by
      ext x
      simp only [Finset.mem_filter, List.mem_toFinset, Finset.mem_insert, hmemd]
      constructor
      · rintro ⟨h | h | h, hx⟩
        · exact Or.inr h
        · exact Or.inl h
        · exact absurd hx (not_le.mpr (hlt x h))
      · rintro (h | h)
        · exact ⟨Or.inr (Or.inl h), h.le⟩
        · exact ⟨Or.inl h, (hpre x h v (by simp)).le⟩
    have hnot : v ∉ pre.toFinset := by simpa using hvpre
    have hset : (pre ++ List.replicate (m + 1) v).toFinset = insert v pre.toFinset := by
      ext x
      simp only [List.toFinset_append, Finset.mem_union, List.mem_toFinset, Finset.mem_insert, List.mem_replicate]
      constructor
      · rintro (h | ⟨_, h⟩)
        · exact Or.inr h
        · exact Or.inl h
      · rintro (h | h)
        · exact Or.inr ⟨by simp, h⟩
        · exact Or.inl h
    have hprod : pt * (1 - (d.count v : K) / (atRisk d c v : K)) =
        ∏ v ∈ insert v pre.toFinset, (1 - (d.count v : K) / (atRisk d c v : K)) := by
      rw [Finset.prod_insert hnot, hpt, mul_comm]
    have hS : pt * (1 - (d.count v : K) / (atRisk d c v : K)) = prodLimit d c v := by
      rw [hprod, prodLimit, hfin]
    have hsum : rest.length + c.countP (fun x => decide (v ≤ x)) ≠ 0 → v1' =
        ∑ v ∈ insert v pre.toFinset, (d.count v : K) / ((atRisk d c v : K) * ((atRisk d c v : K) - (d.count v : K))) := by
      intro h
      rw [e2 h, Finset.sum_insert hnot, hv1, add_comm]
    have hlen : rest.length ≤ k := by
      have : (u :: us).length = m + 1 + rest.length := by rw [he]; simp
      omega
    have hrec := go_spec d c k (pre ++ List.replicate (m + 1) v) rest (pt * (1 - (d.count v : K) / (atRisk d c v : K))) v1' hlen
      (by intro x; rw [← hcount x, List.append_assoc]) hp
      (by
        intro a ha b hb
        rcases List.mem_append.mp ha with ha | ha
        · exact hpre a ha b (by simp [hb])
        · rw [List.eq_of_mem_replicate ha]; exact hlt b hb)
      (by rw [hprod, hset])
      (by
        intro h
        rw [hsum (by have := List.length_pos_iff.mpr h; omega), hset])
    obtain ⟨r1, r2, r3⟩ := hrec
    rw [e1]
    refine ⟨?_, ?_, ?_⟩
    · rw [List.map_cons, List.pairwise_cons]
      refine ⟨fun x hx => hlt x ((r2 x).mp hx), r1⟩
    · intro x
      rw [List.map_cons, List.mem_cons, r2 x]
      simp
    · intro r hr
      rcases List.mem_cons.mp hr with rfl | hr
      · refine ⟨hS, ?_⟩
        show (pt * (1 - (d.count v : K) / (atRisk d c v : K))) ^ 2 * v1' = greenwood d c v
        rw [greenwood, ← hS, hfin]
        by_cases h0 : rest.length + c.countP (fun x => decide (v ≤ x)) ≠ 0
        · rw [hsum h0]
        · have hz : pt * (1 - (d.count v : K) / (atRisk d c v : K)) = 0 := by
            have : atRisk d c v = d.count v := by rw [hrisk, hdc]; omega
            rw [this, div_self (by rw [hdc]; exact_mod_cast Nat.succ_ne_zero m)]; simp
          rw [hz]; ring
      · exact r3 r hr

end Verif.Km
