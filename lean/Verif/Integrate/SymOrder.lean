import Verif.Integrate.SymPart

/-!
# Symmetric rules: the loops of `SYMRL`
-/

set_option linter.unusedSectionVars false

namespace Verif.SymRl

open Finset Verif.Adapt

variable {K : Type*} [Field K] [LinearOrder K] [IsStrictOrderedRing K]

/-- What is assumed about a box and the generators, of which `N` are used. -/
structure Setup (e : Fixed K) (S : ℕ) (hw : List K) (N : ℕ) : Prop where
  hS : 0 < S
  hc : e.c.length = S
  hh : hw.length = S
  hp : ∀ h ∈ hw, 0 ≤ h
  hg : ∀ m < N, 0 ≤ e.g m
  hg0 : ∀ m < N, e.g m = 0 ↔ m = 0

/-- The sum for a partition. -/
def Phi (e : Fixed K) (hw : List K) (M : List ℕ) : K := ∑ x ∈ Pm M, T e.g e.c hw x (fun xs => e.f (vec xs))

theorem part_spec {e : Fixed K} {S N D : ℕ} {hw : List K} (H : Setup e S hw N) (hDN : D < N) {cnt : ℕ} {M : List ℕ} (hl : M.length = S) (hd : M.Pairwise (· ≥ ·)) (hD : M.sum ≤ D)
    {s : St K} (hhw : s.hw = hw) (hinv : M.sum < D → s.weghts cnt ≠ 0 → s.fulsms cnt = Phi e hw M) (intval : K) :
    ∃ s' N0, (∀ fuel ≥ N0, part fuel e D cnt M.sum M intval s = some (intval + whtS e.P M (D - M.sum) * Phi e hw M, s')) ∧ s'.hw = hw ∧ s'.intvls = s.intvls ∧
      (∀ k ≠ cnt, s'.weghts k = s.weghts k ∧ s'.fulsms k = s.fulsms k) ∧ (s'.weghts cnt ≠ 0 → s'.fulsms cnt = Phi e hw M) := by
  have hne : M ≠ [] := by
    rintro rfl
    have := H.hS
    simp at hl
    omega
  have hlt : ∀ m ∈ M, m < N := fun m hm => by
    have := List.le_sum_of_mem hm
    omega
  obtain ⟨N1, h1⟩ := wht_spec e.P hne (D - M.sum)
  obtain ⟨N2, h2⟩ := flsm_spec (g := e.g) e.f (c := e.c) (hw := hw) (M := M) (fun m hm => H.hg m (hlt m hm)) (fun m hm => H.hg0 m (hlt m hm)) hd (H.hc.trans hl.symm) (H.hh.trans hl.symm) H.hp
  obtain ⟨s1, hs1, e1, e2, e3, e4⟩ : ∃ s1 : St K, (if D = M.sum then { s with weghts := put s.weghts cnt 0, fulsms := put s.fulsms cnt 0 } else s) = s1 ∧ s1.hw = hw ∧ s1.intvls = s.intvls ∧
      (∀ k ≠ cnt, s1.weghts k = s.weghts k ∧ s1.fulsms k = s.fulsms k) ∧ (s1.weghts cnt ≠ 0 → s1.fulsms cnt = Phi e hw M) := by
    refine ⟨_, rfl, ?_⟩
    split_ifs with h
    · refine ⟨hhw, rfl, fun k hk => ?_, fun h0 => ?_⟩
      · simp [put, hk]
      · simp [put] at h0
    · exact ⟨hhw, rfl, fun k _ => ⟨rfl, rfl⟩, hinv (by omega)⟩
  set w := whtS e.P M (D - M.sum) with hw'
  by_cases hc : s1.weghts cnt = 0 ∧ w ≠ 0
  · refine ⟨{ s1 with fulsms := put s1.fulsms cnt (Phi e hw M), intcls := s1.intcls + ∑ x ∈ Pm M, cnt2 ((coords e.g e.c hw x).map still), hw := hw, weghts := put s1.weghts cnt (s1.weghts cnt + w) }, max N1 N2,
      fun fuel hf => ?_, rfl, e2, fun k hk => ?_, fun _ => ?_⟩
    · unfold part
      simp only [hs1]
      rw [h1 fuel (le_trans (le_max_left _ _) hf)]
      simp only
      rw [if_pos hc, e1, h2 fuel (le_trans (le_max_right _ _) hf)]
      simp [put, Phi]
    · simp only [put, if_neg hk]
      exact e3 k hk
    · simp [put]
  · refine ⟨{ s1 with weghts := put s1.weghts cnt (s1.weghts cnt + w) }, N1, fun fuel hf => ?_, e1, e2, fun k hk => ?_, fun h0 => ?_⟩
    · unfold part
      simp only [hs1]
      rw [h1 fuel hf]
      simp only
      rw [if_neg hc]
      simp only [Option.map_some]
      have : w * s1.fulsms cnt = w * Phi e hw M := by
        by_cases hz : w = 0
        · rw [hz, zero_mul, zero_mul]
        · rw [e4 fun h => hc ⟨h, hz⟩]
      rw [this]
    · simp only [put, if_neg hk]
      exact e3 k hk
    · simp only [put, if_true] at h0
      refine e4 fun h => ?_
      rw [h, zero_add] at h0
      exact hc ⟨h, h0⟩

theorem parts_spec {e : Fixed K} {S N D : ℕ} {hw : List K} (H : Setup e S hw N) (hDN : D < N) (hnum : D < (Mseq S e.numsms).sum) :
    ∀ k cnt intval (s : St K), #(fromP S D (Mseq S cnt)) = k → (Mseq S cnt).sum ≤ D → s.hw = hw →
      (∀ j, ((Mseq S j).sum < D ∨ j < cnt) → s.weghts (j + 1) ≠ 0 → s.fulsms (j + 1) = Phi e hw (Mseq S j)) →
      ∃ s' N0, (∀ fuel ≥ N0, ∀ n ≥ k, parts fuel e D n (cnt + 1) (Mseq S cnt).sum (Mseq S cnt) intval s =
          some (true, intval + ∑ x ∈ fromP S D (Mseq S cnt), whtS e.P x (D - x.sum) * Phi e hw x, s')) ∧
        s'.hw = hw ∧ s'.intvls = s.intvls ∧ (∀ j, (Mseq S j).sum ≤ D → s'.weghts (j + 1) ≠ 0 → s'.fulsms (j + 1) = Phi e hw (Mseq S j)) := by
  intro k
  induction k with
  | zero =>
    intro cnt intval s hk hD
    obtain ⟨h1, h2⟩ := Mseq_spec H.hS cnt
    have := (fromP_step H.hS h1 h2 hD).2
    rw [card_eq_zero] at hk
    rw [hk] at this
    exact absurd this.symm (insert_ne_empty _ _)
  | succ k ih =>
    intro cnt intval s hk hD hhw hinv
    obtain ⟨h1, h2⟩ := Mseq_spec H.hS cnt
    have hne : Mseq S cnt ≠ [] := by
      intro h
      rw [h] at h1
      have := H.hS
      simp at h1
      omega
    obtain ⟨f1, f2⟩ := fromP_step H.hS h1 h2 hD
    have hnx := (nxprt_spec hne h2).2.2.2.2.1
    rw [← Mseq_succ] at f1 f2 hnx
    obtain ⟨s1, N1, p1, p2, p3, p4, p5⟩ := part_spec H hDN h1 h2 hD (cnt := cnt + 1) hhw (fun h => hinv cnt (Or.inl h)) intval
    have hcnt : ¬ cnt + 1 > e.numsms := by
      intro h
      have := Mseq_mono H.hS (show e.numsms ≤ cnt by omega)
      simp only at this
      omega
    have hinv1 : ∀ j, ((Mseq S j).sum < D ∨ j < cnt + 1) → s1.weghts (j + 1) ≠ 0 → s1.fulsms (j + 1) = Phi e hw (Mseq S j) := by
      intro j hj h0
      by_cases hjc : j = cnt
      · subst hjc
        exact p5 h0
      · obtain ⟨q1, q2⟩ := p4 (j + 1) (by omega)
        rw [q2]
        exact hinv j (by omega) (by rw [← q1]; exact h0)
    by_cases hm : (Mseq S (cnt + 1)).sum ≤ D
    · obtain ⟨s', N2, g1, g2, g3, g4⟩ := ih (cnt + 1) (intval + whtS e.P (Mseq S cnt) (D - (Mseq S cnt).sum) * Phi e hw (Mseq S cnt)) s1
        (by rw [f2, card_insert_of_notMem f1] at hk; omega) hm p2 hinv1
      refine ⟨s', max N1 N2, fun fuel hf n hn => ?_, g2, g3.trans p3, g4⟩
      obtain ⟨n, rfl⟩ : ∃ n', n = n' + 1 := ⟨n - 1, by omega⟩
      rw [parts, if_neg hcnt, p1 fuel (le_trans (le_max_left _ _) hf)]
      simp only
      rw [← Mseq_succ, ← hnx, if_pos hm, g1 fuel (le_trans (le_max_right _ _) hf) n (by omega), f2, sum_insert f1, add_assoc]
    · have hemp := fromP_empty (S := S) (not_le.1 hm)
      refine ⟨s1, N1, fun fuel hf n hn => ?_, p2, p3, fun j hj => ?_⟩
      · obtain ⟨n, rfl⟩ : ∃ n', n = n' + 1 := ⟨n - 1, by omega⟩
        rw [parts, if_neg hcnt, p1 fuel hf]
        simp only
        rw [← Mseq_succ, ← hnx, if_neg hm, f2, sum_insert f1, hemp, sum_empty, add_zero]
      · refine hinv1 j (Or.inr ?_)
        by_contra hc
        have := Mseq_mono H.hS (show cnt + 1 ≤ j by omega)
        simp only at this
        omega

/-- The part of the rule with the order `d`. -/
def VD (P : ℕ → ℕ → K) (g : ℕ → K) (cs hs : List K) (d : ℕ) (f : List K → K) : K := ∑ nr ∈ antidiagonal d, ∑ l ∈ Ls cs.length nr.1, whtS P l nr.2 * T g cs hs l f

theorem V_eq_sum (P : ℕ → ℕ → K) (g : ℕ → K) (cs hs : List K) (D : ℕ) (f : List K → K) : V P g cs hs D f = ∑ d ∈ range (D + 1), VD P g cs hs d f := rfl

/-- The sum over the partitions and their permutations is the sum over all lists. -/
theorem sum_Pt (e : Fixed K) (S D : ℕ) (hw : List K) (hc : e.c.length = S) :
    ∑ x ∈ Pt S D, whtS e.P x (D - x.sum) * Phi e hw x = VD e.P e.g e.c hw D (fun xs => e.f (vec xs)) := by
  have h1 : ∑ x ∈ Pt S D, whtS e.P x (D - x.sum) * Phi e hw x = ∑ x ∈ Pt S D, ∑ l ∈ Pm x, whtS e.P l (D - l.sum) * T e.g e.c hw l (fun xs => e.f (vec xs)) := by
    refine sum_congr rfl fun x _ => ?_
    unfold Phi
    rw [mul_sum]
    refine sum_congr rfl fun l hl => ?_
    have hl := mem_Pm.1 hl
    rw [whtS_perm e.P hl, hl.sum_eq]
  rw [h1, ← sum_biUnion]
  · have h2 : (Pt S D).biUnion Pm = (range (D + 1)).biUnion (Ls S) := by
      ext l
      simp only [mem_biUnion, mem_Pt, mem_Pm, mem_range, mem_Ls]
      constructor
      · rintro ⟨x, ⟨a1, a2, a3⟩, hl⟩
        exact ⟨l.sum, by rw [hl.sum_eq]; omega, by rw [hl.length_eq, a1], rfl⟩
      · rintro ⟨n, a1, a2, rfl⟩
        refine ⟨l.mergeSort (fun a b => decide (a ≥ b)), ⟨?_, ?_, ?_⟩, (List.mergeSort_perm _ _).symm⟩
        · rw [List.length_mergeSort, a2]
        · rw [(List.mergeSort_perm _ _).sum_eq]; omega
        · have := List.pairwise_mergeSort (le := fun a b : ℕ => decide (a ≥ b)) (by intro a b c; simp; omega) (by intro a b; simp; omega) l
          simpa using this
    rw [h2, sum_biUnion]
    · unfold VD
      rw [Nat.sum_antidiagonal_eq_sum_range_succ_mk, hc]
      refine sum_congr rfl fun n _ => sum_congr rfl fun l hl => ?_
      rw [(mem_Ls.1 hl).2]
    · intro a _ b _ hab
      rw [Function.onFun, disjoint_left]
      intro l ha hb
      exact hab ((mem_Ls.1 ha).2.symm.trans (mem_Ls.1 hb).2)
  · intro x hx y hy hxy
    rw [Function.onFun, disjoint_left]
    intro l h1 h2
    refine hxy (List.Perm.eq_of_pairwise ?_ (mem_Pt.1 hx).2.2 (mem_Pt.1 hy).2.2 ((mem_Pm.1 h1).symm.trans (mem_Pm.1 h2)))
    intro a b _ _ h h'
    exact le_antisymm h' h

/-- What holds of the variables when the orders below `D` are done. -/
structure Done (e : Fixed K) (S : ℕ) (hw : List K) (D : ℕ) (s : St K) : Prop where
  width : s.hw = hw
  sums : ∀ j, (Mseq S j).sum < D → s.weghts (j + 1) ≠ 0 → s.fulsms (j + 1) = Phi e hw (Mseq S j)

theorem order_spec {e : Fixed K} {S N D : ℕ} {hw : List K} (H : Setup e S hw N) (hDN : D < N) (hnum : D < (Mseq S e.numsms).sum) {s : St K} (hs : Done e S hw D s) :
    ∃ s' N0, (∀ fuel ≥ N0, order fuel e S D s = some (true, s')) ∧ Done e S hw (D + 1) s' ∧
      s'.intvls = put s.intvls (D + 1) ((if D > 0 then s.intvls D else 0) + VD e.P e.g e.c hw D (fun xs => e.f (vec xs))) := by
  have h0 : Mseq S 0 = List.replicate S 0 := rfl
  obtain ⟨s1, N1, h1, h2, h3, h4⟩ := parts_spec H hDN hnum _ 0 0 s rfl (by rw [h0]; simp) hs.width fun j hj => hs.sums j (by omega)
  rw [h0, fromP_zero, zero_add, sum_Pt e S D hw H.hc] at h1
  set v := VD e.P e.g e.c hw D (fun xs => e.f (vec xs))
  refine ⟨{ s1 with intvls := put s1.intvls (D + 1) (if D > 0 then s1.intvls D + v else v) }, max N1 #(Pt S D), fun fuel hf => ?_, ⟨h2, fun j hj => h4 j (by omega)⟩, ?_⟩
  · unfold order
    have := h1 fuel (le_trans (le_max_left _ _) hf) fuel (le_trans (le_max_right _ _) hf)
    simp only [List.sum_replicate, smul_zero, zero_add] at this
    rw [this]
  · simp only
    rw [h3]
    split_ifs
    · rfl
    · rw [zero_add]

theorem ordersLoop_spec {e : Fixed K} {S N : ℕ} {hw : List K} (H : Setup e S hw N) (hnum : N ≤ (Mseq S e.numsms).sum) :
    ∀ cnt D (s : St K), D + cnt ≤ N → Done e S hw D s → (∀ m, 1 ≤ m → m ≤ D → s.intvls m = V e.P e.g e.c hw (m - 1) (fun xs => e.f (vec xs))) →
      ∃ s' N0, (∀ fuel ≥ N0, ordersLoop fuel e S cnt D s = some (true, s')) ∧ Done e S hw (D + cnt) s' ∧
        (∀ m, 1 ≤ m → m ≤ D + cnt → s'.intvls m = V e.P e.g e.c hw (m - 1) (fun xs => e.f (vec xs))) := by
  intro cnt
  induction cnt with
  | zero =>
    intro D s _ h1 h2
    exact ⟨s, 0, fun fuel _ => rfl, h1, h2⟩
  | succ cnt ih =>
    intro D s hD h1 h2
    obtain ⟨s1, N1, g1, g2, g3⟩ := order_spec H (by omega) (by omega) h1
    have hv : ∀ m, 1 ≤ m → m ≤ D + 1 → s1.intvls m = V e.P e.g e.c hw (m - 1) (fun xs => e.f (vec xs)) := by
      intro m hm1 hm2
      rw [g3]
      by_cases hm : m = D + 1
      · subst hm
        simp only [put, if_true, Nat.add_sub_cancel]
        rw [V_eq_sum, sum_range_succ]
        congr 1
        split_ifs with h
        · rw [h2 D h le_rfl, V_eq_sum, Nat.sub_add_cancel h]
        · have : D = 0 := by omega
          simp [this]
      · simp only [put, if_neg hm]
        exact h2 m hm1 (by omega)
    obtain ⟨s2, N2, k1, k2, k3⟩ := ih (D + 1) s1 (by omega) g2 hv
    refine ⟨s2, max N1 N2, fun fuel hf => ?_, by rw [show D + (cnt + 1) = D + 1 + cnt by omega]; exact k2, fun m hm1 hm2 => k3 m hm1 (by omega)⟩
    rw [ordersLoop, g1 fuel (le_trans (le_max_left _ _) hf)]
    exact k1 fuel (le_trans (le_max_right _ _) hf)

end Verif.SymRl
