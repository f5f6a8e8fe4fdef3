import Verif.Km.UpperLemmas

set_option linter.unusedSectionVars false

namespace Verif.Km

variable {K : Type*} [Field K] [LinearOrder K] [IsStrictOrderedRing K]

theorem massOf_eq (s : List K) (h : s.Pairwise (· ≥ ·)) : massOf s = List.zipWith (fun a b => a - b) (1 :: s) s := by
  cases s with
  | nil => rfl
  | cons a r =>
    rw [massOf, List.zipWith_cons_cons]
    congr 1
    rw [List.zip, List.map_zipWith]
    induction r generalizing a with
    | nil => rfl
    | cons b r ih =>
      have h' := h
      rw [List.pairwise_cons] at h
      have hab : b ≤ a := h.1 b (by simp)
      rw [List.zipWith_cons_cons, List.zipWith_cons_cons, ih b h.2]
      congr 1
      rw [abs_of_nonpos (by linarith)]; ring

theorem fillBin_spec (bs bl : K) (hb : bs ≤ bl) : ∀ (R : List (K × K)) (acc : K), R.Pairwise (fun a b => a.1 ≤ b.1) →
    (fillBin bs bl acc R).1 = acc + ((R.filter fun p => decide (bs ≤ p.1 ∧ p.1 < bl)).map Prod.snd).sum ∧
      (fillBin bs bl acc R).2.filter (fun p => decide (bl ≤ p.1)) = R.filter (fun p => decide (bl ≤ p.1)) ∧
      (fillBin bs bl acc R).2.Sublist R
  | [], acc, _ => by simp [fillBin]
  | [p], acc, _ => by
    simp only [fillBin]
    by_cases h1 : p.1 < bs
    · have : ¬ bs ≤ p.1 := not_le.mpr h1
      simp [h1, this]
    · by_cases h2 : bl ≤ p.1
      · simp [h1, h2, not_lt.mpr h2]
      · simp [h1, h2, not_lt.mp h1, not_le.mp h2]
  | p :: q :: r, acc, h => by
    rw [List.pairwise_cons] at h
    simp only [fillBin]
    by_cases h1 : p.1 < bs
    · obtain ⟨e1, e2, e3⟩ := fillBin_spec bs bl hb (q :: r) acc h.2
      have hn : ¬ bs ≤ p.1 := not_le.mpr h1
      have hn' : ¬ bl ≤ p.1 := not_le.mpr (h1.trans_le hb)
      rw [if_pos h1]
      refine ⟨?_, ?_, e3.trans (List.sublist_cons_self _ _)⟩
      · rw [e1, List.filter_cons (x := p)]; simp [hn]
      · rw [e2, List.filter_cons (x := p)]; simp [hn']
    · rw [if_neg h1]
      by_cases h2 : bl ≤ p.1
      · rw [if_pos h2]
        refine ⟨?_, rfl, List.Sublist.refl _⟩
        have : (p :: q :: r).filter (fun p => decide (bs ≤ p.1 ∧ p.1 < bl)) = [] := by
          rw [List.filter_eq_nil_iff]
          intro x hx
          have : bl ≤ x.1 := by
            rcases List.mem_cons.mp hx with rfl | hx
            · exact h2
            · exact h2.trans (h.1 x hx)
          simp [not_lt.mpr this]
        rw [this]; simp
      · rw [if_neg h2]
        obtain ⟨e1, e2, e3⟩ := fillBin_spec bs bl hb (q :: r) (acc + p.2) h.2
        refine ⟨?_, ?_, e3.trans (List.sublist_cons_self _ _)⟩
        · rw [e1, List.filter_cons (x := p), if_pos (by simp [not_lt.mp h1, not_le.mp h2])]
          simp only [List.map_cons, List.sum_cons]; ring
        · rw [e2, List.filter_cons (x := p)]; simp [h2]

theorem fillBins_spec (start w : K) (hw : 0 < w) : ∀ (n j : ℕ) (pts : List (K × K)) (mem : ℕ → K), pts.Pairwise (fun a b => a.1 ≤ b.1) →
    (∀ i < n, fillBins start w pts mem j n (j + i) =
      ((pts.filter fun p => decide (start + w * ((j + i : ℕ) : K) ≤ p.1 ∧ p.1 < start + w * ((j + i + 1 : ℕ) : K))).map Prod.snd).sum) ∧
      fillBins start w pts mem j n (j + n) = 0 ∧ ∀ i < j, fillBins start w pts mem j n i = mem i
  | 0, j, pts, mem, _ => by
    refine ⟨by simp, by simp [fillBins], fun i hi => ?_⟩
    simp [fillBins, Function.update_of_ne (show i ≠ j by omega)]
  | n + 1, j, pts, mem, h => by
    have hb : start + w * (j : K) ≤ start + w * ((j : K) + 1) := by nlinarith
    obtain ⟨e1, e2, e3⟩ := fillBin_spec (start + w * (j : K)) (start + w * ((j : K) + 1)) hb pts 0 h
    obtain ⟨r1, r2, r3⟩ := fillBins_spec start w hw n (j + 1) (fillBin (start + w * (j : K)) (start + w * ((j : K) + 1)) 0 pts).2
      (Function.update mem j (fillBin (start + w * (j : K)) (start + w * ((j : K) + 1)) 0 pts).1) (h.sublist e3)
    simp only [fillBins]
    refine ⟨?_, ?_, ?_⟩
    · intro i hi
      cases i with
      | zero =>
        simp only [Nat.add_zero]
        rw [r3 j (by omega), Function.update_self, e1]
        push_cast; simp
      | succ i =>
        have hj : j + (i + 1) = j + 1 + i := by omega
        rw [hj, r1 i (by omega)]
        congr 2
        have key : ∀ l : List (K × K), l.filter (fun p => decide (start + w * ((j + 1 + i : ℕ) : K) ≤ p.1 ∧ p.1 < start + w * ((j + 1 + i + 1 : ℕ) : K))) =
            (l.filter (fun p => decide (start + w * ((j : K) + 1) ≤ p.1))).filter
              (fun p => decide (start + w * ((j + 1 + i : ℕ) : K) ≤ p.1 ∧ p.1 < start + w * ((j + 1 + i + 1 : ℕ) : K))) := by
          intro l
          rw [List.filter_filter]
          apply List.filter_congr
          intro p _
          have : start + w * ((j : K) + 1) ≤ start + w * ((j + 1 + i : ℕ) : K) := by
            have : (0 : K) ≤ w * (i : K) := mul_nonneg hw.le (Nat.cast_nonneg i)
            push_cast; nlinarith
          by_cases hp : start + w * ((j + 1 + i : ℕ) : K) ≤ p.1
          · simp [this.trans hp]
          · have hd : decide (start + w * ((j + 1 + i : ℕ) : K) ≤ p.1 ∧ p.1 < start + w * ((j + 1 + i + 1 : ℕ) : K)) = false := by
              simp only [decide_eq_false_iff_not]; exact fun hh => hp hh.1
            rw [hd]; rfl
        rw [key, e2, ← key]
    · have : j + (n + 1) = j + 1 + n := by omega
      rw [this]; exact r2
    · intro i hi
      rw [r3 i (by omega), Function.update_of_ne (show i ≠ j by omega)]

theorem scan_spec (ty : K) : ∀ (pts : List (K × K)) (a0 : K × K) (j : ℕ), ty ≤ a0.2 → (∃ p ∈ pts, p.2 ≤ ty) →
    ∃ pre a b post, a0 :: pts = pre ++ a :: b :: post ∧ b.2 ≤ ty ∧ ty ≤ a.2 ∧
      scanQ ty j (a0 :: pts) = some (a.1 - (a.2 - ty) / (a.2 - b.2) * (a.1 - b.1), j + pre.length + 1)
  | [], _, _, _, h => by simp at h
  | b :: r, a0, j, ha, h => by
    by_cases hb : b.2 ≤ ty
    · exact ⟨[], a0, b, r, rfl, hb, ha, by rw [scanQ, if_pos ⟨ha, hb⟩]; rfl⟩
    · obtain ⟨p, hp, hpt⟩ := h
      have hp' : p ∈ r := by
        rcases List.mem_cons.mp hp with rfl | hp
        · exact absurd hpt hb
        · exact hp
      obtain ⟨pre, a, b', post, e, h1, h2, h3⟩ := scan_spec ty r b (j + 1) (not_le.mp hb).le ⟨p, hp', hpt⟩
      refine ⟨a0 :: pre, a, b', post, by rw [e]; rfl, h1, h2, ?_⟩
      rw [scanQ, if_neg (fun hh => hb hh.2), h3]
      congr 2
      simp only [List.length_cons]; omega

theorem quart_line (a b : K × K) (ty : K) (h : b.2 < a.2) :
    OnLine a.1 a.2 b.1 b.2 (a.1 - (a.2 - ty) / (a.2 - b.2) * (a.1 - b.1)) ty := by
  unfold OnLine
  have : a.2 - b.2 ≠ 0 := by intro h'; linarith
  field_simp
  ring

theorem origin_line (u s ty : K) (h : s < 1) : OnLine 0 1 u s (u - (ty - s) / (1 - s) * (u - 0)) ty := by
  unfold OnLine
  have : 1 - s ≠ 0 := by intro h'; linarith
  field_simp
  ring

/-- One percentile, the search starting at or before its place. -/
theorem quart1_spec (pts : List (K × K)) (p0 : K × K) (rest : List (K × K)) (hp : pts = p0 :: rest) (ty : K) (l : ℕ)
    (h1 : p0.2 < 1) (hty : ty ≤ 1) (hdec : pts.Pairwise (fun a b => b.2 < a.2))
    (hl : ty ≤ p0.2 → ∃ q qs, pts.drop l = q :: qs ∧ ty ≤ q.2 ∧ ∃ p ∈ qs, p.2 ≤ ty) :
    OnCurve pts (quart1 pts ty l).1 ty ∧
      ((quart1 pts ty l).2 = l ∧ p0.2 < ty ∨ ∃ a b post pre, pts = pre ++ a :: b :: post ∧ b.2 ≤ ty ∧ ty ≤ a.2 ∧
        pts.drop (quart1 pts ty l).2 = b :: post) := by
  subst hp
  simp only [quart1]
  by_cases hlt : p0.2 < ty
  · rw [if_pos hlt]
    exact ⟨⟨(0, 1), p0, ⟨[], rest, rfl⟩, hlt.le, hty, origin_line _ _ _ h1⟩, Or.inl ⟨rfl, hlt⟩⟩
  · rw [if_neg hlt]
    obtain ⟨q, qs, hd, hq, hex⟩ := hl (not_lt.mp hlt)
    obtain ⟨pre, a, b, post, e, hb, ha, hs⟩ := scan_spec ty qs q l hq hex
    rw [hd, hs]
    have hsplit : p0 :: rest = ((p0 :: rest).take l ++ pre) ++ a :: b :: post := by
      rw [List.append_assoc, ← e, ← hd, List.take_append_drop]
    have hba : b.2 < a.2 := by
      have h2 := hdec
      rw [hsplit, List.pairwise_append] at h2
      exact (List.pairwise_cons.mp h2.2.1).1 b (by simp)
    refine ⟨⟨a, b, ?_, hb, ha, quart_line a b ty hba⟩, Or.inr ⟨a, b, post, _, hsplit, hb, ha, ?_⟩⟩
    · refine ⟨(0, 1) :: ((p0 :: rest).take l ++ pre), post, ?_⟩
      conv_rhs => rw [hsplit]
      simp
    · simp only
      rw [show l + pre.length + 1 = l + (pre.length + 1) by omega, ← List.drop_drop, hd, e]
      rw [show pre ++ a :: b :: post = (pre ++ [a]) ++ b :: post by simp, List.drop_left' (by simp)]

end Verif.Km
