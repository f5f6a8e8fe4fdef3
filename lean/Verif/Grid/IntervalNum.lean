import Verif.Grid.IntervalInv

/-!
# Refined interval lists: numbering points and locating abscissas (helper lemmas)
-/

set_option linter.unusedSectionVars false
set_option linter.unusedSimpArgs false

namespace Verif.Grid1

section
variable {K : Type} [Field K] [LinearOrder K] [IsStrictOrderedRing K] [FloorRing K]

/-! ### Numbering -/

/-- Number of steps in a list. -/
def total (l : List (Intv K)) : ℤ := (l.map fun I => I.n - 1).sum

theorem total_cons (I : Intv K) (l : List (Intv K)) : total (I :: l) = (I.n - 1) + total l := by simp [total]

theorem total_nonneg {l : List (Intv K)} (h : ∀ I ∈ l, 2 ≤ I.n) : 0 ≤ total l := by
  induction l with
  | nil => simp [total]
  | cons I l ih =>
    rw [total_cons]
    have := h I (by simp)
    have := ih fun J hJ => h J (by simp [hJ])
    omega

theorem cums_last (a : ℤ) {l : List (Intv K)} (h : l ≠ []) : ∃ pre, cums a l = pre ++ [a + total l] ∧ pre.length + 1 = l.length := by
  induction l generalizing a with
  | nil => exact absurd rfl h
  | cons I l ih =>
    by_cases hl : l = []
    · subst hl; exact ⟨[], by simp [cums, total]; ring, rfl⟩
    · obtain ⟨pre, e, e'⟩ := ih (a + I.n - 1) hl
      refine ⟨(a + I.n - 1) :: pre, ?_, by simp [e']⟩
      rw [cums, e, total_cons]
      simp only [List.cons_append]
      congr 3
      ring

theorem cums_le (a : ℤ) {l : List (Intv K)} (h : ∀ I ∈ l, 2 ≤ I.n) : ∀ v ∈ cums a l, a ≤ v ∧ v ≤ a + total l := by
  induction l generalizing a with
  | nil => simp [cums]
  | cons I l ih =>
    intro v hv
    have hI := h I (by simp)
    have ht := total_nonneg (fun J hJ => h J (List.mem_cons_of_mem I hJ))
    rw [total_cons]
    rw [cums] at hv
    rcases List.mem_cons.mp hv with rfl | hv
    · omega
    · obtain ⟨h1, h2⟩ := ih (a + I.n - 1) (fun J hJ => h J (List.mem_cons_of_mem I hJ)) v hv
      omega

theorem split_total {l : List (Intv K)} (h : ∀ I ∈ l, 2 ≤ I.n) {n : ℤ} (h0 : 0 ≤ n) (hn : n < total l) :
    ∃ A I C, l = A ++ I :: C ∧ total A ≤ n ∧ n < total A + I.n - 1 := by
  induction l generalizing n with
  | nil => simp [total] at hn; omega
  | cons I l ih =>
    rw [total_cons] at hn
    by_cases hc : n < I.n - 1
    · exact ⟨[], I, l, rfl, by simpa [total] using h0, by simp [total]; omega⟩
    · obtain ⟨A, J, C, e, e1, e2⟩ := ih (fun J hJ => h J (List.mem_cons_of_mem I hJ)) (n := n - (I.n - 1)) (by omega) (by omega)
      refine ⟨I :: A, J, C, by rw [e]; rfl, ?_, ?_⟩ <;> rw [total_cons] <;> omega

theorem nlocLoop_spec (cum : List ℤ) (n : ℤ) (p : ℕ) (h1 : ∀ i (h : i < cum.length), i < p → cum[i] < n + 1)
    (h2 : ∀ i (h : i < cum.length), p ≤ i → n + 1 ≤ cum[i]) : ∀ d lo hi, hi - lo = d → lo ≤ p → p ≤ hi → hi ≤ cum.length →
    nlocLoop cum n lo hi = some p := by
  intro d
  induction d using Nat.strong_induction_on with
  | _ d ih =>
    intro lo hi hd hlo hhi hlen
    unfold nlocLoop
    by_cases h : lo < hi
    · rw [dif_pos h]
      have hm : (lo + hi) / 2 < cum.length := by omega
      rw [List.getElem?_eq_getElem hm]
      dsimp only
      by_cases hc : n + 1 > cum[(lo + hi) / 2]
      · rw [if_pos hc]
        have : (lo + hi) / 2 < p := by
          by_contra hp
          have := h2 _ hm (not_lt.mp hp)
          omega
        exact ih _ (by omega) _ _ rfl (by omega) hhi hlen
      · rw [if_neg hc]
        have : p ≤ (lo + hi) / 2 := by
          by_contra hp
          have := h1 _ hm (not_le.mp hp)
          omega
        exact ih _ (by omega) _ _ rfl hlo this (by omega)
    · rw [dif_neg h]
      congr 1
      omega

theorem cum_npts {s : RIL K} (h : CumOk s) (hne : s.ilist ≠ []) : s.npts = total s.ilist + 1 := by
  obtain ⟨pre, e1, e2⟩ := h
  obtain ⟨pre', e3, _⟩ := cums_last 0 hne
  rw [e2] at e3
  have := (List.append_inj' e3 rfl).2
  simp at this
  omega

/-- `nlocate` of any point but the last. -/
theorem nlocate_spec {c : LogExp K} {s : RIL K} (h : RInv c s) {A C : List (Intv K)} {I : Intv K} (hl : s.ilist = A ++ I :: C) {n : ℤ}
    (h1 : total A ≤ n) (h2 : n < total A + I.n - 1) : s.nlocate n = .ok (A.length, n - total A, I) := by
  have hn2 : ∀ J ∈ s.ilist, 2 ≤ J.n := fun J hJ => (h.good J hJ).n
  have hA : ∀ J ∈ A, 2 ≤ J.n := fun J hJ => hn2 J (by rw [hl]; simp [hJ])
  have hC : ∀ J ∈ C, 2 ≤ J.n := fun J hJ => hn2 J (by rw [hl]; simp [hJ])
  have hne : s.ilist ≠ [] := by rw [hl]; simp
  have hnp := cum_npts h.cum hne
  have htot : total s.ilist = total A + (I.n - 1) + total C := by rw [hl]; simp [total]; ring
  have hC0 := total_nonneg hC
  have hA0 := total_nonneg hA
  -- the shape of the running sums
  obtain ⟨v, rest, hcum, hv, hrest⟩ : ∃ v rest, s.cumpts = cums 0 A ++ v :: rest ∧ n + 1 ≤ v ∧ ∀ w ∈ rest, n + 1 ≤ w := by
    obtain ⟨pre, e1, e2⟩ := h.cum
    rw [hl, cums_append, zero_add, cums] at e2
    change cums 0 A ++ (total A + I.n - 1) :: cums (total A + I.n - 1) C = _ at e2
    by_cases hCe : C = []
    · subst hCe
      simp only [cums] at e2
      have := List.append_inj' e2 rfl
      refine ⟨s.npts, [], by rw [e1, this.1], ?_, by simp⟩
      simp at this
      omega
    · obtain ⟨pre', e3, _⟩ := cums_last (total A + I.n - 1) hCe
      rw [e3] at e2
      have e4 : cums 0 A ++ (total A + I.n - 1) :: (pre' ++ [total A + I.n - 1 + total C]) =
        (cums 0 A ++ (total A + I.n - 1) :: pre') ++ [total A + I.n - 1 + total C] := by simp
      rw [e4] at e2
      have := (List.append_inj' e2 rfl).1
      refine ⟨total A + I.n - 1, pre' ++ [s.npts], by rw [e1, ← this]; simp, by omega, ?_⟩
      intro w hw
      rcases List.mem_append.mp hw with hw | hw
      · have := (cums_le (total A + I.n - 1) hC w (by rw [e3]; simp [hw])).1
        omega
      · rw [List.mem_singleton.mp hw]; omega
  have hlen : s.cumpts.length = s.ilist.length := by
    obtain ⟨pre, e1, e2⟩ := h.cum
    have := congrArg List.length e2
    rw [cums_length] at this
    rw [this, e1]; simp
  unfold RIL.nlocate
  rw [if_neg (by omega), if_neg (by omega)]
  have hbis : nlocLoop s.cumpts n 0 s.ilist.length = some A.length := by
    refine nlocLoop_spec s.cumpts n A.length ?_ ?_ _ 0 s.ilist.length rfl (by omega) (by rw [hl]; simp) (by omega)
    · intro i hi hp
      have : s.cumpts[i] ∈ cums 0 A := by
        simp only [hcum]
        rw [List.getElem_append_left (by rw [cums_length]; exact hp)]
        exact List.getElem_mem _
      have := (cums_le 0 hA _ this).2
      omega
    · intro i hi hp
      have : s.cumpts[i] ∈ v :: rest := by
        simp only [hcum]
        rw [List.getElem_append_right (by rw [cums_length]; exact hp)]
        exact List.getElem_mem _
      rcases List.mem_cons.mp this with h | h
      · rw [h]; exact hv
      · exact hrest _ h
  rw [hbis]
  dsimp only
  have hget : s.ilist[A.length]? = some I := by rw [hl]; simp
  rw [hget]
  dsimp only
  congr 3
  by_cases hA' : A.length = 0
  · rw [if_pos hA']
    rw [List.length_eq_zero_iff.mp hA']
    simp [total]
  · rw [if_neg hA']
    have hAne : A ≠ [] := fun e => hA' (by rw [e]; rfl)
    obtain ⟨pre, e, e'⟩ := cums_last 0 hAne
    have e2 : A.length - 1 = pre.length := by omega
    congr 1
    rw [hcum, e, e2]
    simp

theorem nlocate_last {c : LogExp K} {s : RIL K} (h : RInv c s) {A : List (Intv K)} {I : Intv K} (hl : s.ilist = A ++ [I]) :
    s.nlocate (s.npts - 1) = .ok (A.length, I.n - 1, I) := by
  have hne : s.ilist ≠ [] := by rw [hl]; simp
  have hnp := cum_npts h.cum hne
  have := total_nonneg (fun J hJ => (h.good J hJ).n)
  unfold RIL.nlocate
  rw [if_neg (by omega), if_pos rfl]
  have : s.ilist.getLast? = some I := by rw [hl]; simp
  rw [this]
  dsimp only
  rw [hl]; simp

/-! ### Points -/

/-- The abscissa of point `i` of an interval. -/
def Intv.pt (c : LogExp K) (I : Intv K) (i : ℤ) : K := if I.isLin then I.lo + i * I.step else I.lo * c.ex (i * I.step)

/-- The points of an interval, without its upper end. -/
def Intv.pts (c : LogExp K) (I : Intv K) : List K := (List.range (I.n - 1).toNat).map fun i : ℕ => I.pt c i

theorem pts_length (c : LogExp K) (I : Intv K) : (I.pts c).length = (I.n - 1).toNat := by simp [Intv.pts]

theorem flat_length {c : LogExp K} {l : List (Intv K)} (h : ∀ I ∈ l, 2 ≤ I.n) : ((l.flatMap (Intv.pts c)).length : ℤ) = total l := by
  induction l with
  | nil => simp [total]
  | cons I l ih =>
    rw [total_cons, List.flatMap_cons, List.length_append, pts_length]
    push_cast
    rw [ih fun J hJ => h J (by simp [hJ])]
    have := h I (by simp)
    omega

theorem pt_zero {c : LogExp K} {I : Intv K} (h : Good c I) : I.pt c 0 = I.lo := by
  unfold Intv.pt
  split_ifs with hl
  · simp
  · obtain ⟨hc, _⟩ := h.log (by simpa using hl)
    have : c.ex 0 = 1 := hc.ex_zero
    simp [this]

theorem pt_last {c : LogExp K} {I : Intv K} (h : Good c I) : I.pt c (I.n - 1) = I.hi := by
  unfold Intv.pt
  split_ifs with hl
  · have := h.span hl
    push_cast
    linarith
  · obtain ⟨hc, h0, hst, _⟩ := h.log (by simpa using hl)
    have hn := h.nm1
    have hspan : ((I.n : K) - 1) * I.step = c.lg (I.hi / I.lo) := by rw [hst]; field_simp
    push_cast
    rw [hspan, hc.ex_lg _ (div_pos (by linarith [h.lt]) h0)]
    field_simp

theorem pt_mono {c : LogExp K} {I : Intv K} (h : Good c I) {i j : ℤ} (hij : i < j) : I.pt c i < I.pt c j := by
  have hs := h.step_pos
  have hij' : (i : K) < (j : K) := by exact_mod_cast hij
  have hm : (i : K) * I.step < (j : K) * I.step := mul_lt_mul_of_pos_right hij' hs
  unfold Intv.pt
  split_ifs with hl
  · linarith
  · obtain ⟨hc, h0, _⟩ := h.log (by simpa using hl)
    exact mul_lt_mul_of_pos_left (hc.ex_mono _ _ hm) h0

/-- `locate` returns grid points. -/
theorem locate_pt {c : LogExp K} {I : Intv K} (h : Good c I) {x : K} (h1 : I.lo ≤ x) (h2 : x < I.hi) :
    (I.locate c x).2.1 = I.pt c (I.locate c x).1 ∧ (I.locate c x).2.2 = I.pt c ((I.locate c x).1 + 1) := by
  have a2 := (locate_lt h h1 h2).2.1
  cases hl : I.isLin with
  | true =>
    have e : I.locate c x = (⌊(x - I.lo) / I.step⌋, I.lo + ⌊(x - I.lo) / I.step⌋ * I.step, I.lo + ⌊(x - I.lo) / I.step⌋ * I.step + I.step) := by
      unfold Intv.locate at a2 ⊢
      simp only [hl, if_true] at a2 ⊢
      split_ifs at a2 ⊢ with hc
      · dsimp only at a2; omega
      · rfl
    rw [e]
    unfold Intv.pt
    rw [hl]
    simp only [if_true]
    push_cast
    exact ⟨trivial, by ring⟩
  | false =>
    obtain ⟨hc, h0, hst, hfac⟩ := h.log hl
    have e : I.locate c x = (⌊c.lg (x / I.lo) / I.step⌋, I.lo * c.ex (⌊c.lg (x / I.lo) / I.step⌋ * I.step),
        I.lo * c.ex (⌊c.lg (x / I.lo) / I.step⌋ * I.step) * I.fac) := by
      unfold Intv.locate at a2 ⊢
      simp only [hl, Bool.false_eq_true, if_false] at a2 ⊢
      split_ifs at a2 ⊢ with hc
      · dsimp only at a2; omega
      · rfl
    rw [e]
    unfold Intv.pt
    rw [hl]
    simp only [Bool.false_eq_true, if_false]
    refine ⟨trivial, ?_⟩
    rw [hfac, mul_assoc, ← hc.ex_add]
    push_cast
    congr 2
    ring

theorem pts_mem {c : LogExp K} {I : Intv K} (h : Good c I) {x : K} (hx : x ∈ I.pts c) : I.lo ≤ x ∧ x < I.hi := by
  unfold Intv.pts at hx
  obtain ⟨i, hi, rfl⟩ := List.mem_map.mp hx
  have hi' : (i : ℤ) < I.n - 1 := by
    have := List.mem_range.mp hi
    omega
  refine ⟨?_, by rw [← pt_last h]; exact pt_mono h hi'⟩
  rcases Nat.eq_zero_or_pos i with rfl | hp
  · exact le_of_eq (pt_zero h).symm
  · rw [← pt_zero h]
    exact le_of_lt (pt_mono h (by exact_mod_cast hp))

theorem pts_sorted {c : LogExp K} {I : Intv K} (h : Good c I) : (I.pts c).Pairwise (· < ·) := by
  unfold Intv.pts
  rw [List.pairwise_map]
  exact List.Pairwise.imp (fun {a b} hab => pt_mono h (by exact_mod_cast hab)) List.pairwise_lt_range

theorem flat_mem {c : LogExp K} {a b : K} {l : List (Intv K)} (ht : Tiles a l b) (hg : ∀ I ∈ l, Good c I) {x : K} (hx : x ∈ l.flatMap (Intv.pts c)) :
    a ≤ x ∧ x < b := by
  obtain ⟨I, hI, hx⟩ := List.mem_flatMap.mp hx
  have h1 := tiles_mem ht hI
  have h2 := pts_mem (hg I hI) hx
  exact ⟨le_trans h1.1 h2.1, lt_of_lt_of_le h2.2 h1.2.2⟩

theorem flat_sorted {c : LogExp K} {a b : K} {l : List (Intv K)} (ht : Tiles a l b) (hg : ∀ I ∈ l, Good c I) :
    (l.flatMap (Intv.pts c)).Pairwise (· < ·) := by
  induction l generalizing a with
  | nil => simp
  | cons I l ih =>
    obtain ⟨t1, t2, t3⟩ := ht
    rw [List.flatMap_cons, List.pairwise_append]
    refine ⟨pts_sorted (hg I (by simp)), ih t3 (fun J hJ => hg J (by simp [hJ])), fun x hx y hy => ?_⟩
    have h1 := pts_mem (hg I (by simp)) hx
    have h2 := flat_mem t3 (fun J hJ => hg J (by simp [hJ])) hy
    linarith

/-! ### Locating -/

theorem locateLoop_spec {a b : K} {l : List (Intv K)} (ht : Tiles a l b) {A C : List (Intv K)} {I : Intv K} (hl : l = A ++ I :: C) {x : K}
    (h1 : I.lo ≤ x) (h2 : x < I.hi) : ∀ fuel lo hi, lo ≤ A.length → A.length < hi → hi ≤ l.length → hi - lo ≤ fuel →
    locateLoop l x fuel lo hi = some (.ok I) := by
  have hord : ∀ i (hi : i < l.length), (i < A.length → ¬ (x < l[i].hi)) ∧ (A.length < i → x < l[i].lo) := by
    intro i hi
    subst hl
    obtain ⟨d, t1, t2, t3, t4⟩ := tiles_append.mp ht
    constructor
    · intro h
      rw [List.getElem_append_left h]
      have := (tiles_mem t1 (List.getElem_mem h)).2.2
      linarith
    · intro h
      rw [List.getElem_append_right (by omega)]
      obtain ⟨k, hk⟩ : ∃ k, i - A.length = k + 1 := ⟨i - A.length - 1, by omega⟩
      simp only [hk, List.getElem_cons_succ]
      have hk2 : k < C.length := by simp at hi; omega
      have := (tiles_mem t4 (List.getElem_mem hk2)).1
      linarith
  have hA : A.length < l.length := by rw [hl]; simp
  have hAI : l[A.length] = I := by simp [hl]
  intro fuel
  induction fuel with
  | zero => intro lo hi h3 h4 h5 h6; omega
  | succ fuel ih =>
    intro lo hi h3 h4 h5 h6
    unfold locateLoop
    have hm : (lo + hi) / 2 < l.length := by omega
    rw [List.getElem?_eq_getElem hm]
    dsimp only
    rcases lt_trichotomy ((lo + hi) / 2) A.length with hc | hc | hc
    · have := (hord _ hm).1 hc
      have hnlo : ¬ x < l[(lo + hi) / 2].lo := by
        have hlt := (tiles_mem ht (List.getElem_mem hm)).2.1
        intro hx; exact this (lt_trans hx hlt)
      rw [if_neg (fun h => this h.2), if_neg hnlo]
      exact ih _ _ (by omega) h4 h5 (by omega)
    · simp only [hc, hAI]
      rw [if_pos ⟨h1, h2⟩]
    · have := (hord _ hm).2 hc
      rw [if_neg (fun h => absurd this (not_lt.mpr h.1)), if_pos this]
      exact ih _ _ h3 hc (by omega) (by omega)

end
end Verif.Grid1
