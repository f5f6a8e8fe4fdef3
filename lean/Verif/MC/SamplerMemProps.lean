import Verif.MC.SamplerMemLemmas

/-!
# C215: the memory of the sampler of populations
-/

namespace Verif.MC.Mem

/-! ## Lemmas: any calls -/

theorem op_inv {L : Finset ℕ} {s : St} (h : Inv L s) (o : Op) : s.op o ≠ .error .freed ∧ ∀ s' x, s.op o = .ok (s', x) → ∃ L', Inv L' s' := by
  cases o with
  | prepwts ws =>
    by_cases hw : ws = []
    · simp [St.op, St.prepwts, hw]
    · obtain ⟨s', p', e, hi, -⟩ := prepwts_inv h ws hw
      simp only [St.op, e]
      refine ⟨by simp, fun s'' x hx => ?_⟩
      cases hx
      exact ⟨_, hi⟩
  | prepratios n ws tot =>
    by_cases hn : n < ws.length
    · rcases hp : s.smp with _ | p
      · simp [St.op, St.prepratios, not_le.mpr hn, hp]
      · have hu : p.block ∈ s.heap.live := h.smpMem hp (by simp [Smp.blocks])
        obtain ⟨h', p', L', e, hi, hL, h1, h2, h3, h4, h5⟩ := makeRoom_inv h p hp n (s.lost + 1)
        simp only [St.op, St.prepratios, ge_iff_le, not_le.mpr hn, if_false, hp, use_ok _ _ hu, bind, Except.bind, e]
        rcases hr : p'.ratios with _ | ⟨a, b⟩
        · simp
        · have ha : a ∈ h'.live := hi.smpMem rfl (by simp [Smp.blocks, hr])
          have hb : b ∈ h'.live := hi.smpMem rfl (by simp [Smp.blocks, hr])
          simp only [use_ok _ _ ha, use_ok _ _ hb]
          split
          · simp
          · refine ⟨by simp, fun s'' x hx => ?_⟩
            cases hx
            have := hi.vals (s := { s with heap := h', lost := s.lost + 1 }) ((ratiosOf n ws tot).take p'.npopn)
            simp only [hr] at this ⊢
            exact ⟨L', this⟩
    · simp only [St.op, St.prepratios, ge_iff_le, not_lt.mp hn, if_true]
      refine ⟨by simp, fun s'' x hx => ?_⟩
      cases hx
      exact ⟨_, h⟩
  | prepratiotables =>
    rcases hp : s.smp with _ | p
    · simp [St.op, St.prepratiotables, hp]
    · have hu : p.block ∈ s.heap.live := h.smpMem hp (by simp [Smp.blocks])
      rcases hr : p.ratios with _ | ab
      · simp [St.op, St.prepratiotables, hp, use_ok _ _ hu, hr, bind, Except.bind]
      · obtain ⟨s', o, L', e, hi, -⟩ := prepratiotables_inv h p hp (by simp [hr])
        simp only [St.op, e]
        refine ⟨by simp, fun s'' x hx => ?_⟩
        cases hx
        exact ⟨_, hi⟩
  | samplenr =>
    rcases hp : s.smp with _ | p
    · simp [St.op, St.samplenr, hp]
    · by_cases hr : p.ratios.isSome ∨ p.nsamp < 0
      · simp only [St.op, samplenr_inv h p hp hr]
        refine ⟨by simp, fun s'' x hx => ?_⟩
        cases hx
        exact ⟨_, h⟩
      · have h1 : p.block ∈ s.heap.live := h.smpMem hp (by simp [Smp.blocks])
        have h2 : p.cumwts ∈ s.heap.live := h.smpMem hp (by simp [Smp.blocks])
        simp only [not_or, Bool.not_eq_true, Option.isSome_eq_false_iff, Option.isNone_iff_eq_none] at hr
        simp [St.op, St.samplenr, hp, use_ok _ _ h1, use_ok _ _ h2, hr.1, hr.2, bind, Except.bind]
  | samplenr5 =>
    rcases hp : s.smp with _ | p
    · simp [St.op, St.samplenr5, hp]
    · have h1 : p.block ∈ s.heap.live := h.smpMem hp (by simp [Smp.blocks])
      have h2 : p.indices ∈ s.heap.live := h.smpMem hp (by simp [Smp.blocks])
      have hd := draw_not_freed s.heap s.rat fun t' ht' b hb => h.ratMem ht' hb
      simp only [St.op, St.samplenr5, hp, use_ok _ _ h1, bind, Except.bind, h.drawTab]
      split
      · refine ⟨by simp, fun s'' x hx => ?_⟩
        cases hx
        exact ⟨_, h⟩
      · split
        · rcases hdr : draw s.heap s.rat with e | _
          · rw [hdr] at hd
            refine ⟨by simpa using hd, by simp⟩
          · simp only [use_ok _ _ h2]
            rcases hr : s.rat with _ | t
            · simp
            · simp only []
              split
              · simp
              · refine ⟨by simp, fun s'' x hx => ?_⟩
                cases hx
                exact ⟨_, h⟩
        · refine ⟨by simp, fun s'' x hx => ?_⟩
          cases hx
          exact ⟨_, h⟩
  | sample n =>
    simp only [St.op, St.sample, h.drawTab, bind, Except.bind]
    split <;>
    · refine ⟨by simp, fun s'' x hx => ?_⟩
      cases hx
      exact ⟨_, h⟩

/-- **C215, nothing is freed or used after it was freed.**  A sampler made from weights that give tables or one certain event, whatever methods are called on it in whatever order and with whatever arguments, never uses or frees a block that was
freed before, up to the first other fault; and if there was none it can be deleted. -/
theorem C215_no_double_free (ws : List ℚ) (hk : kindOf ws ≠ .bare) (s : St) (hs : St.construct ws = .ok s) (ops : List Op) :
    s.run ops ≠ .error .freed ∧ ∀ s', s.run ops = .ok s' → ∃ s'', s'.destroy = .ok s'' := by
  have hi := (construct_inv ws s hs hk).1
  clear hs
  generalize (∅ : Finset ℕ) = L at hi
  induction ops generalizing s L with
  | nil =>
    simp only [St.run]
    refine ⟨by simp, fun s' hs' => ?_⟩
    cases hs'
    obtain ⟨s'', e, -⟩ := destroy_inv hi
    exact ⟨s'', e⟩
  | cons o ops ih =>
    obtain ⟨h1, h2⟩ := op_inv hi o
    simp only [St.run, bind, Except.bind]
    rcases ho : s.op o with e | ⟨s', x⟩
    · rw [ho] at h1
      exact ⟨by simpa using h1, by simp⟩
    · obtain ⟨L', hi'⟩ := h2 s' x ho
      exact ih s' L' hi'

/-- Weights that are not negative, with a positive sum, and at most `2 ^ 30` of them. -/
structure Weights (ws : List ℚ) : Prop where
  nonneg : ∀ w ∈ ws, 0 ≤ w
  pos : 0 < ws.sum
  len : ws.length ≤ 2 ^ 30

/-- The hypothesis on the weights is met by all that are not negative and not all zero. -/
theorem C215_weights (ws : List ℚ) (h : Weights ws) : kindOf ws ≠ .bare ∧ ∃ s, St.construct ws = .ok s := by
  have := kindOf_good ws h.nonneg h.pos h.len
  refine ⟨?_, construct_ok ws this⟩
  rcases this with h | h <;> simp [h]

/-! ## Lemmas: populations -/

/-- The sample size is less than the largest for which the ratios are finite. -/
def Fits (ws : List ℚ) (n : ℤ) : Prop := (n : ℚ) * (maxWt ws / ws.sum) < 1

theorem le_maxWt (ws : List ℚ) : ∀ w ∈ ws, w ≤ maxWt ws := by
  induction ws with
  | nil => simp
  | cons a ws ih =>
    intro w hw
    simp only [maxWt, List.foldr_cons]
    rcases List.mem_cons.mp hw with rfl | hw
    · exact le_max_left _ _
    · exact (ih w hw).trans (le_max_right _ _)

theorem ratios_good (ws : List ℚ) (h : Weights ws) (n : ℤ) (hn : Fits ws n) : kindOf (ratiosOf n ws ws.sum) = .tables ∨ kindOf (ratiosOf n ws ws.sum) = .prob1 := by
  have hd : ∀ w ∈ ws, 0 < 1 - n * (w / ws.sum) := by
    intro w hw
    have h0 : 0 ≤ w / ws.sum := div_nonneg (h.nonneg w hw) h.pos.le
    have h1 : w / ws.sum ≤ maxWt ws / ws.sum := div_le_div_of_nonneg_right (le_maxWt ws w hw) h.pos.le
    unfold Fits at hn
    by_cases hc : (0 : ℚ) ≤ n
    · nlinarith [mul_le_mul_of_nonneg_left h1 hc]
    · nlinarith [mul_nonneg (le_of_lt (neg_pos.mpr (not_le.mp hc))) h0]
  have hr : ∀ w ∈ ws, 0 ≤ (w / ws.sum) / (1 - n * (w / ws.sum)) := fun w hw => div_nonneg (div_nonneg (h.nonneg w hw) h.pos.le) (hd w hw).le
  have hr' : ∀ r ∈ ratiosOf n ws ws.sum, 0 ≤ r := by
    intro r hr0
    simp only [ratiosOf, List.mem_map] at hr0
    obtain ⟨w, hw, rfl⟩ := hr0
    exact hr w hw
  apply kindOf_good _ hr'
  · have : ∃ w ∈ ws, 0 < w := by
      by_contra hc
      push Not at hc
      have : ∀ l : List ℚ, (∀ w ∈ l, w ≤ 0) → l.sum ≤ 0 := by
        intro l hl
        induction l with
        | nil => simp
        | cons a l ih =>
          rw [List.sum_cons]
          have h1 := hl a List.mem_cons_self
          have h2 := ih fun w hw => hl w (List.mem_cons_of_mem _ hw)
          linarith
      linarith [h.pos, this ws hc]
    obtain ⟨w, hw, hp⟩ := this
    refine lt_of_lt_of_le (div_pos (div_pos hp h.pos) (hd w hw)) (List.single_le_sum hr' _ ?_)
    simp only [ratiosOf, List.mem_map]
    exact ⟨w, hw, rfl⟩
  · simpa [ratiosOf] using h.len

theorem Weights.ne_nil {ws : List ℚ} (h : Weights ws) : ws ≠ [] := by
  rintro rfl
  have := h.pos
  simp at this

/-- A sampler of a population whose weights were prepared. -/
structure Prepared (ws : List ℚ) (n : ℤ) (q : Smp) : Prop where
  npopn : q.npopn = ws.length
  nsamp : q.nsamp = n
  zero : n = 0 → q.ratios = none
  vals : n ≠ 0 → q.ratios.isSome ∧ q.vals = ratiosOf n ws ws.sum ∧ Fits ws n

/-- A table of ratios that fits. -/
def GoodTab (ws : List ℚ) (t : Tab) : Prop := (t.kind = .tables ∨ t.kind = .prob1) ∧ t.n = ws.length

/-- A population as it can occur. -/
structure PInv (ws : List ℚ) (L : Finset ℕ) (p : Pop) : Prop where
  same : p.ws = ws
  none : p.sampler = none → p.sampfordInit = false ∧ p.tables = false ∧ p.nsamp = 0 ∧ L = ∅
  inv : ∀ s, p.sampler = some s → Inv L s
  unprep : ∀ s, p.sampler = some s → p.sampfordInit = false → s.smp = Option.none ∧ p.tables = false ∧ p.nsamp = 0
  prep : ∀ s, p.sampler = some s → p.sampfordInit = true → ∃ q, s.smp = some q ∧ Prepared ws p.nsamp q
  tables : ∀ s, p.sampler = some s → p.tables = true → ∃ t, s.rat = some t ∧ GoodTab ws t

theorem init_inv {ws : List ℚ} (hw : Weights ws) {L : Finset ℕ} {p : Pop} (h : PInv ws L p) :
    ∃ p' s, p.init = .ok (p', s) ∧ p'.sampler = some s ∧ PInv ws L p' ∧ p'.nsamp = p.nsamp := by
  rcases hs : p.sampler with _ | s
  · obtain ⟨h1, h2, h3, h4⟩ := h.none hs
    have hk := kindOf_good ws hw.nonneg hw.pos hw.len
    obtain ⟨s, e⟩ := construct_ok ws hk
    obtain ⟨hi, h5, h6, -⟩ := construct_inv ws s e (by rcases hk with h | h <;> simp [h])
    refine ⟨{ p with sampler := some s }, s, by simp [Pop.init, hs, h.same, e, bind, Except.bind, pure, Except.pure], rfl, ?_, rfl⟩
    refine ⟨h.same, by simp, ?_, ?_, ?_, ?_⟩
    · intro s' hs'; cases hs'; rw [h4]; exact hi
    · intro s' hs' _; cases hs'; exact ⟨h5, h2, h3⟩
    · intro s' hs' hc; simp only [h1] at hc; cases hc
    · intro s' hs' hc; simp only [h2] at hc; cases hc
  · exact ⟨p, s, by simp [Pop.init, hs], hs, h, rfl⟩

theorem initWts_inv {ws : List ℚ} (hw : Weights ws) {L : Finset ℕ} {p : Pop} (h : PInv ws L p) {s : St} (hs : p.sampler = some s) (f : Bool) :
    ∃ p' s' q, p.initWts s f = .ok (p', s') ∧ p'.sampler = some s' ∧ PInv ws L p' ∧ p'.nsamp = p.nsamp ∧ p'.sampfordInit = true ∧ s'.smp = some q ∧ Prepared ws p'.nsamp q := by
  rcases hb : p.sampfordInit with _ | _
  · obtain ⟨h1, h2, h3⟩ := h.unprep s hs hb
    obtain ⟨s', q, e, hi, a1, a2, a3, a4, a5, a6⟩ := prepwts_inv (h.inv s hs) ws hw.ne_nil
    simp only [h1, Finset.union_empty] at hi
    have hp : Prepared ws 0 q := ⟨a2, a3, fun _ => a4, by simp⟩
    refine ⟨{ p with sampler := some s', nsamp := 0, sampfordInit := true, tables := false }, s', q, by simp [Pop.initWts, hb, h.same, e, h2, bind, Except.bind, pure, Except.pure], rfl, ?_, h3.symm, rfl, a1, hp⟩
    refine ⟨h.same, by simp, ?_, by simp, ?_, by simp⟩
    · intro s'' hs''; cases hs''; exact hi
    · intro s'' hs'' _; cases hs''; exact ⟨q, a1, hp⟩
  · obtain ⟨q, hq, hp⟩ := h.prep s hs hb
    exact ⟨p, s, q, by simp [Pop.initWts, hb], hs, h, rfl, hb, hq, hp⟩

/-- New ratios for a population. -/
theorem ratios_inv {ws : List ℚ} {L : Finset ℕ} {p : Pop} (h : PInv ws L p) {s : St} (hs : p.sampler = some s) {q : Smp} (hq : s.smp = some q) (hp : Prepared ws p.nsamp q) (n : ℤ) (hne : p.nsamp ≠ n) (hn : n < ws.length)
    (hz : n ≠ 0) (hf : Fits ws n) :
    ∃ s' q', s.prepratios n ws ws.sum = .ok (s', .ok) ∧ Inv L s' ∧ s'.smp = some q' ∧ Prepared ws n q' ∧ s'.rat = s.rat := by
  obtain ⟨s', q', L', e, hi, hL, a1, a2, a3, a4, a5, a6, a7, a8⟩ := prepratios_inv (h.inv s hs) q hq n ws ws.sum hn hp.npopn.le (Or.inl (by rw [hp.nsamp]; exact hne))
  have : L' = L := by
    apply a8
    by_cases hc : p.nsamp = 0
    · exact Or.inr (Or.inl (hp.zero hc))
    · left; rwa [hp.nsamp]
  subst this
  refine ⟨s', q', e, hi, a1, ⟨a2.trans hp.npopn, a3, fun hc => absurd hc hz, fun _ => ⟨a4, ?_, hf⟩⟩, a7⟩
  rw [a5, List.take_of_length_le]
  simp [ratiosOf, hp.npopn]

theorem sample_inv {ws : List ℚ} (hw : Weights ws) {L : Finset ℕ} {p : Pop} (h : PInv ws L p) (n : ℤ) : ∃ p' o, p.sample n = .ok (p', o) ∧ PInv ws L p' ∧ p'.nsamp = p.nsamp := by
  obtain ⟨p1, s1, e1, hs1, h1, hn1⟩ := init_inv hw h
  have hd := (h1.inv s1 hs1).drawTab
  have hp : ({ p1 with sampler := some s1 } : Pop) = p1 := by rw [← hs1]
  simp only [Pop.sample, e1, bind, Except.bind, St.sample, hd]
  split
  · rename_i hc
    split at hc
    · cases hc
    · cases hc
  · rename_i v hc
    have : v.1 = s1 := by split at hc <;> cases hc <;> rfl
    exact ⟨p1, v.2, by rw [this, hp], h1, hn1⟩

theorem pps_inv {ws : List ℚ} (hw : Weights ws) {L : Finset ℕ} {p : Pop} (h : PInv ws L p) (n : ℤ) (hz : n ≠ 0) (hne : (n : ℚ) * (maxWt ws / ws.sum) ≠ 1) : ∃ p' o, p.subsetPps n = .ok (p', o) ∧ PInv ws L p' := by
  unfold Pop.subsetPps
  rw [h.same]
  split
  · exact ⟨_, _, rfl, h⟩
  · rename_i hl
    obtain ⟨p1, s1, e1, hs1, h1, hn1⟩ := init_inv hw h
    obtain ⟨p2, s2, q, e2, hs2, h2, hn2, hb2, hq, hp⟩ := initWts_inv hw h1 hs1 true
    simp only [e1, e2, bind, Except.bind, h2.same]
    split
    · rename_i hnn
      split
      · exact ⟨_, _, rfl, h2⟩
      · split
        · exact ⟨_, _, rfl, h2⟩
        · rename_i hlen hfit
          have hf : Fits ws n := lt_of_le_of_ne (not_lt.mp hfit) hne
          obtain ⟨s3, q3, e3, hi3, hq3, hp3, hr3⟩ := ratios_inv h2 hs2 hq hp n hnn (lt_of_le_of_ne (not_lt.mp hlen) hl) hz hf
          simp only [e3, samplenr_inv hi3 q3 hq3 (Or.inl (hp3.vals hz).1)]
          refine ⟨_, _, rfl, rfl, by simp, ?_, ?_, ?_, by simp⟩
          · intro s hs; cases hs; exact hi3
          · intro s hs hc; simp only [hb2] at hc; cases hc
          · intro s hs _; cases hs; exact ⟨q3, hq3, hp3⟩
    · rename_i hnn
      have hnn : p2.nsamp = n := not_not.mp hnn
      simp only [samplenr_inv (h2.inv s2 hs2) q hq (Or.inl (hp.vals (hnn ▸ hz)).1)]
      have : ({ p2 with ws := ws, sampler := some s2 } : Pop) = p2 := by rw [← hs2, ← h2.same]
      exact ⟨_, _, rfl, by simp only [this]; exact h2⟩

theorem finish5_inv {ws : List ℚ} (hw : Weights ws) {L : Finset ℕ} {p : Pop} (h : PInv ws L p) {s : St} (hs : p.sampler = some s) (hb : p.sampfordInit = true) {q : Smp} (hq : s.smp = some q) (hp : Prepared ws p.nsamp q) (hz : p.nsamp ≠ 0) :
    ∃ p' o L', p.finish5 s = .ok (p', o) ∧ PInv ws L' p' ∧ L.card ≤ L'.card ∧ p'.nsamp = p.nsamp := by
  unfold Pop.finish5
  rcases ht : p.tables with _ | _
  · obtain ⟨s', o, L', e, hi, hL, a1, a2, a3⟩ := prepratiotables_inv (h.inv s hs) q hq (hp.vals hz).1
    obtain ⟨v1, v2, v3⟩ := hp.vals hz
    have hk := ratios_good ws hw p.nsamp v3
    rw [← v2] at hk
    obtain ⟨ho, hc, t, b1, b2, b3⟩ := a3 (by rcases hk with hk | hk <;> simp [hk])
    have hlen : q.vals.length = ws.length := by rw [v2]; simp [ratiosOf]
    subst ho
    simp only [Bool.not_false, if_true, e, bind, Except.bind, samplenr5_inv hi q a1 t b1 (b2 ▸ hk) (by rw [b3, hp.npopn, hlen])]
    refine ⟨_, _, L', rfl, ⟨h.same, by simp, ?_, ?_, ?_, ?_⟩, hc.le, rfl⟩
    · intro s hs; cases hs; exact hi
    · intro s hs hc; simp only [hb] at hc; cases hc
    · intro s hs _; cases hs; exact ⟨q, a1, hp⟩
    · intro s hs _; cases hs; exact ⟨t, b1, b2 ▸ hk, b3.trans hlen⟩
  · obtain ⟨t, b1, b2, b3⟩ := h.tables s hs ht
    simp only [Bool.not_true, Bool.false_eq_true, if_false, bind, Except.bind, samplenr5_inv (h.inv s hs) q hq t b1 b2 (by rw [b3, hp.npopn])]
    have : ({ p with sampler := some s, tables := true } : Pop) = p := by rw [← hs, ← ht]
    exact ⟨_, _, L, rfl, by simp only [this]; exact h, le_refl _, rfl⟩

theorem pps5_inv {ws : List ℚ} (hw : Weights ws) {L : Finset ℕ} {p : Pop} (h : PInv ws L p) (n : ℤ) (hz : n ≠ 0) (hne : (n : ℚ) * (maxWt ws / ws.sum) ≠ 1) :
    ∃ p' o L', p.subsetPps5 n = .ok (p', o) ∧ PInv ws L' p' ∧ L.card ≤ L'.card ∧ (n < ws.length → Fits ws n → p'.nsamp = n ∧ (p.nsamp ≠ n → L.card < L'.card)) := by
  unfold Pop.subsetPps5
  rw [h.same]
  split
  · rename_i hl
    exact ⟨_, _, L, rfl, h, le_refl _, fun hc => by omega⟩
  · rename_i hl
    obtain ⟨p1, s1, e1, hs1, h1, hn1⟩ := init_inv hw h
    obtain ⟨p2, s2, q, e2, hs2, h2, hn2, hb2, hq, hp⟩ := initWts_inv hw h1 hs1 false
    simp only [e1, e2, bind, Except.bind, h2.same]
    split
    · rename_i hnn
      split
      · exact ⟨_, _, L, rfl, h2, le_refl _, fun hc => by omega⟩
      · split
        · rename_i hfit
          exact ⟨_, _, L, rfl, h2, le_refl _, fun _ hc => absurd hc (not_lt.mpr (le_of_lt hfit))⟩
        · rename_i hlen hfit
          have hf : Fits ws n := lt_of_le_of_ne (not_lt.mp hfit) hne
          obtain ⟨s3, q3, e3, hi3, hq3, hp3, hr3⟩ := ratios_inv h2 hs2 hq hp n hnn (lt_of_le_of_ne (not_lt.mp hlen) hl) hz hf
          obtain ⟨s', o, L', e, hi, hL, a1, a2, a3⟩ := prepratiotables_inv hi3 q3 hq3 (hp3.vals hz).1
          obtain ⟨v1, v2, v3⟩ := hp3.vals hz
          have hk := ratios_good ws hw n v3
          rw [← v2] at hk
          obtain ⟨ho, hc, t, b1, b2, b3⟩ := a3 (by rcases hk with hk | hk <;> simp [hk])
          have hlen : q3.vals.length = ws.length := by rw [v2]; simp [ratiosOf]
          subst ho
          simp only [e3, e]
          have hi4 : PInv ws L' { p2 with ws := ws, sampler := some s', tables := true, nsamp := n } := by
            refine ⟨rfl, by simp, ?_, ?_, ?_, ?_⟩
            · intro s hs; cases hs; exact hi
            · intro s hs hc; simp only [hb2] at hc; cases hc
            · intro s hs _; cases hs; exact ⟨q3, a1, hp3⟩
            · intro s hs _; cases hs; exact ⟨t, b1, b2 ▸ hk, b3.trans hlen⟩
          obtain ⟨p5, o5, L5, e5, hi5, hc5, hn5⟩ := finish5_inv hw hi4 rfl hb2 a1 hp3 hz
          exact ⟨p5, o5, L5, e5, hi5, hc.le.trans hc5, fun _ _ => ⟨hn5, fun _ => lt_of_lt_of_le hc hc5⟩⟩
    · rename_i hnn
      have hnn : p2.nsamp = n := not_not.mp hnn
      obtain ⟨p5, o5, L5, e5, hi5, hc5, hn5⟩ := finish5_inv hw h2 hs2 hb2 hq hp (hnn ▸ hz)
      exact ⟨p5, o5, L5, e5, hi5, hc5, fun _ _ => ⟨hn5.trans hnn, fun hc => absurd (hn1 ▸ hn2 ▸ hnn) hc⟩⟩

theorem delete_inv {ws : List ℚ} {L : Finset ℕ} {p : Pop} (h : PInv ws L p) : ∃ h', p.delete = .ok h' ∧ h'.live = L := by
  unfold Pop.delete
  rcases hs : p.sampler with _ | s
  · obtain ⟨_, _, _, h4⟩ := h.none hs
    exact ⟨_, rfl, h4.symm⟩
  · obtain ⟨s', e, _, hl⟩ := destroy_inv (h.inv s hs)
    simp only [e, bind, Except.bind, pure, Except.pure]
    refine ⟨_, rfl, hl ?_⟩
    intro q hq hz
    rcases hb : p.sampfordInit with _ | _
    · obtain ⟨h1, _⟩ := h.unprep s hs hb
      rw [h1] at hq; cases hq
    · obtain ⟨q', hq', hp⟩ := h.prep s hs hb
      rw [hq'] at hq; cases hq
      exact hp.zero (hp.nsamp ▸ hz)

/-- Calls for which the ratios are finite and that ask for something. -/
def Call.Fine (ws : List ℚ) (c : Call) : Prop := c.size ≠ 0 ∧ (c.size : ℚ) * (maxWt ws / ws.sum) ≠ 1

theorem new_inv (ws : List ℚ) : PInv ws ∅ { ws := ws } := ⟨rfl, by simp, by simp, by simp, by simp, by simp⟩

theorem call_inv {ws : List ℚ} (hw : Weights ws) {L : Finset ℕ} {p : Pop} (h : PInv ws L p) (c : Call) (hc : c.Fine ws) : ∃ p' o L', p.call c = .ok (p', o) ∧ PInv ws L' p' ∧ ((∀ n, c ≠ .pps5 n) → L' = L) := by
  cases c with
  | pps n =>
    obtain ⟨p', o, e, hi⟩ := pps_inv hw h n hc.1 hc.2
    exact ⟨p', o, L, e, hi, fun _ => rfl⟩
  | pps5 n =>
    obtain ⟨p', o, L', e, hi, -⟩ := pps5_inv hw h n hc.1 hc.2
    exact ⟨p', o, L', e, hi, fun hn => absurd rfl (hn n)⟩
  | sample n =>
    obtain ⟨p', o, e, hi, -⟩ := sample_inv hw h n
    exact ⟨p', o, L, e, hi, fun _ => rfl⟩

theorem run_inv {ws : List ℚ} (hw : Weights ws) (cs : List Call) {L : Finset ℕ} {p : Pop} (h : PInv ws L p) (hc : ∀ c ∈ cs, c.Fine ws) : ∃ p' L', p.run cs = .ok p' ∧ PInv ws L' p' ∧ ((∀ n, Call.pps5 n ∉ cs) → L' = L) := by
  induction cs generalizing p L with
  | nil => exact ⟨p, L, rfl, h, fun _ => rfl⟩
  | cons c cs ih =>
    obtain ⟨p1, o, L1, e, h1, hL1⟩ := call_inv hw h c (hc c List.mem_cons_self)
    obtain ⟨p2, L2, e2, h2, hL2⟩ := ih h1 fun c hc' => hc c (List.mem_cons_of_mem _ hc')
    refine ⟨p2, L2, by simp [Pop.run, e, bind, Except.bind, e2], h2, fun hn => ?_⟩
    rw [hL2 fun n hc' => hn n (List.mem_cons_of_mem _ hc'), hL1 fun n hc' => hn n (hc' ▸ List.mem_cons_self)]

/-! ## Theorems about populations -/

/-- **C215, populations are safe** (partial).  For weights that are not negative and not all zero, any history of calls for samples and subsets of sizes other than zero leads to no fault, and then the population can be deleted without one.
Missing: subsets of size zero (`C215_violated_zero`), and those for which the largest weight makes a ratio infinite. -/
theorem C215_population_partial (ws : List ℚ) (hw : Weights ws) (cs : List Call) (hc : ∀ c ∈ cs, c.Fine ws) :
    ∃ p h, Pop.run { ws := ws } cs = .ok p ∧ p.delete = .ok h := by
  obtain ⟨p, L, e, hi, -⟩ := run_inv hw cs (new_inv ws) hc
  obtain ⟨h, e', -⟩ := delete_inv hi
  exact ⟨p, h, e, e'⟩

/-- **C215, what is given back** (partial).  If the accelerated subsets were not used, deleting the population frees every block that was ever allocated for it.
Missing: accelerated subsets (`C215_violated_leak`). -/
theorem C215_noleak_partial (ws : List ℚ) (hw : Weights ws) (cs : List Call) (hc : ∀ c ∈ cs, c.Fine ws) (hn : ∀ n, Call.pps5 n ∉ cs) :
    ∃ p h, Pop.run { ws := ws } cs = .ok p ∧ p.delete = .ok h ∧ h.live = ∅ := by
  obtain ⟨p, L, e, hi, hL⟩ := run_inv hw cs (new_inv ws) hc
  obtain ⟨h, e', hl⟩ := delete_inv hi
  exact ⟨p, h, e, e', hl.trans (hL hn)⟩

/-- `k` times: an accelerated subset of one, and one of two. -/
def alternate : ℕ → List Call
  | 0 => []
  | k + 1 => .pps5 1 :: .pps5 2 :: alternate k

/-- **C215 is violated: leak.**  Accelerated subsets of alternating sizes leave more and more blocks behind: after `2 k` calls at least `2 k` of them are never freed, not even when the population is deleted. -/
theorem C215_violated_leak (ws : List ℚ) (hw : Weights ws) (hl : 2 < ws.length) (h1 : Fits ws 1) (h2 : Fits ws 2) (k : ℕ) :
    ∃ p h, Pop.run { ws := ws } (alternate k) = .ok p ∧ p.delete = .ok h ∧ 2 * k ≤ h.live.card := by
  have key : ∀ (k : ℕ) (L : Finset ℕ) (p : Pop), PInv ws L p → p.nsamp ≠ 1 → ∃ p' L', p.run (alternate k) = .ok p' ∧ PInv ws L' p' ∧ L.card + 2 * k ≤ L'.card := by
    intro k
    induction k with
    | zero => intro L p h _; exact ⟨p, L, rfl, h, by simp⟩
    | succ k ih =>
      intro L p h hn
      obtain ⟨p1, o1, L1, e1, i1, c1, d1⟩ := pps5_inv hw h 1 (by decide) (ne_of_lt h1)
      obtain ⟨n1, d1⟩ := d1 (by omega) h1
      obtain ⟨p2, o2, L2, e2, i2, c2, d2⟩ := pps5_inv hw i1 2 (by decide) (ne_of_lt h2)
      obtain ⟨n2, d2⟩ := d2 (by omega) h2
      obtain ⟨p3, L3, e3, i3, c3⟩ := ih L2 p2 i2 (by rw [n2]; decide)
      refine ⟨p3, L3, by simp [alternate, Pop.run, Pop.call, e1, e2, e3, bind, Except.bind], i3, ?_⟩
      have := d1 hn
      have := d2 (by rw [n1]; decide)
      omega
  obtain ⟨p, L, e, hi, hc⟩ := key k ∅ _ (new_inv ws) (by simp)
  obtain ⟨h, e', hl⟩ := delete_inv hi
  exact ⟨p, h, e, e', by rw [hl]; simpa using hc⟩

/-- **C215 is violated: empty subsets.**  Asking a new population for a subset of size zero, plain or accelerated, reads through a null pointer. -/
theorem C215_violated_zero (ws : List ℚ) (hw : Weights ws) : Pop.run { ws := ws } [.pps 0] = .error .null ∧ Pop.run { ws := ws } [.pps5 0] = .error .null := by
  have hne : ¬ ((0 : ℤ) = ws.length) := by
    have := List.length_pos_iff.mpr hw.ne_nil
    omega
  constructor
  · obtain ⟨p1, s1, e1, hs1, h1, hn1⟩ := init_inv hw (new_inv ws)
    obtain ⟨p2, s2, q, e2, hs2, h2, hn2, hb2, hq, hp⟩ := initWts_inv hw h1 hs1 true
    have hz : p2.nsamp = 0 := by rw [hn2, hn1]
    have u1 := use_ok _ _ ((h2.inv s2 hs2).smpMem hq (b := q.block) (by simp [Smp.blocks]))
    have u2 := use_ok _ _ ((h2.inv s2 hs2).smpMem hq (b := q.cumwts) (by simp [Smp.blocks]))
    have hns : q.nsamp = 0 := hp.nsamp.trans hz
    simp [Pop.run, Pop.call, Pop.subsetPps, hne, e1, e2, bind, Except.bind, hz, St.samplenr, hq, u1, u2, hns, hp.zero hz]
  · obtain ⟨p1, s1, e1, hs1, h1, hn1⟩ := init_inv hw (new_inv ws)
    obtain ⟨p2, s2, q, e2, hs2, h2, hn2, hb2, hq, hp⟩ := initWts_inv hw h1 hs1 false
    have hz : p2.nsamp = 0 := by rw [hn2, hn1]
    have u1 := use_ok _ _ ((h2.inv s2 hs2).smpMem hq (b := q.block) (by simp [Smp.blocks]))
    have ht : p2.tables = false := by
      by_contra hc
      obtain ⟨t, ht, -⟩ := h2.tables s2 hs2 (by simpa using hc)
      have hk := kindOf_good ws hw.nonneg hw.pos hw.len
      obtain ⟨s0, e0⟩ := construct_ok ws hk
      obtain ⟨hi, h5, h6, -⟩ := construct_inv ws s0 e0 (by rcases hk with h | h <;> simp [h])
      simp only [Pop.init, e0, bind, Except.bind, pure, Except.pure, Except.ok.injEq, Prod.mk.injEq] at e1
      obtain ⟨rfl, rfl⟩ := e1
      simp only [Pop.initWts, St.prepwts, hw.ne_nil, if_false, Bool.false_eq_true, bind, Except.bind, pure, Except.pure, Except.ok.injEq, Prod.mk.injEq] at e2
      obtain ⟨rfl, rfl⟩ := e2
      simp at hc
    simp [Pop.run, Pop.call, Pop.subsetPps5, hne, e1, e2, bind, Except.bind, hz, Pop.finish5, ht, St.prepratiotables, hq, u1, hp.zero hz]

/-- **C215 is violated: weights without a positive sum.**  Making a sampler from them gives the same object back twice. -/
theorem C215_violated_weights (ws : List ℚ) (h : ws.sum ≤ 0) (n : ℤ) : St.construct ws = .error .freed ∧ Pop.run { ws := ws } [.sample n] = .error .freed := by
  have : St.construct ws = .error .freed := by simp [St.construct, initTab, kindOf, h]
  exact ⟨this, by simp [Pop.run, Pop.call, Pop.sample, Pop.init, this, bind, Except.bind]⟩

/-- **C215 is violated: order of calls.**  On a new sampler, subsets and ratios before the weights were prepared read through a null pointer, as do subsets before there are ratios; fewer weights for the ratios than were prepared are read beyond their end. -/
theorem C215_violated_order (ws : List ℚ) (hw : Weights ws) (hl : 2 ≤ ws.length) (s : St) (hs : St.construct ws = .ok s) :
    s.run [.samplenr] = .error .null ∧ s.run [.samplenr5] = .error .null ∧ s.run [.prepratiotables] = .error .null ∧ s.run [.prepratios 1 ws ws.sum] = .error .null ∧
    s.run [.prepwts ws, .samplenr] = .error .null ∧ s.run [.prepwts ws, .prepratios (-1) [1] ws.sum] = .error .bounds := by
  have hk := (C215_weights ws hw).1
  obtain ⟨hi, h5, h6, -⟩ := construct_inv ws s hs hk
  obtain ⟨s', q, e, hi', a1, a2, a3, a4, a5, a6⟩ := prepwts_inv hi ws hw.ne_nil
  have u1 := use_ok _ _ (hi'.smpMem a1 (b := q.block) (by simp [Smp.blocks]))
  have u2 := use_ok _ _ (hi'.smpMem a1 (b := q.cumwts) (by simp [Smp.blocks]))
  have h1 : ¬ ((1 : ℤ) ≥ ws.length) := by omega
  refine ⟨by simp [St.run, St.op, St.samplenr, h5, bind, Except.bind], by simp [St.run, St.op, St.samplenr5, h5, bind, Except.bind], by simp [St.run, St.op, St.prepratiotables, h5, bind, Except.bind],
    ?_, ?_, ?_⟩
  · simp only [St.run, St.op, St.prepratios, h1, if_false, h5, bind, Except.bind]
  · simp [St.run, St.op, e, St.samplenr, a1, u1, u2, a3, a4, bind, Except.bind]
  · obtain ⟨h', p', L', e2, hi2, hL, b1, b2, b3, b4, b5⟩ := makeRoom_inv hi' q a1 (-1) (s'.lost + 1)
    obtain ⟨⟨a, b⟩, hab⟩ := Option.isSome_iff_exists.mp (b3 (by rw [a3]; decide))
    have ha : a ∈ h'.live := hi2.smpMem rfl (by simp [Smp.blocks, hab])
    have hb : b ∈ h'.live := hi2.smpMem rfl (by simp [Smp.blocks, hab])
    have hlt : 1 < p'.npopn := by rw [b1, a2]; omega
    simp [St.run, St.op, e, St.prepratios, a1, u1, e2, hab, use_ok _ _ ha, use_ok _ _ hb, bind, Except.bind, hlt]

/-- **C215 is violated: references.**  Every successful preparation of weights or ratios loses a reference to an array: the counter of references never given back grows by one. -/
theorem C215_violated_reference (s s' : St) (o : Op) (ho : (∃ ws, o = .prepwts ws) ∨ ∃ n ws tot, o = .prepratios n ws tot) (h : s.op o = .ok (s', .ok)) : s'.lost = s.lost + 1 := by
  rcases ho with ⟨ws, rfl⟩ | ⟨n, ws, tot, rfl⟩
  · simp only [St.op, St.prepwts] at h
    split at h
    · cases h
    · cases h; rfl
  · simp only [St.op, St.prepratios] at h
    split at h
    · cases h
    · split at h
      · cases h
      · rename_i p hp
        simp only [bind, Except.bind] at h
        split at h
        · cases h
        · split at h
          · cases h
          · split at h
            · cases h
            · split at h
              · cases h
              · split at h
                · cases h
                · split at h
                  · cases h
                  · cases h; rfl

/-- Three equal weights and one larger meet the hypotheses. -/
example : Weights [1, 1, 1, 2] ∧ Fits [1, 1, 1, 2] 1 ∧ Fits [1, 1, 1, 2] 2 ∧ ∀ c ∈ alternate 2, c.Fine [1, 1, 1, 2] := by
  refine ⟨⟨?_, ?_, ?_⟩, ?_, ?_, ?_⟩
  · decide +kernel
  · decide +kernel
  · decide
  · norm_num [Fits, maxWt]
  · norm_num [Fits, maxWt]
  · intro c hc
    simp only [alternate, List.mem_cons, List.not_mem_nil, or_false] at hc
    rcases hc with rfl | rfl | rfl | rfl <;> norm_num [Call.Fine, Call.size, maxWt]

end Verif.MC.Mem
