import Verif.MC.SamplerMem
import Mathlib.Algebra.BigOperators.Group.List.Basic
import Mathlib.Algebra.Order.BigOperators.Group.List
import Mathlib.Data.Finset.Card
import Mathlib.Data.Finset.Lattice.Basic
import Mathlib.Tactic.Linarith
import Mathlib.Tactic.FieldSimp
import Mathlib.Tactic.Ring
import Mathlib.Tactic.Positivity

/-!
# The memory of the sampler of populations: lemmas
-/

namespace Verif.MC.Mem

/-! ## What becomes of weights -/

theorem sum_floor_zero (ws : List ℚ) (s : ℚ) (hs : 0 < s) (hz : ∀ w ∈ ws, ⌊w / s * 2 ^ 30⌋ = 0) : ws.sum * 2 ^ 30 ≤ ws.length * s ∧ (ws ≠ [] → ws.sum * 2 ^ 30 < ws.length * s) := by
  induction ws with
  | nil => simp
  | cons w ws ih =>
    have h1 := (ih fun w hw => hz w (List.mem_cons_of_mem _ hw)).1
    have h2 := Int.lt_floor_add_one (w / s * 2 ^ 30)
    rw [hz w List.mem_cons_self] at h2
    have h3 : w * 2 ^ 30 < s := by
      have : w / s * 2 ^ 30 = w * 2 ^ 30 / s := by ring
      rw [this, Int.cast_zero, zero_add, div_lt_one hs] at h2
      exact h2
    simp only [List.sum_cons, List.length_cons, Nat.cast_add, Nat.cast_one]
    refine ⟨by nlinarith, fun _ => by nlinarith⟩

/-- Weights that are not negative, not all zero and not more than `2 ^ 30` give tables or a single event. -/
theorem kindOf_good (ws : List ℚ) (h0 : ∀ w ∈ ws, 0 ≤ w) (hs : 0 < ws.sum) (hn : ws.length ≤ 2 ^ 30) : kindOf ws = .tables ∨ kindOf ws = .prob1 := by
  unfold kindOf
  simp only [not_le.mpr hs, if_false]
  split
  · exact Or.inl rfl
  · rename_i h
    right
    rw [if_pos]
    by_contra h'
    simp only [List.any_map, List.any_eq_true, Function.comp, decide_eq_true_eq, not_exists, not_and, not_not] at h h'
    have hz : ∀ w ∈ ws, ⌊w / ws.sum * 2 ^ 30⌋ = 0 := by
      intro w hw
      have hle : w ≤ ws.sum := List.single_le_sum h0 w hw
      have a : 0 ≤ ⌊w / ws.sum * 2 ^ 30⌋ := Int.floor_nonneg.mpr (by have := h0 w hw; positivity)
      have b : ⌊w / ws.sum * 2 ^ 30⌋ ≤ 2 ^ 30 := by
        have h1 : w / ws.sum ≤ 1 := (div_le_one hs).mpr hle
        have h2 : w / ws.sum * 2 ^ 30 ≤ ((2 ^ 30 : ℤ) : ℚ) := by push_cast; nlinarith
        exact_mod_cast (Int.floor_le _).trans h2
      have c := h w hw
      have d := h' w hw
      generalize ⌊w / ws.sum * 2 ^ 30⌋ = m at *
      omega
    have hne : ws ≠ [] := by rintro rfl; simp at hs
    have := (sum_floor_zero ws ws.sum hs hz).2 hne
    have hn' : (ws.length : ℚ) ≤ 2 ^ 30 := by exact_mod_cast hn
    nlinarith

/-! ## Blocks -/

/-- The blocks a table consists of. -/
def Tab.blocks (t : Tab) : List ℕ := t.block :: t.tabs

/-- The blocks of the weights and ratios. -/
def Smp.blocks (p : Smp) : List ℕ := [p.block, p.cumwts, p.indices] ++ (match p.ratios with | some (a, b) => [a, b] | none => [])

theorem free_ok (h : Heap) (b : ℕ) (hb : b ∈ h.live) : h.free b = .ok { h with live := h.live.erase b } := by simp [Heap.free, hb]

theorem frees_ok (h : Heap) (bs : List ℕ) (hn : bs.Nodup) (hb : ∀ b ∈ bs, b ∈ h.live) : h.frees bs = .ok { h with live := h.live \ bs.toFinset } := by
  induction bs generalizing h with
  | nil => simp [Heap.frees]
  | cons b bs ih =>
    rw [List.nodup_cons] at hn
    rw [Heap.frees, free_ok h b (hb b List.mem_cons_self)]
    simp only [bind, Except.bind]
    rw [ih _ hn.2]
    · simp only [List.toFinset_cons]
      congr 2
      ext x; simp only [Finset.mem_sdiff, Finset.mem_erase, Finset.mem_insert]; tauto
    · intro x hx
      simp only [Finset.mem_erase]
      exact ⟨by rintro rfl; exact hn.1 hx, hb x (List.mem_cons_of_mem _ hx)⟩

theorem use_ok (h : Heap) (b : ℕ) (hb : b ∈ h.live) : h.use b = .ok () := by simp [Heap.use, hb]

/-- Blocks in use have been handed out. -/
def Heap.Ok (h : Heap) : Prop := ∀ b ∈ h.live, b < h.next

theorem alloc_ok {h : Heap} (hh : h.Ok) : h.alloc.1.Ok := by
  intro b hb
  simp only [Heap.alloc, Finset.mem_insert] at hb ⊢
  rcases hb with rfl | hb
  · omega
  · have := hh b hb; omega

theorem initTab_spec (h : Heap) (ws : List ℚ) (hh : h.Ok) :
    (kindOf ws = .fail ∧ initTab h ws = (h, none)) ∨
    ∃ h' t, kindOf ws ≠ .fail ∧ initTab h ws = (h', some t) ∧ h'.Ok ∧ t.kind = kindOf ws ∧ t.n = ws.length ∧ t.blocks.Nodup ∧ (t.kind ≠ .tables → t.tabs = []) ∧ (∀ b ∈ t.blocks, h.next ≤ b) ∧
      h'.live = h.live ∪ t.blocks.toFinset := by
  have a1 := alloc_ok hh
  unfold initTab
  rcases hk : kindOf ws with _ | _ | _ | _
  · exact Or.inl ⟨rfl, rfl⟩
  · right
    refine ⟨_, _, by simp, rfl, alloc_ok (alloc_ok (alloc_ok (alloc_ok (alloc_ok a1)))), rfl, rfl, ?_, by simp, ?_, ?_⟩
    · simp [Tab.blocks, Heap.alloc]; omega
    · simp only [Tab.blocks, Heap.alloc, List.mem_cons, List.not_mem_nil, or_false]
      rintro b (rfl | rfl | rfl | rfl | rfl | rfl) <;> omega
    · ext x
      simp only [Tab.blocks, Heap.alloc, Finset.mem_insert, Finset.mem_union, List.mem_toFinset, List.mem_cons, List.not_mem_nil, or_false]
      tauto
  all_goals
    right
    refine ⟨_, _, by simp, rfl, a1, rfl, rfl, by simp [Tab.blocks], by simp, by simp [Tab.blocks, Heap.alloc], ?_⟩
    ext x
    simp only [Tab.blocks, Heap.alloc, Finset.mem_insert, Finset.mem_union, List.mem_toFinset, List.mem_cons, List.not_mem_nil, or_false]
    tauto

/-- The blocks a sampler will give back. -/
def St.owned (s : St) : List ℕ := (match s.tab with | some t => t.blocks | none => []) ++ (match s.smp with | some p => p.blocks | none => [])

/-- A sampler as it can occur; `L` are the blocks that nothing will free. -/
structure Inv (L : Finset ℕ) (s : St) : Prop where
  heap : s.heap.Ok
  tab : ∃ t, s.tab = some t ∧ (t.kind = .tables ∨ t.kind = .prob1) ∧ (t.kind ≠ .tables → t.tabs = [])
  smp : ∀ p, s.smp = some p → p.npopn ≠ 0 ∧ (p.nsamp ≠ 0 → p.ratios.isSome)
  rat : ∀ t, s.rat = some t → (∀ b ∈ t.blocks, b ∈ L) ∧ (t.kind ≠ .tables → t.tabs = [])
  nodup : s.owned.Nodup
  disj : ∀ b ∈ s.owned, b ∉ L
  live : s.heap.live = s.owned.toFinset ∪ L

theorem Inv.mem {L : Finset ℕ} {s : St} (h : Inv L s) {b : ℕ} (hb : b ∈ s.owned) : b ∈ s.heap.live := by
  rw [h.live]; simp [hb]

theorem Inv.lt {L : Finset ℕ} {s : St} (h : Inv L s) {b : ℕ} (hb : b ∈ s.owned ∨ b ∈ L) : b < s.heap.next := by
  apply h.heap; rw [h.live]; simpa using hb

theorem Inv.smpMem {L : Finset ℕ} {s : St} (h : Inv L s) {p : Smp} (hp : s.smp = some p) {b : ℕ} (hb : b ∈ p.blocks) : b ∈ s.heap.live :=
  h.mem (by simp [St.owned, hp, hb])

/-- A sampler that was made. -/
theorem construct_inv (ws : List ℚ) (s : St) (h : St.construct ws = .ok s) (hk : kindOf ws ≠ .bare) : Inv ∅ s ∧ s.smp = none ∧ s.rat = none ∧ ∃ t, s.tab = some t ∧ t.n = ws.length := by
  have hh : ({} : Heap).Ok := by intro b hb; simp at hb
  unfold St.construct at h
  rcases initTab_spec {} ws hh with ⟨_, e⟩ | ⟨h', t, hf, e, h1, h2, h3, h4, h5, h6, h7⟩
  · rw [e] at h; cases h
  · rw [e] at h; cases h
    refine ⟨⟨h1, ⟨t, rfl, ?_, h5⟩, by simp, by simp, by simpa [St.owned] using h4, by simp, by simp [St.owned, h7]⟩, rfl, rfl, t, rfl, h3⟩
    rw [h2]
    rcases hk' : kindOf ws with _ | _ | _ | _ <;> simp_all

theorem construct_ok (ws : List ℚ) (hk : kindOf ws = .tables ∨ kindOf ws = .prob1) : ∃ s, St.construct ws = .ok s := by
  have hh : ({} : Heap).Ok := by intro b hb; simp at hb
  unfold St.construct
  rcases initTab_spec {} ws hh with ⟨e, _⟩ | ⟨h', t, hf, e, _⟩
  · rw [e] at hk; simp at hk
  · rw [e]; exact ⟨_, rfl⟩

/-- Weights are prepared: what was there is lost. -/
theorem prepwts_inv {L : Finset ℕ} {s : St} (h : Inv L s) (ws : List ℚ) (hw : ws ≠ []) :
    ∃ s' p', s.prepwts ws = .ok (s', .ok) ∧ Inv (L ∪ (match s.smp with | some p => p.blocks.toFinset | none => ∅)) s' ∧ s'.smp = some p' ∧ p'.npopn = ws.length ∧ p'.nsamp = 0 ∧ p'.ratios = none ∧
      s'.tab = s.tab ∧ s'.rat = s.rat := by
  obtain ⟨t, ht, hk, hk'⟩ := h.tab
  have hlt : ∀ b, b ∈ s.owned ∨ b ∈ L → b < s.heap.next := fun b hb => h.lt hb
  refine ⟨{ s with heap := s.heap.alloc.1.alloc.1.alloc.1, smp := some ⟨s.heap.alloc.2, ws.length, s.heap.alloc.1.alloc.2, s.heap.alloc.1.alloc.1.alloc.2, 0, none, []⟩, lost := s.lost + 1 },
    ⟨s.heap.alloc.2, ws.length, s.heap.alloc.1.alloc.2, s.heap.alloc.1.alloc.1.alloc.2, 0, none, []⟩, by simp only [St.prepwts, hw, if_false], ?_, rfl, rfl, rfl, rfl, rfl, rfl⟩
  have hn := h.nodup
  have hd := h.disj
  have hl := h.live
  simp only [St.owned, ht] at hn hd hlt hl
  refine ⟨alloc_ok (alloc_ok (alloc_ok h.heap)), ⟨t, ht, hk, hk'⟩, ?_, ?_, ?_, ?_, ?_⟩
  · intro p hp
    cases hp
    simp [hw]
  · intro t' ht'
    exact ⟨fun b hb => Finset.mem_union_left _ ((h.rat t' ht').1 b hb), (h.rat t' ht').2⟩
  · simp only [St.owned, ht, Smp.blocks, List.append_nil, Heap.alloc]
    rw [List.nodup_append] at hn ⊢
    refine ⟨hn.1, by simp <;> omega, ?_⟩
    rintro a ha b hb rfl
    have := hlt a (Or.inl (List.mem_append_left _ ha))
    simp only [List.mem_cons, List.not_mem_nil, or_false] at hb
    omega
  · intro b hb hb'
    simp only [St.owned, ht, Smp.blocks, List.append_nil, Heap.alloc] at hb
    rw [List.mem_append] at hb
    have hb'' : b ∈ L ∨ b ∈ (match s.smp with | some p => p.blocks | none => []) := by
      rcases hs : s.smp with _ | p <;> simp only [hs, Finset.mem_union, List.mem_toFinset] at hb' ⊢ <;> simpa using hb'
    rcases hb with hb | hb
    · rcases hb'' with c | c
      · exact hd b (List.mem_append_left _ hb) c
      · exact (List.nodup_append.mp hn).2.2 b hb b c rfl
    · have := hlt b (hb''.elim Or.inr fun c => Or.inl (List.mem_append_right _ c))
      simp only [List.mem_cons, List.not_mem_nil, or_false] at hb
      omega
  · simp only [St.owned, ht, Smp.blocks, List.append_nil, Heap.alloc, hl]
    ext x
    rcases hs : s.smp with _ | p <;> simp only [Finset.mem_insert, Finset.mem_union, List.mem_toFinset, List.mem_append, List.mem_cons, List.not_mem_nil, or_false, Finset.notMem_empty, List.toFinset_append] <;> tauto

/-- The state with other weights and ratios. -/
theorem Inv.tabBlocks {L : Finset ℕ} {s : St} (h : Inv L s) {t : Tab} (ht : s.tab = some t) {b : ℕ} (hb : b ∈ t.blocks) : b ∈ s.heap.live :=
  h.mem (by simp [St.owned, ht, hb])

/-- The weights and ratios are replaced. -/
theorem Inv.setSmp {L L' : Finset ℕ} {s : St} (h : Inv L s) {t : Tab} (ht : s.tab = some t) (h' : Heap) (p' : Smp) (lost : ℕ) (hok : h'.Ok) (h0 : p'.npopn ≠ 0 ∧ (p'.nsamp ≠ 0 → p'.ratios.isSome)) (hL : L ⊆ L')
    (nd : p'.blocks.Nodup) (d1 : ∀ b ∈ p'.blocks, b ∉ t.blocks ∧ b ∉ L') (d2 : ∀ b ∈ t.blocks, b ∉ L') (hl : ∀ x, x ∈ h'.live ↔ x ∈ t.blocks ∨ x ∈ p'.blocks ∨ x ∈ L') :
    Inv L' { s with heap := h', smp := some p', lost := lost } := by
  have ho : St.owned { s with heap := h', smp := some p', lost := lost } = t.blocks ++ p'.blocks := by simp [St.owned, ht]
  refine ⟨hok, h.tab, fun q hq => by cases hq; exact h0, fun t' ht' => ⟨fun x hx => hL ((h.rat t' ht').1 x hx), (h.rat t' ht').2⟩, ?_, ?_, ?_⟩
  · rw [ho, List.nodup_append]
    refine ⟨?_, nd, fun a ha b hb e => (d1 b hb).1 (e ▸ ha)⟩
    have := h.nodup
    simp only [St.owned, ht] at this
    exact (List.nodup_append.mp this).1
  · rw [ho]
    intro b hb
    rcases List.mem_append.mp hb with hb | hb
    · exact d2 b hb
    · exact (d1 b hb).2
  · rw [ho]
    ext x
    simp only [hl, Finset.mem_union, List.mem_toFinset, List.mem_append]
    tauto

/-- What is known of the blocks of a sampler. -/
theorem Inv.facts {L : Finset ℕ} {s : St} (h : Inv L s) {t : Tab} (ht : s.tab = some t) {p : Smp} (hp : s.smp = some p) :
    p.blocks.Nodup ∧ (∀ b ∈ p.blocks, b ∉ t.blocks ∧ b ∉ L) ∧ (∀ b ∈ t.blocks, b ∉ L) ∧ (∀ x, x ∈ s.heap.live ↔ x ∈ t.blocks ∨ x ∈ p.blocks ∨ x ∈ L) ∧ (∀ x, x ∈ t.blocks ∨ x ∈ p.blocks ∨ x ∈ L → x < s.heap.next) := by
  have ho : s.owned = t.blocks ++ p.blocks := by simp [St.owned, ht, hp]
  have hn := h.nodup
  rw [ho, List.nodup_append] at hn
  have hd := h.disj
  rw [ho] at hd
  have hl : ∀ x, x ∈ s.heap.live ↔ x ∈ t.blocks ∨ x ∈ p.blocks ∨ x ∈ L := by
    intro x
    rw [h.live, ho]
    simp only [Finset.mem_union, List.mem_toFinset, List.mem_append]
    tauto
  exact ⟨hn.2.1, fun b hb => ⟨fun hc => hn.2.2 b hc b hb rfl, hd b (List.mem_append_right _ hb)⟩, fun b hb => hd b (List.mem_append_left _ hb), hl, fun x hx => h.heap x ((hl x).mpr hx)⟩

/-- New ratios beside weights that are kept. -/
theorem newRatios {L L' : Finset ℕ} {s : St} (h : Inv L s) {t : Tab} (ht : s.tab = some t) {p : Smp} (hp : s.smp = some p) (H : Heap) (hH : H.next = s.heap.next) (n : ℤ) (lost : ℕ) (hL : L ⊆ L')
    (hx : ∀ x, x ∈ H.live ↔ x ∈ t.blocks ∨ x ∈ [p.block, p.cumwts, p.indices] ∨ x ∈ L') (hL' : ∀ x ∈ L', x ∈ L ∨ x ∈ p.blocks ∧ x ∉ [p.block, p.cumwts, p.indices]) :
    Inv L' { s with heap := H.alloc.1.alloc.1, smp := some { p with nsamp := n, ratios := some (H.alloc.2, H.alloc.1.alloc.2) }, lost := lost } := by
  obtain ⟨f1, f2, f3, f4, f5⟩ := h.facts ht hp
  have hsub : ∀ x, x ∈ [p.block, p.cumwts, p.indices] → x ∈ p.blocks := fun x hx => List.mem_append_left _ hx
  have hlt : ∀ x, x ∈ t.blocks ∨ x ∈ [p.block, p.cumwts, p.indices] ∨ x ∈ L' → x < s.heap.next := by
    rintro x (hx | hx | hx)
    · exact f5 x (Or.inl hx)
    · exact f5 x (Or.inr (Or.inl (hsub x hx)))
    · rcases hL' x hx with hx | hx
      · exact f5 x (Or.inr (Or.inr hx))
      · exact f5 x (Or.inr (Or.inl hx.1))
  have hok : H.Ok := fun x hx' => by rw [hH]; exact hlt x ((hx x).mp hx')
  have hb : Smp.blocks { p with nsamp := n, ratios := some (H.alloc.2, H.alloc.1.alloc.2) } = [p.block, p.cumwts, p.indices] ++ [s.heap.next, s.heap.next + 1] := by
    simp [Smp.blocks, Heap.alloc, hH]
  refine h.setSmp ht _ _ lost (alloc_ok (alloc_ok hok)) ⟨(h.smp p hp).1, fun _ => rfl⟩ hL ?_ ?_ ?_ ?_
  · rw [hb, List.nodup_append]
    refine ⟨(List.nodup_append.mp f1).1, by simp, ?_⟩
    rintro x hx y hy rfl
    have := hlt x (Or.inr (Or.inl hx))
    simp only [List.mem_cons, List.not_mem_nil, or_false] at hy
    omega
  · rw [hb]
    intro x hx
    rcases List.mem_append.mp hx with hx | hx
    · refine ⟨(f2 x (hsub x hx)).1, fun hc => ?_⟩
      rcases hL' x hc with hc | hc
      · exact (f2 x (hsub x hx)).2 hc
      · exact hc.2 hx
    · have : ¬ x < s.heap.next := by
        simp only [List.mem_cons, List.not_mem_nil, or_false] at hx
        omega
      exact ⟨fun hc => this (hlt x (Or.inl hc)), fun hc => this (hlt x (Or.inr (Or.inr hc)))⟩
  · intro x hx hc
    rcases hL' x hc with hc | hc
    · exact f3 x hx hc
    · exact (f2 x hc.1).1 hx
  · intro x
    rw [hb]
    have := hx x
    simp only [Heap.alloc, Finset.mem_insert, hH, List.mem_append, this]
    simp only [List.mem_cons, List.not_mem_nil, or_false]
    tauto

/-- Room for the ratios. -/
theorem makeRoom_inv {L : Finset ℕ} {s : St} (h : Inv L s) (p : Smp) (hp : s.smp = some p) (n : ℤ) (lost : ℕ) :
    ∃ h' p' L', makeRoom s.heap p n = .ok (h', p') ∧ Inv L' { s with heap := h', smp := some p', lost := lost } ∧ L ⊆ L' ∧ p'.npopn = p.npopn ∧ p'.nsamp = n ∧ (p.nsamp ≠ n → p'.ratios.isSome) ∧ (p.nsamp = n → p' = p) ∧
      (p.nsamp ≠ 0 ∨ p.ratios = none ∨ p.nsamp = n → L' = L) := by
  obtain ⟨t, ht, -⟩ := h.tab
  obtain ⟨h0, h1⟩ := h.smp p hp
  obtain ⟨f1, f2, f3, f4, f5⟩ := h.facts ht hp
  by_cases e : p.nsamp = n
  · exact ⟨s.heap, p, L, by simp [makeRoom, e, pure, Except.pure], h.setSmp ht _ _ _ h.heap ⟨h0, h1⟩ (Finset.Subset.refl _) f1 f2 f3 f4, Finset.Subset.refl _, rfl, e, fun h => absurd e h, fun _ => rfl, fun _ => rfl⟩
  · rcases hr : p.ratios with _ | ⟨a, b⟩
    · have hz : p.nsamp = 0 := by
        by_contra hz
        have := h1 hz
        simp [hr] at this
      have e' : ¬ (0 : ℤ) = n := hz ▸ e
      refine ⟨_, _, L, by simp only [makeRoom, e', hz, bind, Except.bind, pure, Except.pure, ne_eq, not_false_eq_true, if_true, not_true, if_false], newRatios h ht hp s.heap rfl n lost (Finset.Subset.refl _) ?_ fun x hx => Or.inl hx, Finset.Subset.refl _, rfl, rfl, fun _ => rfl, fun h => absurd h e, fun _ => rfl⟩
      intro x
      rw [f4 x]
      simp [Smp.blocks, hr]
    · have hb : p.blocks = [p.block, p.cumwts, p.indices] ++ [a, b] := by simp [Smp.blocks, hr]
      rw [hb, List.nodup_append] at f1
      by_cases hz : p.nsamp = 0
      · have e' : ¬ (0 : ℤ) = n := hz ▸ e
        refine ⟨_, _, L ∪ {a, b}, by simp only [makeRoom, e', hz, bind, Except.bind, pure, Except.pure, ne_eq, not_false_eq_true, if_true, not_true, if_false], newRatios h ht hp s.heap rfl n lost Finset.subset_union_left ?_ ?_, Finset.subset_union_left, rfl, rfl, fun _ => rfl, fun h => absurd h e, by simp [hz, e']⟩
        · intro x
          rw [f4 x, hb]
          simp only [List.mem_append, List.mem_cons, List.not_mem_nil, or_false, Finset.mem_union, Finset.mem_insert, Finset.mem_singleton]
          tauto
        · intro x hx
          simp only [Finset.mem_union, Finset.mem_insert, Finset.mem_singleton] at hx
          rcases hx with hx | hx
          · exact Or.inl hx
          · have hx' : x ∈ [a, b] := by simpa using hx
            exact Or.inr ⟨hb ▸ List.mem_append_right _ hx', fun hc => f1.2.2 x hc x hx' rfl⟩
      · have hfree : s.heap.frees [a, b] = .ok { s.heap with live := s.heap.live \ [a, b].toFinset } := by
          apply frees_ok _ _ f1.2.1
          intro x hx
          exact h.smpMem hp (hb ▸ List.mem_append_right _ hx)
        refine ⟨_, _, L, by simp only [makeRoom, ne_eq, e, not_false_eq_true, if_true, hz, hr, hfree, bind, Except.bind, pure, Except.pure], newRatios h ht hp { s.heap with live := s.heap.live \ [a, b].toFinset } rfl n lost (Finset.Subset.refl _) ?_ fun x hx => Or.inl hx, Finset.Subset.refl _, rfl, rfl, fun _ => rfl, fun h => absurd h e, fun _ => rfl⟩
        intro x
        simp only [Finset.mem_sdiff, f4 x, hb, List.mem_append, List.mem_toFinset]
        constructor
        · tauto
        · intro hx
          refine ⟨by tauto, fun hc => ?_⟩
          rcases hx with hx | hx | hx
          · exact (f2 x (hb ▸ List.mem_append_right _ hc)).1 hx
          · exact f1.2.2 x hx x hc rfl
          · exact (f2 x (hb ▸ List.mem_append_right _ hc)).2 hx

/-- Other values do not matter. -/
theorem Inv.vals {L : Finset ℕ} {s : St} {p : Smp} (h : Inv L { s with smp := some p }) (v : List ℚ) : Inv L { s with smp := some { p with vals := v } } :=
  ⟨h.heap, h.tab, fun q hq => by cases hq; exact h.smp p rfl, h.rat, h.nodup, h.disj, h.live⟩

theorem prepratios_inv {L : Finset ℕ} {s : St} (h : Inv L s) (p : Smp) (hp : s.smp = some p) (n : ℤ) (ws : List ℚ) (tot : ℚ) (hn : n < ws.length) (hl : p.npopn ≤ ws.length) (hr : p.nsamp ≠ n ∨ p.ratios.isSome) :
    ∃ s' p' L', s.prepratios n ws tot = .ok (s', .ok) ∧ Inv L' s' ∧ L ⊆ L' ∧ s'.smp = some p' ∧ p'.npopn = p.npopn ∧ p'.nsamp = n ∧ p'.ratios.isSome ∧ p'.vals = (ratiosOf n ws tot).take p.npopn ∧ s'.tab = s.tab ∧ s'.rat = s.rat ∧
      (p.nsamp ≠ 0 ∨ p.ratios = none ∨ p.nsamp = n → L' = L) := by
  obtain ⟨h', p', L', e, hi, hL, h1, h2, h3, h4, h5⟩ := makeRoom_inv h p hp n (s.lost + 1)
  have hs : p'.ratios.isSome := by
    by_cases e : p.nsamp = n
    · rw [h4 e]; exact hr.resolve_left (fun h => h e)
    · exact h3 e
  obtain ⟨⟨a, b⟩, hab⟩ := Option.isSome_iff_exists.mp hs
  have ha : a ∈ h'.live := hi.smpMem rfl (by simp [Smp.blocks, hab])
  have hb : b ∈ h'.live := hi.smpMem rfl (by simp [Smp.blocks, hab])
  have hu : p.block ∈ s.heap.live := h.smpMem hp (by simp [Smp.blocks])
  refine ⟨{ s with heap := h', smp := some { p' with vals := (ratiosOf n ws tot).take p.npopn }, lost := s.lost + 1 }, { p' with vals := (ratiosOf n ws tot).take p.npopn }, L', ?_, hi.vals (s := { s with heap := h', lost := s.lost + 1 }) _, hL, rfl, h1, h2, hs, rfl, rfl, rfl, h5⟩
  simp only [St.prepratios, not_le.mpr hn, ge_iff_le, if_false, hp, use_ok _ _ hu, e, hab, use_ok _ _ ha, use_ok _ _ hb, bind, Except.bind, h1, not_lt.mpr hl]

theorem prepratiotables_inv {L : Finset ℕ} {s : St} (h : Inv L s) (p : Smp) (hp : s.smp = some p) (hr : p.ratios.isSome) :
    ∃ s' o L', s.prepratiotables = .ok (s', o) ∧ Inv L' s' ∧ L ⊆ L' ∧ s'.smp = some p ∧ s'.tab = s.tab ∧
      (kindOf p.vals ≠ .fail → o = .ok ∧ L.card < L'.card ∧ ∃ t, s'.rat = some t ∧ t.kind = kindOf p.vals ∧ t.n = p.vals.length) := by
  obtain ⟨heap, tb, sm, rt, lo⟩ := s
  obtain rfl : sm = some p := hp
  obtain ⟨⟨a, b⟩, hab⟩ := Option.isSome_iff_exists.mp hr
  have ha : a ∈ heap.live := h.smpMem rfl (by simp [Smp.blocks, hab])
  have hu : p.block ∈ heap.live := h.smpMem rfl (by simp [Smp.blocks])
  simp only [St.prepratiotables, use_ok _ _ hu, hab, use_ok _ _ ha, bind, Except.bind]
  rcases initTab_spec heap p.vals h.heap with ⟨k, e⟩ | ⟨h', t, hf, e, h1, h2, h3, h4, h5, h6, h7⟩
  · rw [e]
    refine ⟨_, _, L, rfl, ⟨h.heap, h.tab, h.smp, by simp, h.nodup, h.disj, h.live⟩, Finset.Subset.refl _, rfl, rfl, fun hk => absurd k hk⟩
  · rw [e]
    have hd : ∀ x ∈ t.blocks, x ∉ St.owned ⟨heap, tb, some p, rt, lo⟩ ∧ x ∉ L := by
      intro x hx
      have h8 := h6 x hx
      refine ⟨fun hc => ?_, fun hc => ?_⟩
      · have := h.lt (Or.inl hc); simp only at this; omega
      · have := h.lt (Or.inr hc); simp only at this; omega
    refine ⟨_, _, L ∪ t.blocks.toFinset, rfl, ⟨h1, h.tab, h.smp, ?_, h.nodup, ?_, ?_⟩, Finset.subset_union_left, rfl, rfl, fun _ => ⟨rfl, ?_, t, rfl, h2, h3⟩⟩
    · intro t' ht'
      cases ht'
      exact ⟨fun x hx => Finset.mem_union_right _ (by simpa using hx), h5⟩
    · intro x hx hc
      simp only [Finset.mem_union, List.mem_toFinset] at hc
      rcases hc with hc | hc
      · exact h.disj x hx hc
      · exact (hd x hc).1 hx
    · have : heap.live = (St.owned ⟨heap, tb, some p, rt, lo⟩).toFinset ∪ L := h.live
      simp only [h7, this, Finset.union_assoc]
      rfl
    · apply Finset.card_lt_card
      refine ⟨Finset.subset_union_left, fun hc => ?_⟩
      have hb : t.block ∈ t.blocks := by simp [Tab.blocks]
      exact (hd _ hb).2 (hc (Finset.mem_union_right _ (by simpa using hb)))

theorem forM_use (h : Heap) (l : List ℕ) (hl : ∀ b ∈ l, b ∈ h.live) : l.forM h.use = .ok () := by
  induction l with
  | nil => rfl
  | cons b l ih =>
    simp only [List.forM, use_ok _ _ (hl b List.mem_cons_self), bind, Except.bind]
    exact ih fun b hb => hl b (List.mem_cons_of_mem _ hb)

theorem draw_ok (h : Heap) (t : Tab) (hl : ∀ b ∈ t.blocks, b ∈ h.live) (hk : t.kind = .tables ∨ t.kind = .prob1) : draw h (some t) = .ok () := by
  simp only [draw, use_ok _ _ (hl t.block (by simp [Tab.blocks])), bind, Except.bind]
  rcases hk with hk | hk <;> simp only [hk]
  exact forM_use h t.tabs fun b hb => hl b (by simp [Tab.blocks, hb])

theorem draw_not_freed (h : Heap) (t : Option Tab) (hl : ∀ t', t = some t' → ∀ b ∈ t'.blocks, b ∈ h.live) : draw h t ≠ .error .freed := by
  rcases t with _ | t
  · simp [draw]
  · have := hl t rfl
    simp only [draw, use_ok _ _ (this t.block (by simp [Tab.blocks])), bind, Except.bind]
    split
    · simp
    · rw [forM_use h t.tabs fun b hb => this b (by simp [Tab.blocks, hb])]; simp
    · simp

theorem Inv.drawTab {L : Finset ℕ} {s : St} (h : Inv L s) : draw s.heap s.tab = .ok () := by
  obtain ⟨t, ht, hk, _⟩ := h.tab
  rw [ht]
  exact draw_ok _ _ (fun b hb => h.tabBlocks ht hb) hk

theorem Inv.ratMem {L : Finset ℕ} {s : St} (h : Inv L s) {t : Tab} (ht : s.rat = some t) {b : ℕ} (hb : b ∈ t.blocks) : b ∈ s.heap.live := by
  rw [h.live]; exact Finset.mem_union_right _ ((h.rat t ht).1 b hb)

theorem samplenr_inv {L : Finset ℕ} {s : St} (h : Inv L s) (p : Smp) (hp : s.smp = some p) (hr : p.ratios.isSome ∨ p.nsamp < 0) : s.samplenr = .ok (s, if p.nsamp < 0 then .exc .value else .ok) := by
  have h1 : p.block ∈ s.heap.live := h.smpMem hp (by simp [Smp.blocks])
  have h2 : p.cumwts ∈ s.heap.live := h.smpMem hp (by simp [Smp.blocks])
  simp only [St.samplenr, hp, use_ok _ _ h1, bind, Except.bind]
  split
  · rfl
  · rename_i hn
    obtain ⟨⟨a, b⟩, hab⟩ := Option.isSome_iff_exists.mp (hr.resolve_right hn)
    have h3 : b ∈ s.heap.live := h.smpMem hp (by simp [Smp.blocks, hab])
    simp only [use_ok _ _ h2, hab, use_ok _ _ h3]

theorem samplenr5_inv {L : Finset ℕ} {s : St} (h : Inv L s) (p : Smp) (hp : s.smp = some p) (t : Tab) (ht : s.rat = some t) (hk : t.kind = .tables ∨ t.kind = .prob1) (hn : t.n ≤ p.npopn) :
    s.samplenr5 = .ok (s, if p.nsamp < 0 then .exc .value else .ok) := by
  have h1 : p.block ∈ s.heap.live := h.smpMem hp (by simp [Smp.blocks])
  have h2 : p.indices ∈ s.heap.live := h.smpMem hp (by simp [Smp.blocks])
  simp only [St.samplenr5, hp, use_ok _ _ h1, bind, Except.bind]
  split
  · rfl
  · simp only [h.drawTab, ht, draw_ok _ _ (fun b hb => h.ratMem ht hb) hk, use_ok _ _ h2, not_lt.mpr hn, if_false]
    split <;> rfl

theorem destroy_inv {L : Finset ℕ} {s : St} (h : Inv L s) :
    ∃ s', s.destroy = .ok s' ∧ L ⊆ s'.heap.live ∧ ((∀ p, s.smp = some p → p.nsamp = 0 → p.ratios = none) → s'.heap.live = L) := by
  obtain ⟨t, ht, hk, hk'⟩ := h.tab
  have hn := h.nodup
  have hd := h.disj
  have hl := h.live
  simp only [St.owned, ht] at hn hd hl
  have e1 : destroyTab s.heap t = .ok { s.heap with live := s.heap.live \ t.blocks.toFinset } := by
    have hnt : t.blocks.Nodup := (List.nodup_append.mp hn).1
    simp only [Tab.blocks, List.nodup_cons] at hnt
    have hb : t.block ∈ s.heap.live := h.tabBlocks ht (by simp [Tab.blocks])
    simp only [destroyTab, use_ok _ _ hb, bind, Except.bind]
    rcases hk with hk | hk
    · simp only [hk, frees_ok _ _ hnt.2 fun b hb => h.tabBlocks ht (by simp [Tab.blocks, hb])]
      rw [free_ok]
      · congr 2
        ext x; simp only [Tab.blocks, List.toFinset_cons, Finset.mem_erase, Finset.mem_sdiff, Finset.mem_insert, List.mem_toFinset]; tauto
      · simp [hb, hnt.1]
    · have := hk' (by simp [hk])
      simp only [hk, free_ok _ _ hb, Tab.blocks, this]
      congr 2
      ext x; simp only [Finset.mem_erase, Finset.mem_sdiff, List.mem_toFinset, List.mem_cons, List.not_mem_nil, or_false]; tauto
  simp only [St.destroy, ht, ifSet, e1, bind, Except.bind]
  have hl1 : s.heap.live \ t.blocks.toFinset = (match s.smp with | some p => p.blocks | none => []).toFinset ∪ L := by
    rw [hl]
    ext x
    simp only [Finset.mem_sdiff, Finset.mem_union, List.mem_toFinset, List.mem_append]
    constructor
    · tauto
    · rintro (hx | hx)
      · exact ⟨Or.inl (Or.inr hx), fun hc => (List.nodup_append.mp hn).2.2 x hc x hx rfl⟩
      · exact ⟨Or.inr hx, fun hc => hd x (List.mem_append_left _ hc) hx⟩
  rcases hp : s.smp with _ | p
  · refine ⟨_, rfl, ?_, fun _ => ?_⟩ <;> simp only [hl1, hp] <;> simp
  · obtain ⟨h0, h1⟩ := h.smp p hp
    simp only [hp] at hn hd hl1
    have hnp : p.blocks.Nodup := (List.nodup_append.mp hn).2.1
    have hdp : ∀ b ∈ p.blocks, b ∉ L := fun b hb => hd b (List.mem_append_right _ hb)
    generalize hH : ({ s.heap with live := s.heap.live \ t.blocks.toFinset } : Heap) = H
    have hHl : H.live = p.blocks.toFinset ∪ L := by rw [← hH]; exact hl1
    have hm : ∀ b ∈ p.blocks, b ∈ H.live := fun b hb => by rw [hHl]; simp [hb]
    have hu : H.use p.block = .ok () := use_ok _ _ (hm _ (by simp [Smp.blocks]))
    simp only [destroySmp, hu, bind, Except.bind, h0, ne_eq, not_false_eq_true, if_true]
    have f1 : H.frees [p.cumwts, p.indices] = .ok { H with live := H.live \ [p.cumwts, p.indices].toFinset } := by
      apply frees_ok
      · simp only [Smp.blocks, List.nodup_append] at hnp
        exact (List.nodup_cons.mp hnp.1).2
      · intro b hb; exact hm b (by simp only [Smp.blocks, List.mem_append]; left; exact List.mem_cons_of_mem _ hb)
    rw [f1]
    by_cases hz : p.nsamp = 0
    · simp only [hz, not_true, if_false, pure, Except.pure]
      rw [free_ok]
      · refine ⟨_, rfl, ?_, fun hc => ?_⟩
        · intro x hx
          have : x ∉ p.blocks := fun hc => hdp x hc hx
          simp only [Smp.blocks, List.mem_append, List.mem_cons, List.not_mem_nil, or_false, not_or] at this
          simp only [Finset.mem_erase, Finset.mem_sdiff, hHl, Finset.mem_union, List.mem_toFinset, List.mem_cons, List.not_mem_nil, or_false]
          tauto
        · have hr := hc p rfl hz
          ext x
          have := hdp x
          simp only [Smp.blocks, hr, List.append_nil, List.mem_cons, List.not_mem_nil, or_false] at this
          simp only [Finset.mem_erase, Finset.mem_sdiff, hHl, Smp.blocks, hr, List.append_nil, Finset.mem_union, List.mem_toFinset, List.mem_cons, List.not_mem_nil, or_false]
          constructor
          · tauto
          · intro hx
            refine ⟨fun hc => this (Or.inl hc) hx, Or.inr hx, fun hc => this (Or.inr hc) hx⟩
      · simp only [Finset.mem_sdiff]
        refine ⟨hm _ (by simp [Smp.blocks]), ?_⟩
        simp only [Smp.blocks, List.nodup_append] at hnp
        simpa using (List.nodup_cons.mp hnp.1).1
    · obtain ⟨⟨a, b⟩, hab⟩ := Option.isSome_iff_exists.mp (h1 hz)
      simp only [Smp.blocks, hab] at hnp hm hdp hHl
      have hnp' := List.nodup_append.mp hnp
      simp only [hz, not_false_eq_true, if_true, hab]
      rw [frees_ok]
      · simp only []
        rw [free_ok]
        · have : ((H.live \ [p.cumwts, p.indices].toFinset) \ [a, b].toFinset).erase p.block = L := by
            ext x
            have := hdp x
            simp only [List.mem_append, List.mem_cons, List.not_mem_nil, or_false] at this
            simp only [Finset.mem_erase, Finset.mem_sdiff, hHl, Finset.mem_union, List.mem_toFinset, List.mem_append, List.mem_cons, List.not_mem_nil, or_false]
            constructor
            · tauto
            · intro hx
              refine ⟨fun hc => this (Or.inl (Or.inl hc)) hx, ⟨Or.inr hx, fun hc => this (Or.inl (Or.inr hc)) hx⟩, fun hc => this (Or.inr hc) hx⟩
          exact ⟨_, rfl, this.symm ▸ Finset.Subset.refl _, fun _ => this⟩
        · simp only [Finset.mem_sdiff]
          refine ⟨⟨hm _ (by simp), ?_⟩, ?_⟩
          · simpa using (List.nodup_cons.mp hnp'.1).1
          · intro hc
            exact hnp'.2.2 p.block (by simp) p.block (by simpa using hc) rfl
      · exact hnp'.2.1
      · intro x hx
        simp only [Finset.mem_sdiff]
        refine ⟨hm x (List.mem_append_right _ hx), fun hc => ?_⟩
        exact hnp'.2.2 x (List.mem_cons_of_mem _ (by simpa using hc)) x hx rfl

end Verif.MC.Mem
