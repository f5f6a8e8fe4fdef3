import Mathlib.Data.Fintype.BigOperators
import Mathlib.Data.BitVec
import Mathlib.Data.List.GetD
import Mathlib.Tactic
import Verif.MC.Twister
import Verif.MC.TwisterSpec

/-! # Lemmas on the random number generator of the C sampler -/

set_option linter.unusedSectionVars false

namespace Verif.MC

/-- A word of 32 bits as an `unsigned long`. -/
def wide (x : BitVec 32) : Word := x.setWidth 64

theorem wide_bit (x : BitVec 32) (i : ℕ) : (wide x).getLsbD i = x.getLsbD i := by
  unfold wide
  rw [BitVec.getLsbD_setWidth]
  by_cases h : i < 64
  · simp [h]
  · have : x.getLsbD i = false := BitVec.getLsbD_of_ge x i (by omega)
    simp [this]

theorem wide_inj {x y : BitVec 32} (h : wide x = wide y) : x = y := by
  apply BitVec.eq_of_getLsbD_eq
  intro i _
  rw [← wide_bit, ← wide_bit, h]

theorem wide_toNat (x : BitVec 32) : (wide x).toNat = x.toNat := by
  unfold wide
  rw [BitVec.toNat_setWidth]
  exact Nat.mod_eq_of_lt (lt_of_lt_of_le x.isLt (by norm_num))

theorem wide_xor (x y : BitVec 32) : wide (x ^^^ y) = wide x ^^^ wide y := by
  apply BitVec.eq_of_getLsbD_eq; intro i _; simp [wide_bit]

theorem wide_or (x y : BitVec 32) : wide (x ||| y) = wide x ||| wide y := by
  apply BitVec.eq_of_getLsbD_eq; intro i _; simp [wide_bit]

theorem wide_and (x y : BitVec 32) : wide (x &&& y) = wide x &&& wide y := by
  apply BitVec.eq_of_getLsbD_eq; intro i _; simp [wide_bit]

theorem wide_shr (x : BitVec 32) (n : ℕ) : wide (x >>> n) = wide x >>> n := by
  apply BitVec.eq_of_getLsbD_eq; intro i _; simp [wide_bit]

theorem wide_shl_and (x m : BitVec 32) (n : ℕ) : wide ((x <<< n) &&& m) = (wide x <<< n) &&& wide m := by
  apply BitVec.eq_of_getLsbD_eq; intro i hi
  simp only [wide_bit, BitVec.getLsbD_and, BitVec.getLsbD_shiftLeft]
  by_cases h : i < 32
  · simp [h, hi]
  · have : m.getLsbD i = false := BitVec.getLsbD_of_ge m i (by omega)
    simp [this]

theorem neg_and_one (y : Word) : -(y &&& 1#64) = if y.getLsbD 0 then BitVec.allOnes 64 else 0 := by
  have h : y &&& 1#64 = if y.getLsbD 0 then 1#64 else 0#64 := by
    rw [BitVec.and_one_eq_setWidth_ofBool_getLsbD]
    cases y.getLsbD 0 <;> rfl
  rw [h]
  cases y.getLsbD 0 <;> rfl

theorem twist_wide (u v m : BitVec 32) : twist (wide u) (wide v) (wide m) = wide (MT.next u v m) := by
  have e1 : (0x80000000#64 : Word) = wide 0x80000000#32 := by decide
  have e2 : (0x7fffffff#64 : Word) = wide 0x7fffffff#32 := by decide
  have e3 : (0x9908b0df#64 : Word) = wide 0x9908b0df#32 := by decide
  unfold twist MT.next
  dsimp only
  rw [neg_and_one, e1, e2, e3, ← wide_and, ← wide_and, ← wide_or, ← wide_shr, wide_bit, wide_xor, wide_xor]
  congr 1
  split
  · rw [BitVec.allOnes_and]
  · simp; decide

theorem temper_wide (x : BitVec 32) : temper (wide x) = wide (MT.temper x) := by
  have e1 : (0x9d2c5680#64 : Word) = wide 0x9d2c5680#32 := by decide
  have e2 : (0xefc60000#64 : Word) = wide 0xefc60000#32 := by decide
  unfold temper MT.temper
  dsimp only
  rw [e1, e2, ← wide_shr, ← wide_xor, ← wide_shl_and, ← wide_xor, ← wide_shl_and, ← wide_xor, ← wide_shr, ← wide_xor]

/-! ## Regeneration -/

theorem seq_lt (key : ℕ → BitVec 32) {n : ℕ} (h : n < 624) : MT.seq key n = key n := by
  rw [MT.seq, dif_pos h]

theorem seq_add (key : ℕ → BitVec 32) (n : ℕ) :
    MT.seq key (n + 624) = MT.next (MT.seq key n) (MT.seq key (n + 1)) (MT.seq key (n + 397)) := by
  rw [MT.seq, dif_neg (by omega)]
  simp only [Nat.add_sub_cancel]

/-- The array while block `b` is turned into block `b + 624`: `i` words done. -/
def Mid (x : ℕ → BitVec 32) (b i : ℕ) (key : ℤ → Word) : Prop :=
  ∀ j : ℕ, j < 624 → key j = wide (if j < i then x (b + 624 + j) else x (b + j))

theorem Mid.step {x : ℕ → BitVec 32} (hx : ∀ n, x (n + 624) = MT.next (x n) (x (n + 1)) (x (n + 397))) {b i : ℕ} {key : ℤ → Word}
    (h : Mid x b i key) (hi : i < 624) (v m : Word) (hv : v = wide (x (b + i + 1))) (hm : m = wide (x (b + i + 397))) :
    Mid x b (i + 1) (Function.update key i (twist (key i) v m)) := by
  intro j hj
  by_cases e : j = i
  · subst e
    rw [Function.update_self, h j hi, if_neg (lt_irrefl _), if_pos (Nat.lt_succ_self _), hv, hm, twist_wide, ← hx]
    congr 2; omega
  · rw [Function.update_of_ne (by exact_mod_cast e), h j hj]
    by_cases l : j < i
    · rw [if_pos l, if_pos (by omega)]
    · rw [if_neg l, if_neg (by omega)]

theorem genLoop_mid {x : ℕ → BitVec 32} (hx : ∀ n, x (n + 624) = MT.next (x n) (x (n + 1)) (x (n + 397))) {b : ℕ} (off : ℤ) (cnt : ℕ) :
    ∀ (i : ℕ) (key : ℤ → Word), Mid x b i key → i + cnt ≤ 623 →
      (∀ (k : ℕ) (key : ℤ → Word), i ≤ k → k < i + cnt → Mid x b k key → key (k + off) = wide (x (b + k + 397))) →
      Mid x b (i + cnt) (genLoop off cnt i key) := by
  induction cnt with
  | zero => intro i key h _ _; exact h
  | succ c ih =>
    intro i key h hc ho
    rw [genLoop]
    have s1 := h.step hx (by omega) (key ((i : ℤ) + 1)) (key (i + off))
      (by
        have := h (i + 1) (by omega)
        rw [if_neg (by omega)] at this
        push_cast at this
        rw [this]; congr 2) (ho i key le_rfl (by omega) h)
    have := ih (i + 1) _ s1 (by omega) (fun k key hk hk2 => ho k key (by omega) (by omega))
    push_cast at this
    rw [show i + (c + 1) = i + 1 + c by ring]
    exact this

attribute [local irreducible] genLoop

theorem regen_mid {x : ℕ → BitVec 32} (hx : ∀ n, x (n + 624) = MT.next (x n) (x (n + 1)) (x (n + 397))) {b : ℕ} {s : Rk}
    (h : Mid x b 0 s.mem) : Mid x (b + 624) 0 s.regen.mem := by
  have s1 := genLoop_mid hx (b := b) 397 (624 - 397) 0 s.mem h (by omega) (by
    intro k key _ hk hm
    have := hm (k + 397) (by omega)
    rw [if_neg (by omega), ← Nat.add_assoc] at this
    push_cast at this
    exact this)
  rw [Nat.zero_add] at s1
  have s2 := genLoop_mid hx (b := b) (397 - 624) (624 - 1 - (624 - 397)) (624 - 397) _ s1 (by omega) (by
    intro k key h1 hk hm
    have := hm (k - 227) (by omega)
    rw [if_pos (by omega), show b + 624 + (k - 227) = b + k + 397 by omega] at this
    rw [show (k : ℤ) + (397 - 624) = ((k - 227 : ℕ) : ℤ) by omega, this])
  unfold Rk.regen
  dsimp only
  rw [show ((624 - 397 : ℕ) : ℤ) = 624 - 397 by norm_num, show ((0 : ℕ) : ℤ) = 0 by norm_num] at s2
  generalize genLoop (397 - 624) (624 - 1 - (624 - 397)) (624 - 397) (genLoop 397 (624 - 397) 0 s.mem) = key at s2 ⊢
  have h0 : key 0 = wide (x (b + 623 + 1)) := by
    have := s2 0 (by omega)
    rw [if_pos (by omega)] at this
    exact this
  have h1 : key (397 - 1) = wide (x (b + 623 + 397)) := by
    have := s2 396 (by omega)
    rw [if_pos (by omega), show b + 624 + 396 = b + 623 + 397 by omega] at this
    exact this
  have s3 := Mid.step hx (i := 623) s2 (by omega) _ _ h0 h1
  intro j hj
  have := s3 j hj
  rw [if_pos (by omega)] at this
  rw [if_neg (by omega), ← this]
  rfl

/-! ## Drawing words -/

/-- The state stands before word `n` of the sequence of `key`. -/
def At (key : ℕ → BitVec 32) (n : ℕ) (s : Rk) : Prop :=
  ∃ b p : ℕ, n = b + p ∧ p ≤ 624 ∧ s.pos = p ∧ Mid (MT.seq key) b 0 s.mem

theorem At.random {key : ℕ → BitVec 32} {n : ℕ} {s : Rk} (h : At key n s) :
    s.random.2 = wide (MT.temper (MT.seq key n)) ∧ At key (n + 1) s.random.1 := by
  obtain ⟨b, p, rfl, hp, e, hm⟩ := h
  unfold Rk.random
  by_cases c : s.pos = 624
  · obtain rfl : p = 624 := by omega
    have r := regen_mid (seq_add key) hm
    rw [if_pos c]
    dsimp only
    have r0 : s.regen.pos = 0 := rfl
    refine ⟨?_, b + 624, 1, rfl, by omega, by rw [r0]; rfl, r⟩
    have := r 0 (by omega)
    rw [r0, ← temper_wide]
    congr 1
  · rw [if_neg c]
    dsimp only
    refine ⟨?_, b, p + 1, by omega, by omega, by rw [e]; push_cast; rfl, hm⟩
    have := hm p (by omega)
    rw [e, this, if_neg (by omega), temper_wide]

/-! ## Numbers from words -/

theorem At.double {key : ℕ → BitVec 32} {n : ℕ} {s : Rk} (h : At key n s) :
    s.double.2 = MT.real (MT.out key) n ∧ At key (n + 2) s.double.1 := by
  obtain ⟨e1, h1⟩ := h.random
  obtain ⟨e2, h2⟩ := h1.random
  refine ⟨?_, h2⟩
  unfold Rk.double MT.real MT.out
  dsimp only
  rw [e1, e2, BitVec.toNat_ushiftRight, BitVec.toNat_ushiftRight, wide_toNat, wide_toNat, Nat.shiftRight_eq_div_pow, Nat.shiftRight_eq_div_pow]
  push_cast
  norm_num

theorem join_toNat (a b : BitVec 32) : ((wide a <<< 32) ||| wide b).toNat = a.toNat * 2 ^ 32 + b.toNat := by
  have ha := a.isLt
  have hb := b.isLt
  rw [BitVec.toNat_or, BitVec.toNat_shiftLeft, wide_toNat, wide_toNat, Nat.shiftLeft_eq, Nat.mod_eq_of_lt (by omega)]
  rw [← Nat.shiftLeft_eq, Nat.shiftLeft_add_eq_or_of_lt hb]

theorem At.ulong {key : ℕ → BitVec 32} {n : ℕ} {s : Rk} (h : At key n s) :
    s.ulong.2.toNat = MT.out key n * 2 ^ 32 + MT.out key (n + 1) ∧ At key (n + 2) s.ulong.1 := by
  obtain ⟨e1, h1⟩ := h.random
  obtain ⟨e2, h2⟩ := h1.random
  refine ⟨?_, h2⟩
  unfold Rk.ulong
  dsimp only
  rw [e1, e2, join_toNat]
  rfl

/-- Bit `i` of `m` tells whether one of `n` bits of `x` from `i` on is set. -/
def Smear (x m : Word) (n : ℕ) : Prop := ∀ i, m.getLsbD i = true ↔ ∃ j < n, x.getLsbD (i + j) = true

theorem Smear.step {x m : Word} {n : ℕ} (h : Smear x m n) : Smear x (m ||| (m >>> n)) (n + n) := by
  intro i
  rw [BitVec.getLsbD_or, BitVec.getLsbD_ushiftRight, Bool.or_eq_true, h i, h (n + i)]
  constructor
  · rintro (⟨j, hj, e⟩ | ⟨j, hj, e⟩)
    · exact ⟨j, by omega, e⟩
    · exact ⟨n + j, by omega, by rw [← e]; congr 1; omega⟩
  · rintro ⟨j, hj, e⟩
    by_cases c : j < n
    · exact Or.inl ⟨j, c, e⟩
    · exact Or.inr ⟨j - n, by omega, by rw [← e]; congr 1; omega⟩

theorem bitMask_smear (x : Word) : Smear x (bitMask x) 64 := by
  have h0 : Smear x x 1 := by
    intro i
    constructor
    · intro h; exact ⟨0, by omega, h⟩
    · rintro ⟨j, hj, e⟩
      obtain rfl : j = 0 := by omega
      exact e
  exact h0.step.step.step.step.step.step

theorem bitMask_toNat (x : Word) : (bitMask x).toNat = 2 ^ x.toNat.size - 1 := by
  apply Nat.eq_of_testBit_eq
  intro i
  rw [Nat.testBit_two_pow_sub_one, Bool.eq_iff_iff, decide_eq_true_eq, BitVec.testBit_toNat, bitMask_smear x i, Nat.lt_size]
  constructor
  · rintro ⟨j, _, e⟩
    rw [← BitVec.testBit_toNat] at e
    exact le_trans (Nat.pow_le_pow_right (by norm_num) (by omega)) (Nat.ge_two_pow_of_testBit e)
  · intro h
    obtain ⟨k, hk, e⟩ := Nat.exists_ge_and_testBit_of_ge_two_pow h
    have hl : k < 64 := by
      by_contra c
      have : x.getLsbD k = false := BitVec.getLsbD_of_ge x k (by omega)
      rw [BitVec.testBit_toNat, this] at e
      cases e
    exact ⟨k - i, by omega, by rw [show i + (k - i) = k by omega, ← BitVec.testBit_toNat, e]⟩

theorem mask_mod (x v : Word) : (v &&& bitMask x).toNat = v.toNat % 2 ^ x.toNat.size := by
  rw [BitVec.toNat_and, bitMask_toNat, Nat.and_two_pow_sub_one_eq_mod]

theorem search_succ (max mask : Word) (f : ℕ) (s : Rk) (t : Rk) (v : Word) (h : s.ulong = (t, v)) :
    Rk.search max mask (f + 1) s = if v &&& mask > max then Rk.search max mask f t else some (t, v &&& mask) := by
  rw [Rk.search, h]

/-- A result of the specification and one of the model: the same number, and the state stands at the next word. -/
def Agree (key : ℕ → BitVec 32) (a : ℕ × ℕ) (r : Rk × Word) : Prop := r.2.toNat = a.2 ∧ At key a.1 r.1

theorem first_succ (w : ℕ → ℕ) (hi f n : ℕ) :
    MT.first w hi (f + 1) n = if MT.trial w hi n ≤ hi then some (n + 2, MT.trial w hi n) else MT.first w hi f (n + 2) := rfl

theorem At.search {key : ℕ → BitVec 32} {max : Word} (fuel : ℕ) : ∀ {n : ℕ} {s : Rk}, At key n s →
    Option.Rel (Agree key) (MT.first (MT.out key) max.toNat fuel n) (Rk.search max (bitMask max) fuel s) := by
  induction fuel with
  | zero => intro n s h; exact Option.Rel.none
  | succ f ih =>
    intro n s h
    obtain ⟨e, h1⟩ := h.ulong
    rcases hu : s.ulong with ⟨t, v⟩
    rw [hu] at e h1
    have ht : (v &&& bitMask max).toNat = MT.trial (MT.out key) max.toNat n := by rw [mask_mod, e, MT.trial]
    rw [search_succ max (bitMask max) f s t v hu, first_succ]
    by_cases c : MT.trial (MT.out key) max.toNat n ≤ max.toNat
    · rw [if_pos c, if_neg (by rw [gt_iff_lt, BitVec.lt_def, ht]; exact not_lt.mpr c)]
      exact Option.Rel.some ⟨ht, h1⟩
    · rw [if_neg c, if_pos (by rw [gt_iff_lt, BitVec.lt_def, ht]; exact not_le.mp c)]
      exact ih h1

theorem first_le {w : ℕ → ℕ} {hi : ℕ} (fuel : ℕ) : ∀ {n : ℕ} {a : ℕ × ℕ}, MT.first w hi fuel n = some a → a.2 ≤ hi := by
  induction fuel with
  | zero => intro n a h; cases h
  | succ f ih =>
    intro n a h
    rw [first_succ] at h
    split at h
    · cases h; assumption
    · exact ih h

/-- A call whose argument is a non-negative `int`. -/
def MT.Call.ok : MT.Call → Prop
  | .rand => True
  | .irand hi => 0 ≤ hi ∧ hi < 2 ^ 31

theorem ofInt_toNat {hi : ℤ} (h0 : 0 ≤ hi) (h1 : hi < 2 ^ 31) : (BitVec.ofInt 64 hi).toNat = hi.toNat := by
  rw [BitVec.toNat_ofInt, Int.emod_eq_of_lt h0 (by push_cast; omega)]

theorem At.irand {key : ℕ → BitVec 32} {n : ℕ} {s : Rk} (h : At key n s) {hi : ℤ} (h0 : 0 ≤ hi) (h1 : hi < 2 ^ 31) (fuel : ℕ) :
    Option.Rel (fun (a : ℕ × ℕ) (r : Rk × ℤ) => r.2 = (a.2 : ℤ) ∧ At key a.1 r.1) (MT.int (MT.out key) hi.toNat fuel n) (s.irand fuel hi) := by
  have e := ofInt_toNat h0 h1
  unfold MT.int Rk.irand Rk.interval
  by_cases c : hi.toNat = 0
  · have c' : BitVec.ofInt 64 hi = 0 := by
      apply BitVec.eq_of_toNat_eq; rw [e, c]; rfl
    rw [if_pos c, if_pos c']
    exact Option.Rel.some ⟨rfl, h⟩
  · have c' : BitVec.ofInt 64 hi ≠ 0 := by
      intro z; rw [z] at e; exact c e.symm
    rw [if_neg c, if_neg c']
    have r := h.search (max := BitVec.ofInt 64 hi) fuel
    rw [e] at r
    have l := @first_le (MT.out key) hi.toNat fuel n
    generalize MT.first (MT.out key) hi.toNat fuel n = A at r l
    generalize Rk.search (BitVec.ofInt 64 hi) (bitMask (BitVec.ofInt 64 hi)) fuel s = B at r
    cases r with
    | none => exact Option.Rel.none
    | @some a b q =>
      obtain ⟨q1, q2⟩ := q
      refine Option.Rel.some ⟨?_, q2⟩
      have := l rfl
      dsimp only
      rw [BitVec.toInt_eq_toNat_of_lt (by omega), q1]

theorem At.run {key : ℕ → BitVec 32} (fuel : ℕ) (cs : List MT.Call) : ∀ {n : ℕ} {s : Rk}, At key n s → (∀ c ∈ cs, c.ok) →
    Option.Rel (fun (a : ℕ × List ℚ) (r : Rk × List ℚ) => r.2 = a.2 ∧ At key a.1 r.1) (MT.calls (MT.out key) fuel cs n) (s.run fuel cs) := by
  induction cs with
  | nil => intro n s h _; exact Option.Rel.some ⟨rfl, h⟩
  | cons c cs ih =>
    intro n s h hc
    have hc' : ∀ c ∈ cs, c.ok := fun c m => hc c (List.mem_cons_of_mem _ m)
    cases c with
    | rand =>
      obtain ⟨e, h1⟩ := h.double
      have := ih h1 hc'
      rw [MT.calls, Rk.run]
      unfold Rk.rand
      rw [e]
      generalize MT.calls (MT.out key) fuel cs (n + 2) = A at this
      generalize Rk.run fuel cs s.double.1 = B at this
      cases this with
      | none => exact Option.Rel.none
      | some q => exact Option.Rel.some ⟨by simp only [q.1], q.2⟩
    | irand hi =>
      obtain ⟨h0, h1⟩ := hc _ List.mem_cons_self
      have r := h.irand h0 h1 fuel
      rw [MT.calls, Rk.run]
      generalize MT.int (MT.out key) hi.toNat fuel n = A at r
      generalize s.irand fuel hi = B at r
      cases r with
      | none => exact Option.Rel.none
      | @some a b q =>
        obtain ⟨q1, q2⟩ := q
        have := ih q2 hc'
        rw [Option.bind_some, Option.bind_some]
        generalize MT.calls (MT.out key) fuel cs a.1 = A at this
        generalize Rk.run fuel cs b.1 = B at this
        cases this with
        | none => exact Option.Rel.none
        | some w => exact Option.Rel.some ⟨by simp only [w.1, q1]; norm_cast, w.2⟩

theorem setState_at (s : Rk) (key : List (BitVec 32)) (hk : key.length = 624) (pos : ℕ) (hp : pos ≤ 624) :
    At (fun i => key.getD i 0) pos (s.setState "MT19937" (key.map (BitVec.setWidth 64)) pos).1 := by
  unfold Rk.setState
  rw [if_neg (by simp), if_neg (by simp [hk])]
  refine ⟨0, pos, by omega, hp, rfl, ?_⟩
  intro j hj
  dsimp only
  rw [if_pos (by omega), if_neg (by omega), Nat.zero_add, seq_lt _ hj, Int.toNat_natCast]
  rw [List.getD_eq_getElem _ _ (by rw [List.length_map]; omega), List.getD_eq_getElem _ _ (by omega), List.getElem_map]
  rfl

/-! ## What calls change -/

/-- The memory around the array is the same. -/
def Same (s t : Rk) : Prop := ∀ i, ¬(0 ≤ i ∧ i < 624) → t.mem i = s.mem i

theorem Same.trans {s t u : Rk} (h1 : Same s t) (h2 : Same t u) : Same s u := fun i hi => (h2 i hi).trans (h1 i hi)

theorem genLoop_frame (off : ℤ) (cnt : ℕ) : ∀ (i : ℤ) (key : ℤ → Word) (k : ℤ), 0 ≤ i → i + cnt ≤ 624 → ¬(0 ≤ k ∧ k < 624) →
    genLoop off cnt i key k = key k := by
  induction cnt with
  | zero => intro i key k _ _ _; rw [genLoop]
  | succ c ih =>
    intro i key k h0 h1 hk
    push_cast at h1
    rw [genLoop, ih (i + 1) _ k (by omega) (by omega) hk, Function.update_of_ne (by omega)]

theorem regen_same (s : Rk) : Same s s.regen := by
  intro i hi
  unfold Rk.regen
  dsimp only
  rw [Function.update_of_ne (by omega), genLoop_frame _ _ _ _ _ (by omega) (by norm_num) hi, genLoop_frame _ _ _ _ _ (by omega) (by norm_num) hi]

theorem random_same (s : Rk) : Same s s.random.1 := by
  unfold Rk.random
  by_cases c : s.pos = 624
  · rw [if_pos c]; exact regen_same s
  · rw [if_neg c]; exact fun _ _ => rfl

theorem ulong_same (s : Rk) : Same s s.ulong.1 := (random_same s).trans (random_same s.random.1)

theorem double_same (s : Rk) : Same s s.double.1 := (random_same s).trans (random_same s.random.1)

theorem search_same {max mask : Word} (fuel : ℕ) : ∀ {s t : Rk} {v : Word}, Rk.search max mask fuel s = some (t, v) → Same s t := by
  induction fuel with
  | zero => intro s t v h; cases h
  | succ f ih =>
    intro s t v h
    rw [search_succ max mask f s s.ulong.1 s.ulong.2 rfl] at h
    split at h
    · exact (ulong_same s).trans (ih h)
    · cases h; exact ulong_same s

theorem irand_same {fuel : ℕ} {hi : ℤ} {s : Rk} {r : Rk × ℤ} (h : s.irand fuel hi = some r) : Same s r.1 := by
  unfold Rk.irand Rk.interval at h
  split at h
  · cases h; exact fun _ _ => rfl
  · rcases e : Rk.search (BitVec.ofInt 64 hi) (bitMask (BitVec.ofInt 64 hi)) fuel s with _ | ⟨t, v⟩
    · rw [e] at h; cases h
    · rw [e] at h; cases h; exact search_same fuel e

theorem run_same {fuel : ℕ} (cs : List MT.Call) : ∀ {s : Rk} {r : Rk × List ℚ}, s.run fuel cs = some r → Same s r.1 := by
  induction cs with
  | nil => intro s r h; cases h; exact fun _ _ => rfl
  | cons c cs ih =>
    intro s r h
    cases c with
    | rand =>
      rw [Rk.run] at h
      rcases e : Rk.run fuel cs s.rand.1 with _ | q
      · rw [e] at h; cases h
      · rw [e] at h; cases h; exact (double_same s).trans (ih e : Same s.rand.1 q.1)
    | irand hi =>
      rw [Rk.run] at h
      rcases e1 : s.irand fuel hi with _ | a
      · rw [e1] at h; cases h
      · rw [e1, Option.bind_some] at h
        rcases e : Rk.run fuel cs a.1 with _ | q
        · rw [e] at h; cases h
        · rw [e] at h; cases h; exact (irand_same e1).trans (ih e : Same a.1 q.1)

theorem setState_getState {s t : Rk} (h : Same s t) : t.setState s.getState.1 s.getState.2.1 s.getState.2.2 = (s, none) := by
  unfold Rk.setState Rk.getState
  rw [if_neg (by simp), if_neg (by simp)]
  obtain ⟨m, p⟩ := s
  congr 2
  funext i
  by_cases c : 0 ≤ i ∧ i < 624
  · rw [if_pos c, List.getD_eq_getElem _ _ (by rw [List.length_map, List.length_range]; omega), List.getElem_map, List.getElem_range]
    dsimp only
    congr 1; omega
  · rw [if_neg c, h i c]

end Verif.MC
