import Verif.MC.Device
import Verif.MC.FillProps

/-!
# C218: bytes and seeds from the random devices, wherever reading them fails
-/

namespace Verif.MC

theorem fill_length : ∀ (n : ℕ) (s : Rk), (s.fill n).2.length = n
  | 0, s => rfl
  | 1, s => rfl
  | 2, s => rfl
  | 3, s => rfl
  | n + 4, s => by
      have := fill_length n s.random.1
      simp only [Rk.fill, List.length_cons, this]

/-- **C218.**  `rk_altfill` for any number of bytes but 0, any memory of at least that length and any behaviour of the devices.  If the device asked for delivers all the bytes, they are in the buffer, the generator is as before and `RK_NOERR` is returned.  In all other cases, with the device missing or failing after any number of bytes, the buffer is what `rk_fill` makes, no byte of the interrupted reading is left in it, and `RK_ENODEV` is returned.  Memory behind the buffer is never changed.  Missing: no bytes at all (`C218_violated_empty`). -/
theorem C218_altfill_partial (d : Devices) (size : ℕ) (h0 : size ≠ 0) (strong : Bool) (buf : List (BitVec 8)) (hb : size ≤ buf.length) (s : Rk) :
    (∀ l, (if strong then d.random else d.urandom) = some l → size ≤ l.length →
      s.altfill d size strong buf = (s, l.take size ++ buf.drop size, true)) ∧
    ((∀ l, (if strong then d.random else d.urandom) = some l → l.length < size) →
      s.altfill d size strong buf = ((s.fill size).1, (s.fill size).2 ++ buf.drop size, false)) ∧
    (s.altfill d size strong buf).2.1.length = buf.length ∧
    (s.altfill d size strong buf).2.1.drop size = buf.drop size := by
  have hA : ∀ l, (if strong then d.random else d.urandom) = some l → size ≤ l.length →
      s.altfill d size strong buf = (s, l.take size ++ buf.drop size, true) := by
    intro l hl h
    have e : (l.take size).length = size := by simp [h]
    simp [Rk.altfill, devfill, hl, e, h0]
  have hB : (∀ l, (if strong then d.random else d.urandom) = some l → l.length < size) →
      s.altfill d size strong buf = ((s.fill size).1, (s.fill size).2 ++ buf.drop size, false) := by
    intro h
    cases hd : (if strong then d.random else d.urandom) with
    | none => simp [Rk.altfill, devfill, hd, fill_length]
    | some l =>
        have hl := h l hd
        have e : l.take size = l := List.take_of_length_le hl.le
        have e' : l.length ≠ size := by omega
        have e2 : (l ++ buf.drop l.length).drop size = buf.drop size := by
          rw [List.drop_append, List.drop_of_length_le hl.le, List.nil_append, List.drop_drop]
          congr 1; omega
        simp only [Rk.altfill, devfill, hd, e, h0, e', fill_length, if_false, e2]
        simp
  have key : (∃ l, (if strong then d.random else d.urandom) = some l ∧ size ≤ l.length) ∨
      (∀ l, (if strong then d.random else d.urandom) = some l → l.length < size) := by
    by_cases h : ∃ l, (if strong then d.random else d.urandom) = some l ∧ size ≤ l.length
    · exact .inl h
    · exact .inr fun l hl => by
        by_contra hc
        exact h ⟨l, hl, by omega⟩
  refine ⟨hA, hB, ?_, ?_⟩
  · rcases key with ⟨l, hl, h⟩ | h
    · rw [hA l hl h]; simp; omega
    · rw [hB h]; simp [fill_length]; omega
  · rcases key with ⟨l, hl, h⟩ | h
    · rw [hA l hl h]
      rw [List.drop_append, List.drop_of_length_le (by simp)]
      simp [h]
    · rw [hB h, List.drop_append, List.drop_of_length_le (by rw [fill_length])]
      simp [fill_length]

/-- A device that gives three bytes: two are taken as they are, four are not. -/
example (s : Rk) : s.altfill ⟨none, some [1, 2, 3]⟩ 2 false [9, 9, 9] = (s, [1, 2, 9], true) ∧
    (s.altfill ⟨none, some [1, 2, 3]⟩ 4 false [9, 9, 9, 9]).2.2 = false ∧ (s.altfill ⟨none, some [1, 2, 3]⟩ 2 true [9, 9, 9]).2.2 = false := by
  simp [Rk.altfill, devfill]

/-- **C218, violated.**  For no bytes at all `rk_altfill` reports that the device is unavailable, although it works: `fread` of 0 bytes returns 0. -/
theorem C218_violated_empty (d : Devices) (strong : Bool) (buf : List (BitVec 8)) (s : Rk) :
    s.altfill d 0 strong buf = (s, buf, false) := by
  cases hd : (if strong then d.random else d.urandom) <;> simp [Rk.altfill, devfill, hd, Rk.fill]

theorem seedLoop_congr (cnt : ℕ) : ∀ (pos : ℤ) (seed : Word) (key key' : ℤ → Word) (i : ℤ), (key i = key' i ∨ pos ≤ i ∧ i < pos + cnt) →
    seedLoop cnt pos seed key i = seedLoop cnt pos seed key' i := by
  induction cnt with
  | zero =>
      intro pos seed key key' i h
      rcases h with h | h
      · exact h
      · omega
  | succ n ih =>
      intro pos seed key key' i h
      rw [seedLoop, seedLoop]
      apply ih
      by_cases c : i = pos
      · subst c; simp
      · rw [Function.update_of_ne c, Function.update_of_ne c]
        rcases h with h | h
        · exact .inl h
        · right; push_cast at h; omega

/-- **C218.**  `rk_randomseed` with the devices' bytes: the result is that of the seed from the device's words if it delivers 4992 bytes, and otherwise, wherever the reading stopped, that of the clocks alone; the bytes of an interrupted reading, which have overwritten part of the state, leave no trace. -/
theorem C218_randomseed (d : Devices) (pid sec usec clk : Word) (s : Rk) :
    s.randomseedDev d pid sec usec clk =
      s.randomseed (d.urandom.bind fun l => if 4992 ≤ l.length then some (wordAt l) else none) pid sec usec clk := by
  have hseed : ∀ (x : Word) (f : ℤ → Word),
      (Rk.seed x ⟨fun i => if 0 ≤ i ∧ i < 624 then f i else s.mem i, s.pos⟩) = s.seed x := by
    intro x f
    simp only [Rk.seed, Rk.mk.injEq, and_true]
    funext i
    apply seedLoop_congr
    by_cases c : 0 ≤ i ∧ i < 624
    · right; push_cast; omega
    · left; simp only [c, if_false]
  cases hd : d.urandom with
  | none =>
      simp [Rk.randomseedDev, devfill, hd, Rk.randomseed, hseed]
  | some l =>
      by_cases h : 4992 ≤ l.length
      · have e : (l.take 4992).length = 4992 := by simp [h]
        have ew : ∀ i : ℕ, i < 624 → wordAt (l.take 4992 ++ (keyBytes s).drop 4992) i = wordAt l i := by
          intro i hi
          have hg : ∀ j, j < 4992 → (l.take 4992 ++ (keyBytes s).drop 4992).getD j 0 = l.getD j 0 := by
            intro j hj
            rw [List.getD_append _ _ _ _ (by rw [e]; exact hj)]
            simp only [List.getD_eq_getElem?_getD, List.getElem?_take, hj, if_true]
          simp only [wordAt]
          rw [hg _ (by omega), hg _ (by omega), hg _ (by omega), hg _ (by omega), hg _ (by omega), hg _ (by omega), hg _ (by omega), hg _ (by omega)]
        have e1 : devfill d (8 * 624) false (keyBytes s) = (l.take 4992 ++ (keyBytes s).drop 4992, true) := by
          simp [devfill, hd, e, h]
        simp only [Rk.randomseedDev, e1, if_true, Rk.randomseed, Option.bind_some, h]
        simp only [Prod.mk.injEq, Rk.mk.injEq, and_true]
        funext i
        by_cases c : 0 ≤ i ∧ i < 624
        · by_cases c0 : i = 0
          · subst c0; simp [ew]
          · have := ew i.toNat (by omega)
            simp [c, c0, this, Function.update_of_ne c0]
        · have c0 : i ≠ 0 := by omega
          simp only [c, if_false, Function.update_of_ne c0]
      · have e : l.take 4992 = l := List.take_of_length_le (by omega)
        have e' : l.length ≠ 4992 := by omega
        have e1 : (devfill d (8 * 624) false (keyBytes s)).2 = false := by
          simp [devfill, hd, h]
        simp only [Rk.randomseedDev, e1, Bool.false_eq_true, if_false, hseed, Rk.randomseed, Option.bind_some, h]

end Verif.MC
