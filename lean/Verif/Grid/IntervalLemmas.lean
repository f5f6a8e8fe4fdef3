import Verif.Grid.Intervals
import Mathlib.Tactic.Linarith
import Mathlib.Tactic.FieldSimp
import Mathlib.Tactic.Ring
import Mathlib.Tactic.Positivity
import Mathlib.Data.List.Forall2

/-!
# Refined interval lists: helper lemmas
-/

set_option linter.unusedSectionVars false
set_option linter.unusedSimpArgs false

namespace Verif.Grid1

/-- What is used of `log` and `exp`. -/
structure LogOk {K : Type} [Field K] [LinearOrder K] (c : LogExp K) : Prop where
  ex_zero : c.ex 0 = 1
  ex_pos : ∀ a, 0 < c.ex a
  ex_add : ∀ a b, c.ex (a + b) = c.ex a * c.ex b
  ex_mono : ∀ a b, a < b → c.ex a < c.ex b
  ex_lg : ∀ x, 0 < x → c.ex (c.lg x) = x

/-- The intervals of `l`, in order, begin at `a`, are non-empty, each begins where the previous one ends, and the last ends
at `b`. -/
def Tiles {K : Type} [LT K] : K → List (Intv K) → K → Prop
  | a, [], b => a = b
  | a, I :: l, b => I.lo = a ∧ I.lo < I.hi ∧ Tiles I.hi l b

section
variable {K : Type} [Field K] [LinearOrder K] [IsStrictOrderedRing K] [FloorRing K]

theorem LogOk.mono_le {c : LogExp K} (h : LogOk c) {a b : K} (hab : a ≤ b) : c.ex a ≤ c.ex b := by
  rcases lt_or_eq_of_le hab with h1 | h1
  · exact le_of_lt (h.ex_mono a b h1)
  · rw [h1]

theorem LogOk.lt_of_ex {c : LogExp K} (h : LogOk c) {a b : K} (hab : c.ex a < c.ex b) : a < b := by
  by_contra hc
  exact absurd hab (not_lt.mpr (h.mono_le (not_lt.mp hc)))

theorem LogOk.lg_pos {c : LogExp K} (h : LogOk c) {x : K} (hx : 1 < x) : 0 < c.lg x := by
  refine h.lt_of_ex ?_
  rw [h.ex_zero, h.ex_lg x (by linarith)]; exact hx

theorem LogOk.lg_ex {c : LogExp K} (h : LogOk c) (a : K) : c.lg (c.ex a) = a := by
  have e := h.ex_lg (c.ex a) (h.ex_pos a)
  rcases lt_trichotomy (c.lg (c.ex a)) a with h1 | h1 | h1
  · exact absurd e (ne_of_lt (h.ex_mono _ _ h1))
  · exact h1
  · exact absurd e (ne_of_gt (h.ex_mono _ _ h1))

theorem LogOk.lg_mono_le {c : LogExp K} (h : LogOk c) {x y : K} (hx : 0 < x) (hxy : x ≤ y) : c.lg x ≤ c.lg y := by
  by_contra hc
  have := h.ex_mono _ _ (not_le.mp hc)
  rw [h.ex_lg x hx, h.ex_lg y (by linarith)] at this
  linarith

/-! ### Tilings -/

theorem tiles_append {a b : K} {l m : List (Intv K)} : Tiles a (l ++ m) b ↔ ∃ d, Tiles a l d ∧ Tiles d m b := by
  induction l generalizing a with
  | nil => simp [Tiles]
  | cons I l ih =>
    simp only [List.cons_append, Tiles, ih]
    constructor
    · rintro ⟨h1, h2, d, h3, h4⟩; exact ⟨d, ⟨h1, h2, h3⟩, h4⟩
    · rintro ⟨d, ⟨h1, h2, h3⟩, h4⟩; exact ⟨h1, h2, d, h3, h4⟩

theorem tiles_le {a b : K} {l : List (Intv K)} (h : Tiles a l b) : a ≤ b := by
  induction l generalizing a with
  | nil => exact le_of_eq h
  | cons I l ih =>
    obtain ⟨h1, h2, h3⟩ := h
    have := ih h3
    linarith

theorem tiles_lt {a b : K} {l : List (Intv K)} (h : Tiles a l b) (hne : l ≠ []) : a < b := by
  cases l with
  | nil => exact absurd rfl hne
  | cons I l =>
    obtain ⟨h1, h2, h3⟩ := h
    have := tiles_le h3
    linarith

theorem tiles_mem {a b : K} {l : List (Intv K)} (h : Tiles a l b) {I : Intv K} (hI : I ∈ l) : a ≤ I.lo ∧ I.lo < I.hi ∧ I.hi ≤ b := by
  induction l generalizing a with
  | nil => simp at hI
  | cons J l ih =>
    obtain ⟨h1, h2, h3⟩ := h
    rcases List.mem_cons.mp hI with rfl | hI
    · exact ⟨le_of_eq h1.symm, h2, tiles_le h3⟩
    · obtain ⟨i1, i2, i3⟩ := ih h3 hI
      exact ⟨by linarith, i2, i3⟩

/-- Every abscissa is in an interval. -/
theorem tiles_cover {a b : K} {l : List (Intv K)} (h : Tiles a l b) {x : K} (h1 : a ≤ x) (h2 : x < b) :
    ∃ I ∈ l, I.lo ≤ x ∧ x < I.hi := by
  induction l generalizing a with
  | nil => simp only [Tiles] at h; linarith
  | cons J l ih =>
    obtain ⟨h3, h4, h5⟩ := h
    by_cases hx : x < J.hi
    · exact ⟨J, by simp, by linarith, hx⟩
    · obtain ⟨I, hI, hh⟩ := ih h5 (not_lt.mp hx)
      exact ⟨I, by simp [hI], hh⟩

theorem tiles_cover' {a b : K} {l : List (Intv K)} (h : Tiles a l b) {x : K} (h1 : a < x) (h2 : x ≤ b) :
    ∃ I ∈ l, I.lo < x ∧ x ≤ I.hi := by
  induction l generalizing a with
  | nil => simp only [Tiles] at h; linarith
  | cons J l ih =>
    obtain ⟨h3, h4, h5⟩ := h
    by_cases hx : x ≤ J.hi
    · exact ⟨J, by simp, by linarith, hx⟩
    · obtain ⟨I, hI, hh⟩ := ih h5 (not_le.mp hx)
      exact ⟨I, by simp [hI], hh⟩

/-- ... in exactly one. -/
theorem tiles_unique {a b : K} {l : List (Intv K)} (h : Tiles a l b) {x : K} {I J : Intv K} (hI : I ∈ l) (hJ : J ∈ l)
    (h1 : I.lo ≤ x ∧ x < I.hi) (h2 : J.lo ≤ x ∧ x < J.hi) : I = J := by
  induction l generalizing a with
  | nil => simp at hI
  | cons M l ih =>
    obtain ⟨h3, h4, h5⟩ := h
    rcases List.mem_cons.mp hI with e1 | hI <;> rcases List.mem_cons.mp hJ with e2 | hJ
    · rw [e1, e2]
    · have := (tiles_mem h5 hJ).1
      rw [e1] at h1
      exact absurd h1.2 (not_lt.mpr (le_trans this h2.1))
    · have := (tiles_mem h5 hI).1
      rw [e2] at h2
      exact absurd h2.2 (not_lt.mpr (le_trans this h1.1))
    · exact ih h5 hI hJ

/-! ### Intervals -/

/-- A well-formed interval. -/
structure Good (c : LogExp K) (I : Intv K) : Prop where
  lt : I.lo < I.hi
  n : 2 ≤ I.n
  lin : I.isLin = true → I.step = (I.hi - I.lo) / ((I.n : K) - 1)
  log : I.isLin = false → LogOk c ∧ 0 < I.lo ∧ I.step = c.lg (I.hi / I.lo) / ((I.n : K) - 1) ∧ I.fac = c.ex I.step

theorem Good.nm1 {c : LogExp K} {I : Intv K} (h : Good c I) : (0 : K) < (I.n : K) - 1 := by
  have : ((2 : ℤ) : K) ≤ (I.n : K) := by exact_mod_cast h.n
  push_cast at this
  linarith

theorem Good.step_pos {c : LogExp K} {I : Intv K} (h : Good c I) : 0 < I.step := by
  have hn := h.nm1
  cases hl : I.isLin with
  | true =>
    rw [h.lin hl]
    have := h.lt
    exact div_pos (by linarith) hn
  | false =>
    obtain ⟨hc, h0, h1, _⟩ := h.log hl
    rw [h1]
    refine div_pos (hc.lg_pos ?_) hn
    rw [one_lt_div h0]; exact h.lt

theorem Good.span {c : LogExp K} {I : Intv K} (h : Good c I) (hl : I.isLin = true) : ((I.n : K) - 1) * I.step = I.hi - I.lo := by
  rw [h.lin hl]
  have := h.nm1
  field_simp

/-- The linear interval that `mkIntv` makes. -/
def linI (lo hi : K) (n : ℤ) : Intv K :=
  { lo := lo, hi := hi, n := n, isLin := true, step := (hi - lo) / ((n : K) - 1), fac := 0 }

theorem mkIntv_lin (c : LogExp K) (lo hi : K) {n : ℤ} (hn : 2 ≤ n) : mkIntv c lo hi n true = .ok (linI lo hi n) := by
  unfold mkIntv
  rw [if_neg (by omega)]
  rfl

theorem linI_good (c : LogExp K) {lo hi : K} {n : ℤ} (h : lo < hi) (hn : 2 ≤ n) : Good c (linI lo hi n) :=
  ⟨h, hn, fun _ => rfl, fun h => by simp [linI] at h⟩

/-- `locate` of an abscissa below the upper end. -/
theorem locate_lt {c : LogExp K} {I : Intv K} (h : Good c I) {x : K} (h1 : I.lo ≤ x) (h2 : x < I.hi) :
    0 ≤ (I.locate c x).1 ∧ (I.locate c x).1 ≤ I.n - 2 ∧ I.lo ≤ (I.locate c x).2.1 ∧ (I.locate c x).2.1 ≤ x ∧ x < (I.locate c x).2.2 ∧
      (I.locate c x).2.2 ≤ I.hi ∧
      (I.isLin = true → (I.locate c x).2.1 = I.lo + (I.locate c x).1 * I.step ∧ (I.locate c x).2.2 = (I.locate c x).2.1 + I.step) := by
  have hs := h.step_pos
  have hn := h.nm1
  cases hl : I.isLin with
  | true =>
    have hspan := h.span hl
    have hf0 : 0 ≤ ⌊(x - I.lo) / I.step⌋ := Int.floor_nonneg.mpr (div_nonneg (by linarith) (le_of_lt hs))
    have hf1 : ⌊(x - I.lo) / I.step⌋ < I.n - 1 := by
      rw [Int.floor_lt, div_lt_iff₀ hs]
      push_cast
      linarith
    have hle : (⌊(x - I.lo) / I.step⌋ : K) * I.step ≤ x - I.lo := by
      rw [← le_div_iff₀ hs]; exact Int.floor_le _
    have hlt : x - I.lo < ((⌊(x - I.lo) / I.step⌋ : K) + 1) * I.step := by
      rw [← div_lt_iff₀ hs]; exact Int.lt_floor_add_one _
    have e : I.locate c x = (⌊(x - I.lo) / I.step⌋, I.lo + ⌊(x - I.lo) / I.step⌋ * I.step, I.lo + ⌊(x - I.lo) / I.step⌋ * I.step + I.step) := by
      unfold Intv.locate
      rw [hl]
      simp only [if_true]
      rw [if_neg (by omega)]
    rw [e]
    have hf0' : (0 : K) ≤ (⌊(x - I.lo) / I.step⌋ : K) := by exact_mod_cast hf0
    have hf1' : (⌊(x - I.lo) / I.step⌋ : K) + 1 ≤ (I.n : K) - 1 := by
      have : ⌊(x - I.lo) / I.step⌋ + 1 ≤ I.n - 1 := hf1
      exact_mod_cast this
    have hnn := mul_nonneg hf0' (le_of_lt hs)
    have hmul := mul_le_mul_of_nonneg_right hf1' (le_of_lt hs)
    refine ⟨hf0, by omega, by dsimp only; linarith, by dsimp only; linarith, by dsimp only; linarith, by dsimp only; linarith,
      fun _ => ⟨rfl, rfl⟩⟩
  | false =>
    obtain ⟨hc, h0, hst, hfac⟩ := h.log hl
    have hspan : ((I.n : K) - 1) * I.step = c.lg (I.hi / I.lo) := by rw [hst]; field_simp
    have hxp : 0 < x / I.lo := div_pos (by linarith) h0
    have hlgnn : 0 ≤ c.lg (x / I.lo) := by
      have h1' : 1 ≤ x / I.lo := by rw [one_le_div h0]; exact h1
      have := hc.lg_mono_le one_pos h1'
      have h10 : c.lg 1 = 0 := by rw [← hc.ex_zero]; exact hc.lg_ex 0
      linarith
    have hlglt : c.lg (x / I.lo) < c.lg (I.hi / I.lo) := by
      refine hc.lt_of_ex ?_
      rw [hc.ex_lg _ hxp, hc.ex_lg _ (div_pos (by linarith) h0)]
      exact div_lt_div_of_pos_right h2 h0
    set f := ⌊c.lg (x / I.lo) / I.step⌋ with hf
    have hf0 : 0 ≤ f := Int.floor_nonneg.mpr (div_nonneg hlgnn (le_of_lt hs))
    have hf1 : f < I.n - 1 := by
      rw [hf, Int.floor_lt, div_lt_iff₀ hs]
      push_cast
      linarith
    have hle : (f : K) * I.step ≤ c.lg (x / I.lo) := by
      rw [← le_div_iff₀ hs]; exact Int.floor_le _
    have hlt : c.lg (x / I.lo) < ((f : K) + 1) * I.step := by
      rw [← div_lt_iff₀ hs]; exact Int.lt_floor_add_one _
    have e : I.locate c x = (f, I.lo * c.ex (f * I.step), I.lo * c.ex (f * I.step) * I.fac) := by
      unfold Intv.locate
      rw [hl]
      simp only [Bool.false_eq_true, if_false]
      rw [if_neg (by rw [← hf]; omega)]
    rw [e]
    have hf0' : (0 : K) ≤ (f : K) := by exact_mod_cast hf0
    have hf1' : (f : K) + 1 ≤ (I.n : K) - 1 := by
      have : f + 1 ≤ I.n - 1 := hf1
      exact_mod_cast this
    have hmul := mul_le_mul_of_nonneg_right hf1' (le_of_lt hs)
    have hadd : I.lo * c.ex (f * I.step) * I.fac = I.lo * c.ex ((f + 1) * I.step) := by
      rw [hfac, mul_assoc, ← hc.ex_add]; congr 2; ring
    have hxe : I.lo * c.ex (c.lg (x / I.lo)) = x := by rw [hc.ex_lg _ hxp]; field_simp
    have hhe : I.lo * c.ex (c.lg (I.hi / I.lo)) = I.hi := by
      rw [hc.ex_lg _ (div_pos (by linarith) h0)]; field_simp
    refine ⟨hf0, by dsimp only; omega, ?_, ?_, ?_, ?_, by simp⟩
    · dsimp only
      have : 1 ≤ c.ex (f * I.step) := by
        rw [← hc.ex_zero]; exact hc.mono_le (mul_nonneg hf0' (le_of_lt hs))
      nlinarith
    · dsimp only
      calc I.lo * c.ex (f * I.step) ≤ I.lo * c.ex (c.lg (x / I.lo)) := mul_le_mul_of_nonneg_left (hc.mono_le hle) (le_of_lt h0)
        _ = x := hxe
    · dsimp only
      rw [hadd]
      calc x = I.lo * c.ex (c.lg (x / I.lo)) := hxe.symm
        _ < I.lo * c.ex ((f + 1) * I.step) := mul_lt_mul_of_pos_left (hc.ex_mono _ _ hlt) h0
    · dsimp only
      rw [hadd]
      calc I.lo * c.ex ((f + 1) * I.step) ≤ I.lo * c.ex (c.lg (I.hi / I.lo)) := by
            refine mul_le_mul_of_nonneg_left (hc.mono_le ?_) (le_of_lt h0)
            linarith
        _ = I.hi := hhe

/-- `locate` of the upper end. -/
theorem locate_hi {c : LogExp K} {I : Intv K} (h : Good c I) : I.locate c I.hi = (I.n - 1, I.hi, I.hi) := by
  have hs := h.step_pos
  cases hl : I.isLin with
  | true =>
    have hspan := h.span hl
    have e : (I.hi - I.lo) / I.step = ((I.n - 1 : ℤ) : K) := by
      rw [← hspan]; push_cast; field_simp
    unfold Intv.locate
    rw [hl]
    simp only [if_true, e, Int.floor_intCast]
    push_cast
    rw [hspan]
    simp
  | false =>
    obtain ⟨hc, h0, hst, hfac⟩ := h.log hl
    have hn := h.nm1
    have hspan : ((I.n : K) - 1) * I.step = c.lg (I.hi / I.lo) := by rw [hst]; field_simp
    have e : c.lg (I.hi / I.lo) / I.step = ((I.n - 1 : ℤ) : K) := by
      rw [← hspan]; push_cast; field_simp
    unfold Intv.locate
    rw [hl]
    simp only [Bool.false_eq_true, if_false, e, Int.floor_intCast]
    push_cast
    rw [hspan, hc.ex_lg _ (div_pos (by linarith [h.lt]) h0)]
    have : I.lo * (I.hi / I.lo) = I.hi := by field_simp
    rw [this]

/-! ### Point counts -/

theorem numPts_two {c : LogExp K} {s : RIL K} {lo hi st : K} (hlt : lo < hi) (hst : 0 < st)
    (hlog : s.isLin = false → LogOk c ∧ 0 < lo) : 2 ≤ s.numPts c lo hi st := by
  unfold RIL.numPts
  split_ifs with hl
  · have : 0 < ⌈(hi - lo) / st⌉ := Int.ceil_pos.mpr (div_pos (by linarith) hst)
    omega
  · obtain ⟨hc, h0⟩ := hlog (by simpa using hl)
    have : 0 < ⌈c.lg (hi / lo) / st⌉ := Int.ceil_pos.mpr (div_pos (hc.lg_pos (by rw [one_lt_div h0]; exact hlt)) hst)
    omega

/-- The step of an interval made to have steps of at most `st`. -/
theorem numPts_step {c : LogExp K} {s : RIL K} (hl : s.isLin = true) {lo hi st : K} (hlt : lo < hi) (hst : 0 < st) :
    (linI lo hi (s.numPts c lo hi st)).step ≤ st := by
  unfold RIL.numPts linI
  rw [if_pos hl]
  dsimp only
  have h0 : 0 < (hi - lo) / st := div_pos (by linarith) hst
  have h1 : (hi - lo) / st ≤ (⌈(hi - lo) / st⌉ : K) := Int.le_ceil _
  push_cast
  rw [add_sub_cancel_right, div_le_iff₀ (lt_of_lt_of_le h0 h1)]
  rw [div_le_iff₀ hst] at h1
  linarith

/-- The step of an interval whose length is a multiple of `st`. -/
theorem numPts_exact {c : LogExp K} {s : RIL K} (hl : s.isLin = true) {lo hi st : K} (hst : 0 < st) (k : ℤ)
    (hk : hi - lo = k * st) (hlt : lo < hi) : (linI lo hi (s.numPts c lo hi st)).step = st := by
  have hk0 : (0 : K) < k := by
    by_contra hc
    have : (k : K) * st ≤ 0 := mul_nonpos_of_nonpos_of_nonneg (not_lt.mp hc) (le_of_lt hst)
    linarith
  unfold RIL.numPts linI
  rw [if_pos hl]
  dsimp only
  have : (hi - lo) / st = (k : K) := by rw [hk]; field_simp
  rw [this, Int.ceil_intCast]
  push_cast
  rw [add_sub_cancel_right, hk]
  field_simp

end
end Verif.Grid1
