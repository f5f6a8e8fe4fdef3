import Verif.MC.TwisterLemmas

/-! # Steps of the Mersenne Twister are reversible: lemmas -/

set_option linter.unusedSectionVars false

namespace Verif.MC

/-! ## Tempering -/

theorem xor_shr_inj {w n : ℕ} (hn : 0 < n) {a b : BitVec w} (h : a ^^^ (a >>> n) = b ^^^ (b >>> n)) : a = b := by
  have key : ∀ k i : ℕ, w ≤ i + k → a.getLsbD i = b.getLsbD i := by
    intro k
    induction k using Nat.strong_induction_on with
    | _ k ih =>
      intro i hi
      by_cases c : w ≤ i
      · rw [BitVec.getLsbD_of_ge a i c, BitVec.getLsbD_of_ge b i c]
      · have e := congrArg (fun z => z.getLsbD i) h
        simp only [BitVec.getLsbD_xor, BitVec.getLsbD_ushiftRight] at e
        rw [ih (k - n) (by omega) (n + i) (by omega)] at e
        simpa using e
  exact BitVec.eq_of_getLsbD_eq fun i _ => key w i (by omega)

theorem xor_shl_inj {w n : ℕ} (hn : 0 < n) {a b m : BitVec w} (h : a ^^^ ((a <<< n) &&& m) = b ^^^ ((b <<< n) &&& m)) : a = b := by
  have key : ∀ i : ℕ, i < w → a.getLsbD i = b.getLsbD i := by
    intro i
    induction i using Nat.strong_induction_on with
    | _ i ih =>
      intro hi
      have e := congrArg (fun z => z.getLsbD i) h
      simp only [BitVec.getLsbD_xor, BitVec.getLsbD_and, BitVec.getLsbD_shiftLeft] at e
      by_cases c : i < n
      · simpa [c] using e
      · rw [ih (i - n) (by omega) (by omega)] at e
        simpa using e
  exact BitVec.eq_of_getLsbD_eq fun i hi => key i hi

theorem temper_inj : Function.Injective MT.temper := by
  intro a b h
  unfold MT.temper at h
  dsimp only at h
  exact xor_shr_inj (by norm_num) (xor_shl_inj (by norm_num) (xor_shl_inj (by norm_num) (xor_shr_inj (by norm_num) h)))

theorem temper_zero : MT.temper 0 = 0 := by decide

/-! ## The recurrence -/

/-- The linear map in the recurrence. -/
def lin (y : BitVec 32) : BitVec 32 := (y >>> 1) ^^^ (if y.getLsbD 0 then 0x9908b0df#32 else 0#32)

theorem lin_inj : Function.Injective lin := by
  intro a b h
  have top : ∀ y : BitVec 32, (lin y).getLsbD 31 = y.getLsbD 0 := by
    intro y
    unfold lin
    rw [BitVec.getLsbD_xor, BitVec.getLsbD_ushiftRight, BitVec.getLsbD_of_ge y (1 + 31) (by norm_num)]
    cases y.getLsbD 0 <;> rfl
  have h0 : a.getLsbD 0 = b.getLsbD 0 := by rw [← top, ← top, h]
  unfold lin at h
  rw [h0] at h
  have hs : a >>> 1 = b >>> 1 := by
    have := congrArg (fun z => z ^^^ (if b.getLsbD 0 then 0x9908b0df#32 else 0#32)) h
    simpa [BitVec.xor_assoc] using this
  apply BitVec.eq_of_getLsbD_eq
  intro i _
  cases i with
  | zero => exact h0
  | succ i =>
    have := congrArg (fun z => z.getLsbD i) hs
    simp only [BitVec.getLsbD_ushiftRight] at this
    rw [show i + 1 = 1 + i by omega]
    exact this

/-- The upper bit of one word and the lower bits of the next. -/
def mix (u v : BitVec 32) : BitVec 32 := (u &&& 0x80000000#32) ||| (v &&& 0x7fffffff#32)

theorem next_eq (u v m : BitVec 32) : MT.next u v m = m ^^^ lin (mix u v) := by
  unfold MT.next lin mix
  dsimp only
  rw [BitVec.xor_assoc]

theorem upper_bit (i : ℕ) (_h : i < 32) : (0x80000000#32).getLsbD i = decide (i = 31) := by
  interval_cases i <;> rfl

theorem lower_bit (i : ℕ) (_h : i < 32) : (0x7fffffff#32).getLsbD i = decide (i < 31) := by
  interval_cases i <;> rfl

theorem mix_upper {u v u' v' : BitVec 32} (h : mix u v = mix u' v') : u.getLsbD 31 = u'.getLsbD 31 := by
  have := congrArg (fun z => z.getLsbD 31) h
  simp only [mix, BitVec.getLsbD_or, BitVec.getLsbD_and, upper_bit 31 (by norm_num), lower_bit 31 (by norm_num)] at this
  simpa using this

theorem mix_lower {u v u' v' : BitVec 32} (h : mix u v = mix u' v') (hv : v.getLsbD 31 = v'.getLsbD 31) : v = v' := by
  apply BitVec.eq_of_getLsbD_eq
  intro i hi
  by_cases c : i = 31
  · subst c; exact hv
  · have := congrArg (fun z => z.getLsbD i) h
    simp only [mix, BitVec.getLsbD_or, BitVec.getLsbD_and, upper_bit i hi, lower_bit i hi] at this
    simpa [c, show i < 31 by omega] using this

theorem mix_congr {u u' v : BitVec 32} (h : u.getLsbD 31 = u'.getLsbD 31) : mix u v = mix u' v := by
  apply BitVec.eq_of_getLsbD_eq
  intro i hi
  simp only [mix, BitVec.getLsbD_or, BitVec.getLsbD_and, upper_bit i hi]
  by_cases c : i = 31
  · subst c; rw [h]
  · simp [c]

/-- Two places whose windows agree in the 19937 bits that matter. -/
def Ess (x y : ℕ → BitVec 32) (n m : ℕ) : Prop :=
  (x n).getLsbD 31 = (y m).getLsbD 31 ∧ ∀ j, 1 ≤ j → j < 624 → x (n + j) = y (m + j)

section
variable {x y : ℕ → BitVec 32} (hx : ∀ n, x (n + 624) = MT.next (x n) (x (n + 1)) (x (n + 397)))
  (hy : ∀ n, y (n + 624) = MT.next (y n) (y (n + 1)) (y (n + 397)))
include hx hy

theorem Ess.fwd {n m : ℕ} (h : Ess x y n m) : Ess x y (n + 1) (m + 1) := by
  refine ⟨by rw [h.2 1 le_rfl (by norm_num)], fun j h1 h2 => ?_⟩
  by_cases c : j = 623
  · subst c
    rw [show n + 1 + 623 = n + 624 by omega, show m + 1 + 623 = m + 624 by omega, hx, hy, next_eq, next_eq, h.2 1 le_rfl (by norm_num),
      h.2 397 (by norm_num) (by norm_num), mix_congr h.1]
  · have := h.2 (j + 1) (by omega) (by omega)
    rw [show n + 1 + j = n + (j + 1) by omega, show m + 1 + j = m + (j + 1) by omega, this]

theorem Ess.back {n m : ℕ} (h : Ess x y (n + 1) (m + 1)) : Ess x y n m := by
  have e1 := h.2 623 (by norm_num) (by norm_num)
  rw [show n + 1 + 623 = n + 624 by omega, show m + 1 + 623 = m + 624 by omega, hx, hy, next_eq, next_eq] at e1
  have e2 := h.2 396 (by norm_num) (by norm_num)
  rw [show n + 1 + 396 = n + 397 by omega, show m + 1 + 396 = m + 397 by omega] at e2
  rw [e2] at e1
  have e3 : mix (x n) (x (n + 1)) = mix (y m) (y (m + 1)) := lin_inj (by
    have := congrArg (fun z => y (m + 397) ^^^ z) e1
    simpa [← BitVec.xor_assoc] using this)
  refine ⟨mix_upper e3, fun j h1 h2 => ?_⟩
  by_cases c : j = 1
  · subst c; exact mix_lower e3 h.1
  · have := h.2 (j - 1) (by omega) (by omega)
    rw [show n + 1 + (j - 1) = n + j by omega, show m + 1 + (j - 1) = m + j by omega] at this
    exact this

theorem Ess.fwds {n m : ℕ} (h : Ess x y n m) (k : ℕ) : Ess x y (n + k) (m + k) := by
  induction k with
  | zero => exact h
  | succ k ih => exact Ess.fwd hx hy ih

theorem Ess.backs {n m : ℕ} (k : ℕ) (h : Ess x y (n + k) (m + k)) : Ess x y n m := by
  induction k with
  | zero => exact h
  | succ k ih => exact ih (Ess.back hx hy h)

end

instance : Finite (BitVec 32) := Finite.of_injective BitVec.toFin fun _ _ h => BitVec.eq_of_toFin_eq h

theorem periodic {x : ℕ → BitVec 32} (hx : ∀ n, x (n + 624) = MT.next (x n) (x (n + 1)) (x (n + 397))) :
    ∃ T, 0 < T ∧ ∀ n, 1 ≤ n → x (n + T) = x n := by
  obtain ⟨a, b, hab, e⟩ := Finite.exists_ne_map_eq_of_infinite (fun n (j : Fin 624) => x (n + j))
  have main : ∀ a b : ℕ, a < b → (fun (j : Fin 624) => x (a + j)) = (fun (j : Fin 624) => x (b + j)) →
      ∃ T, 0 < T ∧ ∀ n, 1 ≤ n → x (n + T) = x n := by
    intro a b l e
    have h : Ess x x (0 + a) (b - a + a) := by
      refine ⟨?_, fun j _ h2 => ?_⟩
      · have := congrFun e ⟨0, by norm_num⟩
        simp only [Nat.add_zero] at this
        rw [Nat.zero_add, Nat.sub_add_cancel l.le, this]
      · have := congrFun e ⟨j, h2⟩
        simp only at this
        rw [Nat.zero_add, Nat.sub_add_cancel l.le, this]
    have h0 := Ess.backs hx hx a h
    refine ⟨b - a, by omega, fun n hn => ?_⟩
    have := (Ess.fwds hx hx h0 (n - 1)).2 1 le_rfl (by norm_num)
    rw [show 0 + (n - 1) + 1 = n by omega, show b - a + (n - 1) + 1 = n + (b - a) by omega] at this
    exact this.symm
  rcases lt_or_gt_of_ne hab with l | l
  · exact main a b l e
  · exact main b a l e.symm

theorem alive {x : ℕ → BitVec 32} (hx : ∀ n, x (n + 624) = MT.next (x n) (x (n + 1)) (x (n + 397)))
    (h0 : (x 0).getLsbD 31 = true ∨ ∃ j, 1 ≤ j ∧ j < 624 ∧ x j ≠ 0) (n : ℕ) : ∃ k, n ≤ k ∧ k < n + 624 ∧ x k ≠ 0 := by
  by_contra c
  push Not at c
  have hz : ∀ n : ℕ, (fun _ : ℕ => (0 : BitVec 32)) (n + 624) = MT.next 0 0 0 := by intro _; exact (by decide : (0 : BitVec 32) = MT.next 0 0 0)
  have h : Ess x (fun _ => 0) (0 + n) (0 + n) := by
    refine ⟨?_, fun j _ h2 => c _ (by omega) (by omega)⟩
    rw [Nat.zero_add, c n le_rfl (by omega)]
  have e := Ess.backs hx hz n h
  rcases h0 with h0 | ⟨j, h1, h2, h3⟩
  · have := e.1
    rw [h0] at this
    exact absurd this (by decide)
  · apply h3
    have := e.2 j h1 h2
    rwa [Nat.zero_add] at this

end Verif.MC
