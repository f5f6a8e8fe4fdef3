import Verif.Deriv.ObsInfo
import Mathlib.Algebra.BigOperators.Group.Finset.Basic
import Mathlib.Algebra.BigOperators.Ring.Finset
import Mathlib.Algebra.BigOperators.Intervals
import Mathlib.Algebra.BigOperators.Field
import Mathlib.Algebra.Order.BigOperators.Group.Finset
import Mathlib.Tactic.Linarith
import Mathlib.Tactic.FieldSimp
import Mathlib.Tactic.Ring
import Mathlib.Tactic.NormNum

/-!
# Lemmas about the observed information
-/

set_option linter.unusedSectionVars false
set_option linter.unusedSimpArgs false

namespace Verif.Obs

open Finset

@[simp] theorem put_self (x : Vec) (i : ℕ) (v : ℝ) : put x i v i = v := by simp [put]
theorem put_ne (x : Vec) {i k : ℕ} (v : ℝ) (h : k ≠ i) : put x i v k = x k := by simp [put, h]
theorem put_put (x : Vec) (i : ℕ) (v w : ℝ) : put (put x i v) i w = put x i w := by
  funext k; unfold put; split_ifs <;> rfl
theorem put_get (x : Vec) (i : ℕ) : put x i (x i) = x := by
  funext k; unfold put; split_ifs with h
  · rw [h]
  · rfl
theorem put_comm (x : Vec) {i j : ℕ} (v w : ℝ) (h : i ≠ j) : put (put x i v) j w = put (put x j w) i v := by
  funext k; unfold put; split_ifs <;> simp_all
@[simp] theorem put2_self (a : ℕ → ℕ → ℝ) (i j : ℕ) (v : ℝ) : put2 a i j v i j = v := by simp [put2]
theorem put2_ne (a : ℕ → ℕ → ℝ) {i j k l : ℕ} (v : ℝ) (h : ¬ (k = i ∧ l = j)) : put2 a i j v k l = a k l := by simp [put2, h]

/-! ## Extrapolation -/

/-- The table of extrapolated values: `tab c y n j i`, for the factor `c` between squares of steps. -/
noncomputable def tab (c : ℝ) (y : Vec) (n : ℕ) : ℕ → ℕ → ℝ
  | 0, _ => 0
  | 1, i => y (n - i + 1)
  | j + 2, i => (tab c y n (j + 1) i * c ^ (j + 1) - tab c y n (j + 1) (i - 1)) / (c ^ (j + 1) - 1)

/-- The error assigned to an entry of the table. -/
noncomputable def terr (c : ℝ) (y : Vec) (n j i : ℕ) : ℝ := max |tab c y n j i - tab c y n (j - 1) i| |tab c y n j i - tab c y n (j - 1) (i - 1)|

/-- What holds when the entries of columns before `i` and, in column `i`, of rows before `j` are done. -/
structure RInv (c : ℝ) (y : Vec) (n : ℕ) (junk : ℝ) (i j : ℕ) (s : Rid) : Prop where
  htab : ∀ i' j', 1 ≤ j' → j' ≤ i' → (i' < i ∨ (i' = i ∧ j' < j)) → s.a j' i' = tab c y n j' i'
  le : s.err ≤ 10 ^ 30
  min : ∀ i' j', 2 ≤ j' → j' ≤ i' → (i' < i ∨ (i' = i ∧ j' < j)) → s.err ≤ terr c y n j' i'
  res : (s.err = 10 ^ 30 ∧ s.result = junk ∧ ∀ i' j', 2 ≤ j' → j' ≤ i' → (i' < i ∨ (i' = i ∧ j' < j)) → 10 ^ 30 < terr c y n j' i') ∨
    ∃ i' j', 2 ≤ j' ∧ j' ≤ i' ∧ (i' < i ∨ (i' = i ∧ j' < j)) ∧ s.result = tab c y n j' i' ∧ s.err = terr c y n j' i' ∧
      ∀ a b, 2 ≤ b → b ≤ a → (a < i ∨ (a = i ∧ b < j)) → (i' < a ∨ (a = i' ∧ j' < b)) → s.err < terr c y n b a

theorem ridIn_inv {c : ℝ} {y : Vec} {n : ℕ} {junk : ℝ} {i : ℕ} : ∀ (cnt j : ℕ) (s : Rid), 2 ≤ j → j + cnt = i + 1 → RInv c y n junk i j s →
    RInv c y n junk i (i + 1) (ridIn c i cnt j (c ^ (j - 1)) s) := by
  intro cnt
  induction cnt with
  | zero =>
    intro j s hj hc h
    have : j = i + 1 := by omega
    subst this
    exact h
  | succ cnt ih =>
    intro j s hj hc h
    obtain ⟨j, rfl⟩ : ∃ k, j = k + 2 := ⟨j - 2, by omega⟩
    have e1 : s.a (j + 1) i = tab c y n (j + 1) i := h.htab i (j + 1) (by omega) (by omega) (Or.inr ⟨rfl, by omega⟩)
    have e2 : s.a (j + 1) (i - 1) = tab c y n (j + 1) (i - 1) := h.htab (i - 1) (j + 1) (by omega) (by omega) (Or.inl (by omega))
    have e3 : (s.a (j + 1) i * c ^ (j + 1) - s.a (j + 1) (i - 1)) / (c ^ (j + 1) - 1) = tab c y n (j + 2) i := by rw [e1, e2, tab]
    rw [ridIn]
    simp only [show j + 2 - 1 = j + 1 by omega]
    rw [e3]
    have a1 : put2 s.a (j + 2) i (tab c y n (j + 2) i) (j + 1) i = tab c y n (j + 1) i := by rw [put2_ne _ _ (by omega), e1]
    have a2 : put2 s.a (j + 2) i (tab c y n (j + 2) i) (j + 1) (i - 1) = tab c y n (j + 1) (i - 1) := by rw [put2_ne _ _ (by omega), e2]
    rw [a1, a2]
    have et : max |tab c y n (j + 2) i - tab c y n (j + 1) i| |tab c y n (j + 2) i - tab c y n (j + 1) (i - 1)| = terr c y n (j + 2) i := by
      unfold terr; simp only [show j + 2 - 1 = j + 1 by omega]
    rw [et, show c * c ^ (j + 1) = c ^ (j + 2 + 1 - 1) by rw [show j + 2 + 1 - 1 = (j + 1) + 1 by omega, pow_succ]; ring]
    apply ih (j + 2 + 1) _ (by omega) (by omega)
    have htab : ∀ i' j', 1 ≤ j' → j' ≤ i' → (i' < i ∨ (i' = i ∧ j' < j + 2 + 1)) → put2 s.a (j + 2) i (tab c y n (j + 2) i) j' i' = tab c y n j' i' := by
      intro i' j' h1 h2 h3
      by_cases hh : j' = j + 2 ∧ i' = i
      · rw [hh.1, hh.2, put2_self]
      · rw [put2_ne _ _ hh]; exact h.htab i' j' h1 h2 (by omega)
    split_ifs with hle
    · refine ⟨htab, hle.trans h.le, ?_, Or.inr ⟨i, j + 2, by omega, by omega, Or.inr ⟨rfl, by omega⟩, rfl, rfl, fun a b _ _ _ _ => by omega⟩⟩
      intro i' j' h1 h2 h3
      by_cases hh : j' = j + 2 ∧ i' = i
      · rw [hh.1, hh.2]
      · exact hle.trans (h.min i' j' h1 h2 (by omega))
    · have hlt := not_le.1 hle
      refine ⟨htab, h.le, ?_, ?_⟩
      · intro i' j' h1 h2 h3
        by_cases hh : j' = j + 2 ∧ i' = i
        · rw [hh.1, hh.2]; exact hlt.le
        · exact h.min i' j' h1 h2 (by omega)
      · rcases h.res with ⟨r1, r2, r3⟩ | ⟨i', j', h1, h2, h3, h4, h5, h6⟩
        · refine Or.inl ⟨r1, r2, ?_⟩
          intro i' j' h1 h2 h3
          by_cases hh : j' = j + 2 ∧ i' = i
          · rw [hh.1, hh.2, ← r1]; exact hlt
          · exact r3 i' j' h1 h2 (by omega)
        · refine Or.inr ⟨i', j', h1, h2, by omega, h4, h5, fun a b a1 a2 a3 a4 => ?_⟩
          by_cases hh : b = j + 2 ∧ a = i
          · rw [hh.1, hh.2]; exact hlt
          · exact h6 a b a1 a2 (by omega) a4

/-- What the extrapolation returns: `m` is the last column that is used. -/
structure RSpec (c : ℝ) (y : Vec) (n : ℕ) (junk : ℝ) (m : ℕ) (s : Rid) : Prop where
  stop : m = n ∨ 2 * s.err ≤ |tab c y n m m - tab c y n (m - 1) (m - 1)|
  go : ∀ i, 2 ≤ i → i < m → ∃ e, e < 10 ^ 30 + 1 ∧ |tab c y n i i - tab c y n (i - 1) (i - 1)| < 2 * e ∧ ∀ i' j', 2 ≤ j' → j' ≤ i' → i' ≤ i → e ≤ terr c y n j' i'
  le : s.err ≤ 10 ^ 30
  min : ∀ i' j', 2 ≤ j' → j' ≤ i' → i' ≤ m → s.err ≤ terr c y n j' i'
  res : (s.err = 10 ^ 30 ∧ s.result = junk ∧ ∀ i' j', 2 ≤ j' → j' ≤ i' → i' ≤ m → 10 ^ 30 < terr c y n j' i') ∨
    ∃ i' j', 2 ≤ j' ∧ j' ≤ i' ∧ i' ≤ m ∧ s.result = tab c y n j' i' ∧ s.err = terr c y n j' i' ∧
      ∀ a b, 2 ≤ b → b ≤ a → a ≤ m → (i' < a ∨ (a = i' ∧ j' < b)) → s.err < terr c y n b a

theorem ridOut_spec {c : ℝ} {y : Vec} {n : ℕ} {junk : ℝ} : ∀ (cnt i : ℕ) (s : Rid), 2 ≤ i → i + cnt = n + 1 → RInv c y n junk (i - 1) i s →
    (∀ k, 2 ≤ k → k < i → ∃ e, e < 10 ^ 30 + 1 ∧ |tab c y n k k - tab c y n (k - 1) (k - 1)| < 2 * e ∧ ∀ i' j', 2 ≤ j' → j' ≤ i' → i' ≤ k → e ≤ terr c y n j' i') →
    ∃ m, i - 1 ≤ m ∧ m ≤ n ∧ (0 < cnt → i ≤ m) ∧ RSpec c y n junk m (ridOut c y n cnt i s) := by
  intro cnt
  induction cnt with
  | zero =>
    intro i s hi hc h hgo
    refine ⟨i - 1, le_rfl, by omega, by omega, Or.inl (by omega), fun k h1 h2 => hgo k h1 (by omega), h.le, fun i' j' h1 h2 h3 => h.min i' j' h1 h2 (by omega), ?_⟩
    rcases h.res with ⟨r1, r2, r3⟩ | ⟨i', j', h1, h2, h3, h4, h5, h6⟩
    · exact Or.inl ⟨r1, r2, fun i' j' h1 h2 h3 => r3 i' j' h1 h2 (by omega)⟩
    · exact Or.inr ⟨i', j', h1, h2, by omega, h4, h5, fun a b a1 a2 a3 a4 => h6 a b a1 a2 (by omega) a4⟩
  | succ cnt ih =>
    intro i s hi hc h hgo
    rw [ridOut]
    have h0 : RInv c y n junk i 2 { s with a := put2 s.a 1 i (y (n - i + 1)) } := by
      refine ⟨?_, h.le, fun i' j' h1 h2 h3 => h.min i' j' h1 h2 (by omega), ?_⟩
      · intro i' j' h1 h2 h3
        by_cases hh : j' = 1 ∧ i' = i
        · dsimp only
          rw [hh.1, hh.2, put2_self, tab]
        · dsimp only
          rw [put2_ne _ _ hh]; exact h.htab i' j' h1 h2 (by omega)
      · rcases h.res with ⟨r1, r2, r3⟩ | ⟨i', j', h1, h2, h3, h4, h5, h6⟩
        · exact Or.inl ⟨r1, r2, fun i' j' h1 h2 h3 => r3 i' j' h1 h2 (by omega)⟩
        · exact Or.inr ⟨i', j', h1, h2, by omega, h4, h5, fun a b a1 a2 a3 a4 => h6 a b a1 a2 (by omega) a4⟩
    have h1 := ridIn_inv (i - 1) 2 _ le_rfl (by omega) h0
    rw [show (2 : ℕ) - 1 = 1 from rfl, pow_one] at h1
    generalize ridIn c i (i - 1) 2 c { s with a := put2 s.a 1 i (y (n - i + 1)) } = s1 at h1 ⊢
    rw [h1.htab i i (by omega) le_rfl (Or.inr ⟨rfl, by omega⟩), h1.htab (i - 1) (i - 1) (by omega) le_rfl (Or.inl (by omega))]
    split_ifs with hs
    · refine ⟨i, by omega, by omega, fun _ => le_rfl, Or.inr hs, hgo, h1.le, fun i' j' a b d => h1.min i' j' a b (by omega), ?_⟩
      rcases h1.res with ⟨r1, r2, r3⟩ | ⟨i', j', h1, h2, h3, h4, h5, h6⟩
      · exact Or.inl ⟨r1, r2, fun i' j' a b d => r3 i' j' a b (by omega)⟩
      · exact Or.inr ⟨i', j', h1, h2, by omega, h4, h5, fun a b a1 a2 a3 a4 => h6 a b a1 a2 (by omega) a4⟩
    · obtain ⟨m, a, b, d, e⟩ := ih (i + 1) s1 (by omega) (by omega) (by simpa using h1) (by
        intro k k1 k2
        by_cases hk : k = i
        · subst hk
          exact ⟨s1.err, by have := h1.le; linarith, not_le.1 hs, fun i' j' a b d => h1.min i' j' a b (by omega)⟩
        · exact hgo k k1 (by omega))
      exact ⟨m, by omega, b, by omega, e⟩

/-- What `rid_ex` returns, for at least two values. -/
theorem ridEx_spec (rat : ℝ) (y : Vec) {n : ℕ} (hn : 2 ≤ n) (junk : (ℕ → ℕ → ℝ) × ℝ) :
    ∃ m, 2 ≤ m ∧ m ≤ n ∧ RSpec (1 / rat * (1 / rat)) y n junk.2 m (ridEx rat y n junk) := by
  have h0 : RInv (1 / rat * (1 / rat)) y n junk.2 1 2 ⟨put2 junk.1 1 1 (y n), 10 ^ 30, junk.2⟩ := by
    refine ⟨?_, le_rfl, fun i' j' h1 h2 h3 => by omega, Or.inl ⟨rfl, rfl, fun i' j' h1 h2 h3 => by omega⟩⟩
    intro i' j' h1 h2 h3
    have : i' = 1 ∧ j' = 1 := by omega
    rw [this.1, this.2, tab]
    dsimp only
    rw [put2_self]; congr 1; omega
  obtain ⟨m, a, b, d, e⟩ := ridOut_spec (n - 1) 2 _ le_rfl (by omega) h0 (fun k a b => by omega)
  exact ⟨m, d (by omega), b, e⟩

/-! ## Polynomials -/

/-- The factor of the power `m` after `j - 1` extrapolations. -/
noncomputable def lam (c : ℝ) (m : ℕ) : ℕ → ℝ
  | 0 => 0
  | 1 => 1
  | j + 2 => lam c m (j + 1) * (c ^ (j + 1) - c ^ m) / (c ^ (j + 1) - 1)

theorem lam_zero {c : ℝ} (hc : 1 < c) (j : ℕ) : lam c 0 (j + 1) = 1 := by
  induction j with
  | zero => rfl
  | succ j ih =>
    rw [lam, ih, pow_zero, one_mul]
    have : 1 < c ^ (j + 1) := one_lt_pow₀ hc (by omega)
    exact div_self (by linarith)

theorem lam_gone {c : ℝ} {m : ℕ} (hm : 0 < m) : ∀ j, m < j → lam c m j = 0 := by
  intro j hj
  obtain ⟨k, rfl⟩ : ∃ k, j = m + 1 + k := ⟨j - (m + 1), by omega⟩
  induction k with
  | zero =>
    obtain ⟨m, rfl⟩ : ∃ q, m = q + 1 := ⟨m - 1, by omega⟩
    rw [show m + 1 + 1 + 0 = m + 2 by omega, lam, sub_self, mul_zero, zero_div]
  | succ k ih =>
    obtain ⟨q, hq⟩ : ∃ q, m + 1 + k = q + 1 := ⟨m + k, by omega⟩
    rw [show m + 1 + (k + 1) = q + 2 by omega, lam, ← hq, ih (by omega), zero_mul, zero_div]

theorem tab_poly {c : ℝ} (hc : 1 < c) {y : Vec} {n k : ℕ} {p : ℕ → ℝ} {x : ℕ → ℝ} (hx : ∀ i, 2 ≤ i → x (i - 1) = c * x i)
    (hy : ∀ i, 1 ≤ i → i ≤ n → y (n - i + 1) = ∑ m ∈ range (k + 1), p m * x i ^ m) :
    ∀ j, 1 ≤ j → ∀ i, j ≤ i → i ≤ n → tab c y n j i = ∑ m ∈ range (k + 1), p m * lam c m j * x i ^ m := by
  intro j hj
  obtain ⟨j, rfl⟩ : ∃ q, j = q + 1 := ⟨j - 1, by omega⟩
  induction j with
  | zero =>
    intro i h1 h2
    rw [tab, hy i h1 h2]
    exact sum_congr rfl fun m _ => by rw [lam, mul_one]
  | succ j ih =>
    intro i h1 h2
    rw [show j + 1 + 1 = j + 2 by omega, tab, ih (by omega) i (by omega) h2, ih (by omega) (i - 1) (by omega) (by omega), sum_mul, ← sum_sub_distrib, sum_div]
    refine sum_congr rfl fun m _ => ?_
    rw [lam, hx i (by omega), mul_pow]
    ring

theorem tab_exact {c : ℝ} (hc : 1 < c) {y : Vec} {n k : ℕ} {p : ℕ → ℝ} {x : ℕ → ℝ} (hx : ∀ i, 2 ≤ i → x (i - 1) = c * x i)
    (hy : ∀ i, 1 ≤ i → i ≤ n → y (n - i + 1) = ∑ m ∈ range (k + 1), p m * x i ^ m) {j i : ℕ} (hj : k < j) (h1 : j ≤ i) (h2 : i ≤ n) : tab c y n j i = p 0 := by
  rw [tab_poly hc hx hy j (by omega) i h1 h2, sum_eq_single 0]
  · obtain ⟨q, rfl⟩ : ∃ q, j = q + 1 := ⟨j - 1, by omega⟩
    rw [lam_zero hc, pow_zero]; ring
  · intro m hm h0
    rw [mem_range] at hm
    rw [lam_gone (by omega) j (by omega)]; ring
  · intro h; simp at h

/-! ## Second differences -/

theorem diffs_local {lf : LogF} {lfmax : ℝ} {move : ℝ → Vec → Vec} {h : ℕ → ℝ} {P : ℝ → Vec} {F : ℝ → ℝ} {D : ℝ → Prop} (h1 : ∀ s t, move t (P s) = P t) (hF : ∀ t, D t → lf (P t) = .ok (F t)) :
    ∀ (cnt k : ℕ) (mu d : Vec), (∀ j, k ≤ j → j < k + cnt → h j ≠ 0 ∧ D (h j) ∧ D (-(h j))) → (∀ t, move t mu = P t) →
    ∃ mu' d', diffs lf lfmax move h cnt k mu d = (mu', .ok d') ∧ (mu' = mu ∨ ∃ s, mu' = P s) ∧
      (∀ j, k ≤ j → j < k + cnt → d' j = (F (h j) + F (-(h j)) - 2 * lfmax) / h j ^ 2) ∧ ∀ j, j < k → d' j = d j := by
  intro cnt
  induction cnt with
  | zero => exact fun k mu d _ _ => ⟨mu, d, rfl, Or.inl rfl, fun j a b => by omega, fun _ _ => rfl⟩
  | succ cnt ih =>
    intro k mu d hh h0
    rw [diffs]
    dsimp only
    obtain ⟨z1, z2, z3⟩ := hh k le_rfl (by omega)
    rw [h0, hF _ z2, h1]
    dsimp only
    rw [hF _ z3]
    dsimp only
    rw [if_neg z1]
    obtain ⟨mu', d', e, hmu, hd, hd'⟩ := ih (k + 1) (P (-(h k))) (put d k ((F (h k) + F (-(h k)) - 2 * lfmax) / h k ^ 2)) (fun j a b => hh j (by omega) (by omega)) (fun t => h1 _ t)
    refine ⟨mu', d', e, Or.inr ?_, ?_, ?_⟩
    · rcases hmu with rfl | hmu
      · exact ⟨_, rfl⟩
      · exact hmu
    · intro j a b
      by_cases hj : j = k
      · subst hj; rw [hd' j (by omega), put_self]
      · exact hd j (by omega) (by omega)
    · intro j a
      rw [hd' j (by omega), put_ne _ _ (by omega)]

theorem diffs_spec {lf : LogF} {lfmax : ℝ} {move : ℝ → Vec → Vec} {h : ℕ → ℝ} {P : ℝ → Vec} {F : ℝ → ℝ} (h1 : ∀ s t, move t (P s) = P t) (hF : ∀ t, lf (P t) = .ok (F t)) :
    ∀ (cnt k : ℕ) (mu d : Vec), (∀ j, k ≤ j → j < k + cnt → h j ≠ 0) → (∀ t, move t mu = P t) →
    ∃ mu' d', diffs lf lfmax move h cnt k mu d = (mu', .ok d') ∧ (mu' = mu ∨ ∃ s, mu' = P s) ∧
      (∀ j, k ≤ j → j < k + cnt → d' j = (F (h j) + F (-(h j)) - 2 * lfmax) / h j ^ 2) ∧ ∀ j, j < k → d' j = d j :=
  fun cnt k mu d hh h0 => diffs_local (D := fun _ => True) h1 (fun t _ => hF t) cnt k mu d (fun j a b => ⟨hh j a b, trivial, trivial⟩) h0

/-- The differences change only the coordinates that are moved. -/
theorem diffs_frame {lf : LogF} {lfmax : ℝ} {move : ℝ → Vec → Vec} {h : ℕ → ℝ} {k0 : ℕ} (hm : ∀ t mu, move t mu k0 = mu k0) :
    ∀ (cnt k : ℕ) (mu d : Vec), (diffs lf lfmax move h cnt k mu d).1 k0 = mu k0 := by
  intro cnt
  induction cnt with
  | zero => intro k mu d; rfl
  | succ cnt ih =>
    intro k mu d
    rw [diffs]
    dsimp only
    split
    · exact hm _ _
    · split
      · exact (hm _ _).trans (hm _ _)
      · split_ifs
        · exact (hm _ _).trans (hm _ _)
        · rw [ih]; exact (hm _ _).trans (hm _ _)

theorem ratio_pow_le (k : ℕ) : |ratio ^ k| ≤ 1 := by
  rw [abs_pow]; exact pow_le_one₀ (abs_nonneg _) (by norm_num [ratio, abs_le])

theorem ratio_pow_ne (k : ℕ) : ratio ^ k ≠ 0 := pow_ne_zero _ (by norm_num [ratio])

end Verif.Obs
