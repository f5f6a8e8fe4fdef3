import Verif.Cosmo.TrapLemmas

/-!
# What `POLINT`, `TRAPZD` and `QROMB` compute
-/

set_option linter.unusedSectionVars false

namespace Verif.Romberg

open Finset Polynomial

theorem nearest_mem (xa : ℕ → ℝ) (x : ℝ) (hi : ℕ) (k i ns : ℕ) (dif : ℝ) (h1 : 1 ≤ ns) (h2 : ns ≤ hi) (h3 : 1 ≤ i) (h4 : i + k ≤ hi + 1) :
    1 ≤ nearest xa x k i ns dif ∧ nearest xa x k i ns dif ≤ hi := by
  induction k generalizing i ns dif with
  | zero => exact ⟨h1, h2⟩
  | succ k ih =>
    simp only [nearest]
    split_ifs
    · exact ih _ _ _ h3 (by omega) (by omega) (by omega)
    · exact ih _ _ _ h1 h2 (by omega) (by omega)

theorem inner_spec (xa : ℕ → ℝ) (x : ℝ) (m k i : ℕ) (c d : ℕ → ℝ) (j : ℕ) :
    (inner xa x m k i c d).1 j = (if i ≤ j ∧ j < i + k then (xa j - x) * ((c (j + 1) - d j) / (xa j - x - (xa (j + m) - x))) else c j) ∧
    (inner xa x m k i c d).2 j = (if i ≤ j ∧ j < i + k then (xa (j + m) - x) * ((c (j + 1) - d j) / (xa j - x - (xa (j + m) - x))) else d j) := by
  induction k generalizing i c d with
  | zero => simp [inner]
  | succ k ih =>
    simp only [inner]
    obtain ⟨e1, e2⟩ := ih (i + 1) (Function.update c i ((xa i - x) * ((c (i + 1) - d i) / (xa i - x - (xa (i + m) - x))))) (Function.update d i ((xa (i + m) - x) * ((c (i + 1) - d i) / (xa i - x - (xa (i + m) - x)))))
    rw [e1, e2]
    by_cases hj : i + 1 ≤ j ∧ j < i + 1 + k
    · rw [if_pos hj, if_pos hj, if_pos ⟨by omega, by omega⟩, if_pos ⟨by omega, by omega⟩, Function.update_of_ne (by omega), Function.update_of_ne (by omega)]
      exact ⟨rfl, rfl⟩
    · rw [if_neg hj, if_neg hj]
      by_cases hji : j = i
      · subst hji
        rw [if_pos ⟨le_rfl, by omega⟩, if_pos ⟨le_rfl, by omega⟩, Function.update_self, Function.update_self]
        exact ⟨rfl, rfl⟩
      · rw [if_neg (by omega), if_neg (by omega), Function.update_of_ne hji, Function.update_of_ne hji]
        exact ⟨rfl, rfl⟩

/-- The corrections of the scheme. -/
noncomputable def corrC (xs ys : ℕ → ℝ) (x : ℝ) : ℕ → ℕ → ℝ
  | 0, i => ys i
  | m + 1, i => nev xs ys x (m + 1) i - nev xs ys x m i

noncomputable def corrD (xs ys : ℕ → ℝ) (x : ℝ) : ℕ → ℕ → ℝ
  | 0, i => ys i
  | m + 1, i => nev xs ys x (m + 1) i - nev xs ys x m (i + 1)

theorem corr_sub (xs ys : ℕ → ℝ) (x : ℝ) (m i : ℕ) : corrC xs ys x m (i + 1) - corrD xs ys x m i = nev xs ys x m (i + 1) - nev xs ys x m i := by
  cases m with
  | zero => rfl
  | succ m => simp only [corrC, corrD]; ring

theorem outer_spec {xs ys : ℕ → ℝ} (x : ℝ) (n : ℕ) (hinj : ∀ i j, 1 ≤ i → i < j → j ≤ n → xs i ≠ xs j) (k m ns : ℕ) (y dy : ℝ) (c d : ℕ → ℝ)
    (hk : m + k + 1 = n) (hns : ns + m + 1 ≤ n) (hy : y = nev xs ys x m (ns + 1))
    (hc : ∀ i, 1 ≤ i → i + m ≤ n → c i = corrC xs ys x m i) (hd : ∀ i, 1 ≤ i → i + m ≤ n → d i = corrD xs ys x m i) :
    (outer xs x n k (m + 1) ns y dy c d).1 = nev xs ys x (n - 1) 1 ∧
    (1 ≤ k → (outer xs x n k (m + 1) ns y dy c d).2 = nev xs ys x (n - 1) 1 - nev xs ys x (n - 2) 1 ∨ (outer xs x n k (m + 1) ns y dy c d).2 = nev xs ys x (n - 1) 1 - nev xs ys x (n - 2) 2) := by
  induction k generalizing m ns y dy c d with
  | zero =>
    simp only [outer]
    have h1 : ns = 0 := by omega
    have h2 : m = n - 1 := by omega
    subst h1 h2
    exact ⟨hy, fun h => by omega⟩
  | succ k ih =>
    set r := inner xs x (m + 1) (n - (m + 1)) 1 c d with hr
    have hw : ∀ i, 1 ≤ i → i + (m + 1) ≤ n → c (i + 1) - d i = nev xs ys x m (i + 1) - nev xs ys x m i := fun i h1 h2 => by
      rw [hc _ (by omega) (by omega), hd _ h1 (by omega), corr_sub]
    have hne : ∀ i, 1 ≤ i → i + (m + 1) ≤ n → xs i - xs (i + m + 1) ≠ 0 := fun i h1 h2 => sub_ne_zero.2 (hinj _ _ h1 (by omega) (by omega))
    have hc' : ∀ i, 1 ≤ i → i + (m + 1) ≤ n → r.1 i = corrC xs ys x (m + 1) i := by
      intro i h1 h2
      rw [hr, (inner_spec xs x (m + 1) (n - (m + 1)) 1 c d i).1, if_pos ⟨h1, by omega⟩, hw i h1 h2, corrC, nev]
      have := hne i h1 h2
      rw [show i + (m + 1) = i + m + 1 by ring, show xs i - x - (xs (i + m + 1) - x) = xs i - xs (i + m + 1) by ring]
      field_simp
      ring
    have hd' : ∀ i, 1 ≤ i → i + (m + 1) ≤ n → r.2 i = corrD xs ys x (m + 1) i := by
      intro i h1 h2
      rw [hr, (inner_spec xs x (m + 1) (n - (m + 1)) 1 c d i).2, if_pos ⟨h1, by omega⟩, hw i h1 h2, corrD, nev]
      have := hne i h1 h2
      rw [show i + (m + 1) = i + m + 1 by ring, show xs i - x - (xs (i + m + 1) - x) = xs i - xs (i + m + 1) by ring]
      field_simp
      ring
    simp only [outer]
    rw [← hr]
    split_ifs with hif
    · have e : r.1 (ns + 1) = nev xs ys x (m + 1) (ns + 1) - nev xs ys x m (ns + 1) := hc' _ (by omega) (by omega)
      obtain ⟨a1, a2⟩ := ih (m + 1) ns (y + r.1 (ns + 1)) (r.1 (ns + 1)) r.1 r.2 (by omega) (by omega) (by rw [e, hy]; ring) hc' hd'
      refine ⟨a1, fun _ => ?_⟩
      rcases Nat.eq_zero_or_pos k with rfl | hk'
      · have h0 : ns = 0 := by omega
        have hm : m + 1 = n - 1 := by omega
        have hm' : m = n - 2 := by omega
        subst h0
        simp only [outer] at a1 ⊢
        left
        rw [e, hm, hm']
      · exact a2 hk'
    · have hpos : 1 ≤ ns := by omega
      have e : r.2 ns = nev xs ys x (m + 1) ns - nev xs ys x m (ns + 1) := hd' _ (by omega) (by omega)
      obtain ⟨a1, a2⟩ := ih (m + 1) (ns - 1) (y + r.2 ns) (r.2 ns) r.1 r.2 (by omega) (by omega) (by rw [e, hy, Nat.sub_add_cancel hpos]; ring) hc' hd'
      refine ⟨a1, fun _ => ?_⟩
      rcases Nat.eq_zero_or_pos k with rfl | hk'
      · have h0 : ns = 1 := by omega
        have hm : m + 1 = n - 1 := by omega
        have hm' : m = n - 2 := by omega
        subst h0
        simp only [outer] at a1 ⊢
        right
        rw [e, hm, hm']
      · exact a2 hk'

/-- `POLINT` evaluates the polynomial through the points; its error estimate is the difference from the polynomial through all of them but the last or the first. -/
theorem polint_spec {xa ya : ℕ → ℝ} (n : ℕ) (hn : 1 ≤ n) (hinj : ∀ i j, 1 ≤ i → i < j → j ≤ n → xa i ≠ xa j) (x dy0 : ℝ) :
    (polint xa ya n x dy0).1 = nev xa ya x (n - 1) 1 ∧
    (2 ≤ n → (polint xa ya n x dy0).2 = nev xa ya x (n - 1) 1 - nev xa ya x (n - 2) 1 ∨ (polint xa ya n x dy0).2 = nev xa ya x (n - 1) 1 - nev xa ya x (n - 2) 2) := by
  obtain ⟨h1, h2⟩ := nearest_mem xa x n n 1 1 |x - xa 1| le_rfl hn le_rfl (by omega)
  simp only [polint]
  obtain ⟨a1, a2⟩ := outer_spec (xs := xa) (ys := ya) x n hinj (n - 1) 0 (nearest xa x n 1 1 |x - xa 1| - 1) (ya (nearest xa x n 1 1 |x - xa 1|)) dy0 ya ya (by omega) (by omega)
    (by rw [nev, Nat.sub_add_cancel h1]) (fun _ _ _ => rfl) (fun _ _ _ => rfl)
  exact ⟨a1, fun h => a2 (by omega)⟩

theorem sumGo_eq (f : ℝ → ℝ) (del : ℝ) (k : ℕ) (x s : ℝ) : sumGo f del k x s = s + ∑ i ∈ range k, f (x + i * del) := by
  induction k generalizing x s with
  | zero => simp [sumGo]
  | succ k ih =>
    rw [sumGo, ih, sum_range_succ']
    have : ∀ i ∈ range k, f (x + del + i * del) = f (x + ((i + 1 : ℕ) : ℝ) * del) := fun i _ => by congr 1; push_cast; ring
    rw [sum_congr rfl this]
    simp; ring

theorem trapzd_one (f : ℝ → ℝ) (a b s : ℝ) (it : ℕ) : trapzd f a b s it 1 = (trapezoid f a b 1, 1) := by
  simp [trapzd, trapezoid]; ring

theorem trapzd_next (f : ℝ → ℝ) (a b : ℝ) (it j : ℕ) (hit : it ≠ 0) (hj : j ≠ 1) :
    trapzd f a b (trapezoid f a b it) it j = (trapezoid f a b (2 * it), 2 * it) := by
  simp only [trapzd, if_neg hj, sumGo_eq, zero_add]
  rw [trapezoid_double f a b hit]
  have : ∀ k ∈ range it, f (a + 1 / 2 * ((b - a) / it) + k * ((b - a) / it)) = f (a + (k + 1 / 2) * ((b - a) / it)) := fun k _ => by congr 1; ring
  rw [sum_congr rfl this]

/-- The extrapolation from the trapezoid rule with 2^i, ..., 2^(i+m) panels to infinitely many. -/
noncomputable def extrap (f : ℝ → ℝ) (a b : ℝ) (m i : ℕ) : ℝ := nev (fun j => (1 / 4) ^ j) (fun j => trapezoid f a b (2 ^ j)) 0 m i

theorem quarter_inj : ∀ i j : ℕ, i ≠ j → ((1 / 4 : ℝ) ^ i) ≠ (1 / 4) ^ j := fun i j h e =>
  h (pow_right_injective₀ (by norm_num) (by norm_num) e)

theorem extrap_exact (p : ℝ[X]) (m : ℕ) (hp : p.natDegree ≤ 2 * m + 1) (a b : ℝ) (i : ℕ) : extrap (fun x => p.eval x) a b m i = ∫ x in a..b, p.eval x := by
  obtain ⟨q, h1, h2, h3⟩ := trap_poly p m hp a b
  rw [extrap, nev_exact 0 m i (fun j _ k _ e => by by_contra h; exact quarter_inj j k h e) q h1 (fun j _ => ?_), h2]
  rw [h3 _ (by positivity)]
  congr 1
  push_cast
  rw [← pow_mul, mul_comm, pow_mul, div_pow]; norm_num

/-- What `QROMB` returns from stage `j` on. -/
structure Spec (f : ℝ → ℝ) (a b eps : ℝ) (first last : ℕ) (r : Out ℝ) : Prop where
  ge : 5 ≤ r.stages
  le : r.stages ≤ last
  val : r.ss = extrap f a b 4 (r.stages - 5)
  paused : r.paused = true → r.stages = last
  conv : r.paused = false → r.ss = 0 ∨ |r.ss - extrap f a b 3 (r.stages - 5)| < eps * |r.ss| ∨ |r.ss - extrap f a b 3 (r.stages - 4)| < eps * |r.ss|
  nonzero : ∀ J, 5 ≤ J → first ≤ J → J < r.stages → extrap f a b 4 (J - 5) ≠ 0

theorem qloop_spec (f : ℝ → ℝ) (a b eps : ℝ) (k j : ℕ) (h s : ℕ → ℝ) (it : ℕ) (ss dss : ℝ) (hj : 1 ≤ j) (hk : 6 ≤ j + k)
    (hh : ∀ i, 1 ≤ i → i ≤ j → h i = (1 / 4) ^ (i - 1)) (hs : ∀ i, 1 ≤ i → i < j → s i = trapezoid f a b (2 ^ (i - 1)))
    (hs' : 2 ≤ j → s j = trapezoid f a b (2 ^ (j - 2)) ∧ it = 2 ^ (j - 2)) (hss : 6 ≤ j → ss = extrap f a b 4 (j - 6)) :
    Spec f a b eps j (j + k - 1) (qloop f a b eps k j h s it ss dss) := by
  induction k generalizing j h s it ss dss with
  | zero =>
    simp only [qloop]
    refine ⟨by simp only []; omega, by simp only []; omega, ?_, fun _ => by simp only []; omega, fun h => by simp at h, fun J h1 h2 h3 => by simp only [] at h3; omega⟩
    simp only []
    rw [hss (by omega)]; congr 1
  | succ k ih =>
    have ht : trapzd f a b (s j) it j = (trapezoid f a b (2 ^ (j - 1)), 2 ^ (j - 1)) := by
      rcases Nat.lt_or_ge 1 j with h1 | h1
      · obtain ⟨e1, e2⟩ := hs' h1
        rw [e1, e2, trapzd_next f a b _ j (by positivity) (by omega), show j - 1 = j - 2 + 1 by omega, pow_succ, mul_comm]
      · have : j = 1 := by omega
        subst this
        rw [trapzd_one]; rfl
    simp only [qloop]
    rw [ht]
    simp only []
    set s1 := Function.update s j (trapezoid f a b (2 ^ (j - 1))) with hs1
    have hs1v : ∀ i, 1 ≤ i → i ≤ j → s1 i = trapezoid f a b (2 ^ (i - 1)) := by
      intro i h1 h2
      rw [hs1]
      by_cases e : i = j
      · rw [e, Function.update_self]
      · rw [Function.update_of_ne e]; exact hs i h1 (by omega)
    have hlast : j + (k + 1) - 1 = j + 1 + k - 1 := by omega
    rw [hlast]
    have hrec : ∀ ss' dss', (6 ≤ j + 1 → ss' = extrap f a b 4 (j + 1 - 6)) →
        Spec f a b eps (j + 1) (j + 1 + k - 1) (qloop f a b eps k (j + 1) (Function.update h (j + 1) (1 / 4 * h j)) (Function.update s1 (j + 1) (s1 j)) (2 ^ (j - 1)) ss' dss') := by
      intro ss' dss' hss'
      refine ih (j + 1) _ _ _ ss' dss' (by omega) (by omega) ?_ ?_ ?_ hss'
      · intro i h1 h2
        by_cases e : i = j + 1
        · rw [e, Function.update_self, hh j hj le_rfl, ← pow_succ', show j - 1 + 1 = j + 1 - 1 by omega]
        · rw [Function.update_of_ne e]; exact hh i h1 (by omega)
      · intro i h1 h2
        rw [Function.update_of_ne (by omega)]; exact hs1v i h1 (by omega)
      · intro _
        rw [Function.update_self, hs1v j hj le_rfl, show j + 1 - 2 = j - 1 by omega]
        exact ⟨rfl, rfl⟩
    by_cases h5 : 5 ≤ j
    · rw [if_pos h5]
      have hx : ∀ i, 1 ≤ i → i ≤ 5 → h (j - 4 + i - 1) = (1 / 4) ^ (j - 5 + (i - 1)) := fun i h1 h2 => by
        rw [hh _ (by omega) (by omega)]; congr 1; omega
      have hy : ∀ i, 1 ≤ i → i ≤ 5 → s1 (j - 4 + i - 1) = trapezoid f a b (2 ^ (j - 5 + (i - 1))) := fun i h1 h2 => by
        rw [hs1v _ (by omega) (by omega)]; congr 2; omega
      obtain ⟨p1, p2⟩ := polint_spec (xa := fun i => h (j - 4 + i - 1)) (ya := fun i => s1 (j - 4 + i - 1)) 5 (by norm_num) (fun i k h1 h2 h3 => by
        rw [hx i h1 (by omega), hx k (by omega) h3]; exact quarter_inj _ _ (by omega)) 0 dss
      have g1 : nev (fun i => h (j - 4 + i - 1)) (fun i => s1 (j - 4 + i - 1)) 0 4 1 = extrap f a b 4 (j - 5) :=
        nev_congr 0 4 1 (j - 5) (fun i hi => by rw [hx (1 + i) (by omega) (by omega)]; congr 2; omega) (fun i hi => by rw [hy (1 + i) (by omega) (by omega)]; congr 3; omega)
      have g2 : nev (fun i => h (j - 4 + i - 1)) (fun i => s1 (j - 4 + i - 1)) 0 3 1 = extrap f a b 3 (j - 5) :=
        nev_congr 0 3 1 (j - 5) (fun i hi => by rw [hx (1 + i) (by omega) (by omega)]; congr 2; omega) (fun i hi => by rw [hy (1 + i) (by omega) (by omega)]; congr 3; omega)
      have g3 : nev (fun i => h (j - 4 + i - 1)) (fun i => s1 (j - 4 + i - 1)) 0 3 2 = extrap f a b 3 (j - 4) :=
        nev_congr 0 3 2 (j - 4) (fun i hi => by rw [hx (2 + i) (by omega) (by omega)]; congr 1; omega) (fun i hi => by rw [hy (2 + i) (by omega) (by omega)]; congr 2; omega)
      rw [show (5 : ℕ) - 1 = 4 from rfl, g1] at p1
      rw [show (5 : ℕ) - 1 = 4 from rfl, show (5 : ℕ) - 2 = 3 from rfl, g1, g2, g3] at p2
      split_ifs with hc hz
      · refine ⟨h5, by simp only []; omega, p1, fun h => by simp at h, fun _ => ?_, fun J h1 h2 h3 => by simp only [] at h3; omega⟩
        simp only []
        right
        rw [p1] at hc ⊢
        rcases p2 (by norm_num) with e | e
        · left; rw [e] at hc; exact hc
        · right; rw [e] at hc; exact hc
      · exact ⟨h5, by simp only []; omega, p1, fun h => by simp at h, fun _ => Or.inl hz, fun J h1 h2 h3 => by simp only [] at h3; omega⟩
      · have hr := hrec _ (polint (fun i => h (j - 4 + i - 1)) (fun i => s1 (j - 4 + i - 1)) 5 0 dss).2 fun _ => p1
        exact ⟨hr.ge, hr.le, hr.val, hr.paused, hr.conv, fun J h1 h2 h3 => by
          rcases Nat.eq_or_lt_of_le h2 with e | e
          · rw [← e, ← p1]; exact hz
          · exact hr.nonzero J h1 e h3⟩
    · rw [if_neg h5]
      have hr := hrec ss dss fun h => by omega
      exact ⟨hr.ge, hr.le, hr.val, hr.paused, hr.conv, fun J h1 h2 h3 => hr.nonzero J h1 (by omega) h3⟩

/-- `QROMB` returns the extrapolation from the last five of at most twenty trapezoid rules. -/
theorem qromb_spec (f : ℝ → ℝ) {a b : ℝ} (hab : a ≠ b) (eps : ℝ) (h0 s0 : ℕ → ℝ) (it0 : ℕ) (ss0 dss0 : ℝ) :
    Spec f a b eps 1 20 (qromb f a b eps h0 s0 it0 ss0 dss0) := by
  rw [qromb, if_neg hab]
  exact qloop_spec f a b eps 20 1 _ s0 it0 ss0 dss0 le_rfl (by norm_num) (fun i h1 h2 => by
    have : i = 1 := by omega
    subst this; simp) (fun i h1 h2 => by omega) (fun h => by omega) (fun h => by omega)

end Verif.Romberg
