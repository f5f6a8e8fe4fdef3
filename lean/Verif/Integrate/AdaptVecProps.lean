import Verif.Integrate.AdaptVec
import Mathlib.Tactic.Linarith
import Mathlib.Tactic.IntervalCases
import Mathlib.Tactic.Positivity

/-!
# Adaptive integration of vectors of functions (C91)
-/

namespace Verif.AdaptVec

open PyNum

/-! ## Helper lemmas -/

theorem three_dvd (n : ℤ) : (3 : ℤ) ∣ 4 * n * (n - 1) * (n - 2) := by
  have h : n % 3 = 0 ∨ n % 3 = 1 ∨ n % 3 = 2 := by omega
  rcases h with h | h | h
  · exact Dvd.dvd.mul_right (Dvd.dvd.mul_right (Dvd.dvd.mul_left (Int.dvd_of_emod_eq_zero h) _) _) _
  · exact Dvd.dvd.mul_right (Dvd.dvd.mul_left (by omega) _) _
  · exact Dvd.dvd.mul_left (by omega) _

theorem ruleSize_spec (key : ℤ) {ndim : ℕ} (h2 : 2 ≤ ndim) (h15 : ndim ≤ 15) :
    (∃ n, chkRule key ndim = .inr n ∧ 0 < n ∧ ∃ x, ruleSize key ndim = .ok x ∧ x.val = n) ∨ (∃ i, chkRule key ndim = .inl i ∧ ruleSize key ndim = .error .value) := by
  unfold chkRule ruleSize
  by_cases k0 : key < 0 ∨ key > 4
  · refine Or.inr ⟨2, if_pos k0, ?_⟩
    rw [if_neg (by omega), if_neg (by omega), if_neg (by omega), if_neg (by omega)]
  rw [if_neg k0, if_neg (by omega)]
  by_cases k1 : key = 1 ∧ ndim ≠ 2
  · refine Or.inr ⟨4, if_pos k1, ?_⟩
    rw [if_neg (by omega), if_neg (by omega), if_neg (by omega), if_neg (by omega)]
  rw [if_neg k1]
  by_cases k2 : key = 2 ∧ ndim ≠ 3
  · refine Or.inr ⟨5, if_pos k2, ?_⟩
    rw [if_neg (by omega), if_neg (by omega), if_neg (by omega), if_neg (by omega)]
  rw [if_neg k2]
  refine Or.inl ⟨_, rfl, ?_⟩
  dsimp only
  have hn : (2 : ℤ) ≤ ndim := by exact_mod_cast h2
  have hp : (0 : ℤ) < 2 ^ ndim := by positivity
  have a1 : 0 ≤ (ndim : ℤ) * ((ndim : ℤ) - 1) := mul_nonneg (by omega) (by omega)
  have a2 : 0 ≤ 4 * (ndim : ℤ) * ((ndim : ℤ) - 1) * ((ndim : ℤ) - 2) := mul_nonneg (mul_nonneg (by omega) (by omega)) (by omega)
  have hdiv := three_dvd (ndim : ℤ)
  generalize hA : 4 * (ndim : ℤ) * ((ndim : ℤ) - 1) * ((ndim : ℤ) - 2) = A at *
  have b1 : 2 * (ndim : ℤ) * ((ndim : ℤ) - 1) = 2 * ((ndim : ℤ) * ((ndim : ℤ) - 1)) := by ring
  have b2 : 4 * (ndim : ℤ) * ((ndim : ℤ) - 1) = 4 * ((ndim : ℤ) * ((ndim : ℤ) - 1)) := by ring
  have b3 : 2 * (ndim : ℤ) * ((ndim : ℤ) - 1) = 2 * ((ndim : ℤ) * ((ndim : ℤ) - 1)) := by ring
  rw [b1, b2]
  generalize hB : (ndim : ℤ) * ((ndim : ℤ) - 1) = B at *
  generalize (2 : ℤ) ^ ndim = C at *
  have hq : A.tdiv 3 = A / 3 := Int.tdiv_eq_ediv_of_nonneg a2
  obtain ⟨D, rfl⟩ := hdiv
  have hD : 3 * D / 3 = D := by omega
  have hx : ((int (3 * D)).div (int 3)) = .ok (flt D) := by
    unfold PyNum.div
    rw [if_neg (by simp [PyNum.val])]
    simp only [PyNum.val]
    congr 2
    push_cast
    rw [mul_div_cancel_left₀]; norm_num
  by_cases c1 : (key = 0 ∨ key = 1) ∧ ndim = 2
  · rw [if_pos c1]
    have : (if key = 0 then if ndim = 2 then (1 : ℤ) else if ndim = 3 then 2 else 3 else key) = 1 := by
      rcases c1 with ⟨c | c, d⟩ <;> simp [c, d]
    rw [this, if_pos rfl]
    exact ⟨by norm_num, _, rfl, by simp [PyNum.val]⟩
  rw [if_neg c1]
  by_cases c2 : (key = 0 ∨ key = 2) ∧ ndim = 3
  · rw [if_pos c2]
    have : (if key = 0 then if ndim = 2 then (1 : ℤ) else if ndim = 3 then 2 else 3 else key) = 2 := by
      rcases c2 with ⟨c | c, d⟩ <;> simp [c, d]
    rw [this, if_neg (by norm_num), if_pos rfl]
    exact ⟨by norm_num, _, rfl, by simp [PyNum.val]⟩
  rw [if_neg c2]
  by_cases c3 : (key = 0 ∧ ndim ≥ 3) ∨ key = 3
  · rw [if_pos c3]
    have : (if key = 0 then if ndim = 2 then (1 : ℤ) else if ndim = 3 then 2 else 3 else key) = 3 := by
      split_ifs <;> omega
    rw [this, if_neg (by norm_num), if_neg (by norm_num), if_pos rfl, hq, hD]
    refine ⟨by omega, _, by rw [hx]; rfl, ?_⟩
    simp only [PyNum.add, PyNum.val]
    push_cast
    ring
  rw [if_neg c3]
  have c4 : key = 4 := by omega
  have : (if key = 0 then if ndim = 2 then (1 : ℤ) else if ndim = 3 then 2 else 3 else key) = 4 := by
    split_ifs <;> omega
  rw [if_pos c4, this, if_neg (by norm_num), if_neg (by norm_num), if_neg (by norm_num)]
  refine ⟨by omega, _, rfl, ?_⟩
  simp only [PyNum.val]
  push_cast
  ring

theorem sub_val (x y : PyNum) : (x.sub y).val = x.val - y.val := by cases x <;> cases y <;> simp [PyNum.sub, PyNum.val]

theorem add_val (x y : PyNum) : (x.add y).val = x.val + y.val := by cases x <;> cases y <;> simp [PyNum.add, PyNum.val]

theorem mul_val (x y : PyNum) : (x.mul y).val = x.val * y.val := by cases x <;> cases y <;> simp [PyNum.mul, PyNum.val]

theorem workSize_spec {x : PyNum} {n : ℤ} (hx : x.val = n) (hn : 0 < n) (ndim nfuncs : ℕ) (maxpts : ℤ) :
    ∃ q : ℚ, workSize x ndim nfuncs maxpts = .ok (flt q) ∧ q = (((maxpts : ℚ) - n) / (2 * n) + 1) * (2 * ndim + 2 * nfuncs + 2) + 17 * nfuncs + 1 := by
  have hn' : (0 : ℚ) < n := by exact_mod_cast hn
  have hv : ((int 2).mul x).val ≠ 0 := by rw [mul_val, hx]; simp only [PyNum.val]; push_cast; positivity
  refine ⟨_, ?_, rfl⟩
  unfold workSize
  rw [show ((int maxpts).sub x).div ((int 2).mul x) = .ok (flt (((maxpts : ℚ) - n) / (2 * n))) from by
    unfold PyNum.div
    rw [if_neg hv, mul_val, sub_val, hx]
    simp [PyNum.val]]
  show Except.ok _ = Except.ok _
  congr 1
  simp only [PyNum.add, PyNum.mul, PyNum.val]
  push_cast
  rfl

/-! ## C91 -/

/-- C91.  `adapt_vec` refuses, with `ValueError`, exactly the keys and dimensions that the subroutine refuses; for the others the number of evaluations for a region is the one that the subroutine computes. -/
theorem C91_rules (nfuncs ndim : ℕ) (key maxpts : ℤ) :
    (prepare nfuncs ndim key maxpts = .error .value ↔ ∃ i, chkRule key ndim = .inl i) ∧ ∀ n, chkRule key ndim = .inr n → ∃ x, ruleSize key ndim = .ok x ∧ x.val = n := by
  by_cases hd : 2 ≤ ndim ∧ ndim ≤ 15
  · have hp : prepare nfuncs ndim key maxpts = (do let num ← ruleSize key ndim; let nw ← workSize num ndim nfuncs maxpts; zeros nw) := by
      unfold prepare; rw [if_neg (by omega), if_neg (by omega)]
    rcases ruleSize_spec key hd.1 hd.2 with ⟨n, h1, h2, x, h3, h4⟩ | ⟨i, h1, h2⟩
    · obtain ⟨q, hq, -⟩ := workSize_spec h4 h2 ndim nfuncs maxpts
      have : prepare nfuncs ndim key maxpts = .error .type := by
        rw [hp, h3]
        show (do let nw ← workSize x ndim nfuncs maxpts; zeros nw) = _
        rw [hq]
        rfl
      rw [this, h1]
      refine ⟨by simp, fun m hm => ⟨x, h3, ?_⟩⟩
      cases hm
      exact h4
    · rw [hp, h2, h1]
      exact ⟨⟨fun _ => ⟨i, rfl⟩, fun _ => rfl⟩, fun n hn => by simp at hn⟩
  · have h1 : prepare nfuncs ndim key maxpts = .error .value := by
      unfold prepare
      by_cases h : ndim < 2
      · rw [if_pos h]
      · rw [if_neg h, if_pos (by omega)]
    have h2 : ∃ i, chkRule key ndim = .inl i := by
      unfold chkRule
      by_cases h : key < 0 ∨ key > 4
      · exact ⟨2, if_pos h⟩
      · rw [if_neg h, if_pos (by omega)]; exact ⟨3, rfl⟩
    refine ⟨⟨fun _ => h2, fun _ => h1⟩, fun n hn => ?_⟩
    obtain ⟨i, hi⟩ := h2
    rw [hi] at hn
    cases hn

/-- C91, as far as it goes.  The number that `adapt_vec` computes for the length of the work array is at least the length the subroutine asks for.  Missing: the number is a float, so that no array is made (`C91_violated`). -/
theorem C91_work_partial (nfuncs ndim : ℕ) (key : ℤ) {maxpts n : ℤ} (h : chkRule key ndim = .inr n) (hm : n ≤ maxpts) :
    ∃ x nw, ruleSize key ndim = .ok x ∧ workSize x ndim nfuncs maxpts = .ok nw ∧ (chkLimit n ndim nfuncs maxpts : ℚ) ≤ nw.val := by
  have hd : 2 ≤ ndim ∧ ndim ≤ 15 := by
    by_contra hd
    unfold chkRule at h
    by_cases hk : key < 0 ∨ key > 4
    · rw [if_pos hk] at h; cases h
    · rw [if_neg hk, if_pos (by omega)] at h; cases h
  rcases ruleSize_spec key hd.1 hd.2 with ⟨m, h1, h2, x, h3, h4⟩ | ⟨i, h1, h2⟩
  · have e : m = n := by rw [h1] at h; cases h; rfl
    subst e
    obtain ⟨q, hq, hqe⟩ := workSize_spec h4 h2 ndim nfuncs maxpts
    refine ⟨x, _, h3, hq, ?_⟩
    simp only [PyNum.val]
    rw [hqe]
    unfold chkLimit
    have hm' : (0 : ℚ) < m := by exact_mod_cast h2
    have ht : (((maxpts - m).tdiv (2 * m) : ℤ) : ℚ) ≤ ((maxpts : ℚ) - m) / (2 * m) := by
      rw [Int.tdiv_eq_ediv_of_nonneg (by omega), le_div_iff₀ (by positivity)]
      have := Int.ediv_mul_le (maxpts - m) (show (2 * m) ≠ 0 by omega)
      exact_mod_cast this
    push_cast
    have hc : (0 : ℚ) ≤ 2 * ndim + 2 * nfuncs + 2 := by positivity
    nlinarith [mul_le_mul_of_nonneg_right ht hc]
  · rw [h1] at h; cases h

/-- Non-vacuity. -/
example : chkRule 0 5 = .inr 273 ∧ (273 : ℤ) ≤ 100000 := by decide +kernel

/-- C91 does not hold: for every number of functions, dimension, key and number of points, `adapt_vec` raises; when the arguments are valid it raises `TypeError`. -/
theorem C91_violated {α : Type} (dcuhre : ℕ → Except Err α) (nfuncs ndim : ℕ) (key maxpts : ℤ) :
    (∃ e, adaptVec dcuhre nfuncs ndim key maxpts = .error e) ∧ ∀ n, chkRule key ndim = .inr n → adaptVec dcuhre nfuncs ndim key maxpts = .error .type := by
  have hE : ∀ e, prepare nfuncs ndim key maxpts = .error e → adaptVec dcuhre nfuncs ndim key maxpts = .error e := fun e h => by
    unfold adaptVec; rw [h]; rfl
  rcases hc : chkRule key ndim with i | n
  · exact ⟨⟨_, hE _ ((C91_rules nfuncs ndim key maxpts).1.2 ⟨i, hc⟩)⟩, fun n hn => by cases hn⟩
  · have hd : 2 ≤ ndim ∧ ndim ≤ 15 := by
      by_contra hd
      unfold chkRule at hc
      by_cases hk : key < 0 ∨ key > 4
      · rw [if_pos hk] at hc; cases hc
      · rw [if_neg hk, if_pos (by omega)] at hc; cases hc
    rcases ruleSize_spec key hd.1 hd.2 with ⟨m, h1, h2, x, h3, h4⟩ | ⟨i, h1, h2⟩
    · obtain ⟨q, hq, -⟩ := workSize_spec h4 h2 ndim nfuncs maxpts
      have : prepare nfuncs ndim key maxpts = .error .type := by
        unfold prepare
        rw [if_neg (by omega), if_neg (by omega), h3]
        show (do let nw ← workSize x ndim nfuncs maxpts; zeros nw) = _
        rw [hq]
        rfl
      exact ⟨⟨_, hE _ this⟩, fun _ _ => hE _ this⟩
    · rw [h1] at hc; cases hc

end Verif.AdaptVec
