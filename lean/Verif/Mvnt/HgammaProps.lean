import Verif.Mvnt.Mvnt
import Verif.Count.GammlnReal
import Mathlib.Analysis.SpecialFunctions.Gamma.Basic

/-!
# Property C153: the gamma function of half a count

`hgamma` of expt/mc/_mvnt.f keeps a table between calls.
-/

set_option linter.unusedSectionVars false

namespace Verif.Mvnt

open Real

/-! ## Lemmas -/

/-- What the table holds. -/
noncomputable def gval (n : ℕ) : ℝ := if n % 2 = 0 then Gamma ((n : ℝ) / 2) else 14868421 / 8388608 / √π * Gamma ((n : ℝ) / 2)

/-- The table is right up to `ntop`. -/
def Good (t : GTable) : Prop := 2 ≤ t.ntop ∧ t.ntop ≤ 64 ∧ ∀ i, 1 ≤ i → i ≤ t.ntop → t.a i = gval i

theorem gval_rec (n : ℕ) (hn : 1 ≤ n) : gval (n + 2) = (((n + 2 : ℕ) : ℝ) / 2 - 1) * gval n := by
  have h0 : ((n : ℝ) / 2) ≠ 0 := by positivity
  have h1 : Gamma (((n + 2 : ℕ) : ℝ) / 2) = (n : ℝ) / 2 * Gamma ((n : ℝ) / 2) := by
    rw [← Gamma_add_one h0]; congr 1; push_cast; ring
  have h2 : ((n + 2 : ℕ) : ℝ) / 2 - 1 = (n : ℝ) / 2 := by push_cast; ring
  unfold gval
  rw [Nat.add_mod_right, h1, h2]
  split_ifs <;> ring

theorem fill_spec (m lo : ℕ) (hlo : 3 ≤ lo) (a : ℕ → ℝ) (ha : ∀ i, 1 ≤ i → i < lo → a i = gval i) : ∀ i, 1 ≤ i → i < lo + m → fill lo m a i = gval i := by
  induction m generalizing lo a with
  | zero => simpa [fill] using ha
  | succ m ih =>
    rw [fill]
    intro i h1 h2
    refine ih (lo + 1) (by omega) _ (fun j h3 h4 => ?_) i h1 (by omega)
    by_cases hj : j = lo
    · subst hj
      rw [if_pos rfl, ha (j - 2) (by omega) (by omega)]
      have := gval_rec (j - 2) (by omega)
      rw [show j - 2 + 2 = j by omega] at this
      exact this.symm
    · rw [if_neg hj]; exact ha j h3 (by omega)

theorem good_start (rest : ℕ → ℝ) : Good (GTable.start rest) := by
  refine ⟨le_rfl, by norm_num [GTable.start], fun i h1 h2 => ?_⟩
  have h3 : i = 1 ∨ i = 2 := by simp only [GTable.start] at h2; omega
  have hp : √π ≠ 0 := by positivity
  rcases h3 with rfl | rfl
  · simp only [GTable.start, gval, if_true]
    norm_num [Gamma_one_half_eq]
    field_simp
  · simp [GTable.start, gval]

theorem gammln_same (x : ℝ) : gammln x = OnOff.gammln x := by
  unfold gammln OnOff.gammln
  simp only [OnOff.cof, OnOff.serLoop, OnOff.stp]
  rw [show x - 1 + 1 + 1 + 1 + 1 + 1 + 1 = x - 1 + 6 by ring, show x - 1 + 1 + 1 + 1 + 1 + 1 = x - 1 + 5 by ring, show x - 1 + 1 + 1 + 1 + 1 = x - 1 + 4 by ring,
    show x - 1 + 1 + 1 + 1 = x - 1 + 3 by ring, show x - 1 + 1 + 1 = x - 1 + 2 by ring]
  push_cast
  norm_num

theorem const_near : |14868421 / 8388608 / √π - 1| ≤ 4 / 10 ^ 8 ∧ |1 / (14868421 / 8388608 / √π) - 1| ≤ 4 / 10 ^ 8 := by
  have h1 := Real.pi_gt_d20
  have h2 := Real.pi_lt_d20
  have hp : 0 < √π := by positivity
  have hsq : √π * √π = π := mul_self_sqrt pi_pos.le
  have l : (1.77245385 : ℝ) ≤ √π := by
    rw [le_sqrt (by norm_num) pi_pos.le]; norm_num at h1 ⊢; linarith
  have u : √π ≤ (1.7724538510 : ℝ) := by
    rw [sqrt_le_left (by norm_num)]; norm_num at h2 ⊢; linarith
  constructor
  · rw [abs_le]
    constructor
    · rw [le_sub_iff_add_le, le_div_iff₀ hp]; norm_num at u ⊢; linarith
    · rw [sub_le_iff_le_add, div_le_iff₀ hp]; norm_num at l ⊢; linarith
  · rw [one_div_div, abs_le]
    constructor
    · rw [le_sub_iff_add_le, le_div_iff₀ (by norm_num)]; norm_num at l ⊢; linarith
    · rw [sub_le_iff_le_add, div_le_iff₀ (by norm_num)]; norm_num at u ⊢; linarith

theorem call_spec {t : GTable} (ht : Good t) (n : ℕ) (hn : 1 ≤ n) :
    Good (t.call n).2 ∧ (n ≤ 64 → (t.call n).1 = gval n) ∧ (64 < n → (t.call n).1 = exp (gammln ((n : ℝ) / 2))) := by
  obtain ⟨h1, h2, h3⟩ := ht
  unfold GTable.call
  by_cases hc : n ≤ t.ntop
  · rw [if_pos hc]
    exact ⟨⟨h1, h2, h3⟩, fun _ => h3 n hn hc, fun h => by omega⟩
  · rw [if_neg hc]
    by_cases h64 : n ≤ 64
    · rw [if_pos h64]
      have hf := fill_spec (n - t.ntop) (t.ntop + 1) (by omega) t.a fun i ha hb => h3 i ha (by omega)
      refine ⟨⟨by simp only []; omega, h64, fun i ha hb => hf i ha (by simp only [] at hb; omega)⟩, fun _ => hf n hn (by omega), fun h => by omega⟩
    · rw [if_neg h64]
      exact ⟨⟨h1, h2, h3⟩, fun h => absurd h h64, fun _ => rfl⟩

theorem call_zero {t : GTable} (ht : Good t) : Good (t.call 0).2 := by
  unfold GTable.call
  rw [if_pos (Nat.zero_le _)]; exact ht

/-- After any calls. -/
noncomputable def after (t : GTable) (ns : List ℕ) : GTable := ns.foldl (fun t n => (t.call n).2) t

theorem good_after {t : GTable} (ht : Good t) (ns : List ℕ) : Good (after t ns) := by
  induction ns generalizing t with
  | nil => exact ht
  | cons n ns ih =>
    refine ih ?_
    rcases Nat.eq_zero_or_pos n with rfl | hn
    · exact call_zero ht
    · exact (call_spec ht n hn).1

theorem exp_near {x : ℝ} (h : |x| ≤ 3 / 10 ^ 10) : |exp x - 1| ≤ 4 / 10 ^ 10 := by
  have hx := abs_le.1 h
  have h1 := add_one_le_exp x
  have h2 := add_one_le_exp (-x)
  have h3 : exp x * exp (-x) = 1 := by rw [← exp_add]; simp
  have h4 : exp x ≤ 1 + 4 / 10 ^ 10 := by
    by_contra hc
    push Not at hc
    nlinarith [exp_pos (-x)]
  rw [abs_le]; constructor <;> linarith

/-- The value with its relative error. -/
theorem call_near {t : GTable} (ht : Good t) (n : ℕ) (hn : 1 ≤ n) :
    ∃ r, (t.call n).1 = r * Gamma ((n : ℝ) / 2) ∧ |r - 1| ≤ 4 / 10 ^ 8 ∧ (n % 2 = 0 → n ≤ 64 → r = 1) ∧ (n % 2 = 1 → n ≤ 64 → r = 14868421 / 8388608 / √π) ∧
      (64 < n → |r - 1| ≤ 4 / 10 ^ 10) := by
  obtain ⟨_, h1, h2⟩ := call_spec ht n hn
  by_cases h64 : n ≤ 64
  · by_cases he : n % 2 = 0
    · exact ⟨1, by rw [h1 h64, gval, if_pos he, one_mul], by norm_num, fun _ _ => rfl, fun h => by omega, fun h => by omega⟩
    · exact ⟨_, by rw [h1 h64, gval, if_neg he], const_near.1, fun h => absurd h he, fun _ _ => rfl, fun h => by omega⟩
  · have hx : (1 : ℝ) ≤ (n : ℝ) / 2 := by
      have : (65 : ℝ) ≤ n := by exact_mod_cast (by omega : 65 ≤ n)
      linarith
    have hg : 0 < Gamma ((n : ℝ) / 2) := Gamma_pos_of_pos (by linarith)
    have hr := exp_near (OnOff.Lz.gammln_err_real hx)
    refine ⟨exp (OnOff.gammln ((n : ℝ) / 2) - log (Gamma ((n : ℝ) / 2))), ?_, hr.trans (by norm_num), fun _ h => absurd h h64, fun _ h => absurd h h64, fun _ => hr⟩
    rw [h2 (by omega), exp_sub, exp_log hg, gammln_same]
    field_simp

/-! ## C153 -/

/-- C153, `hgamma(n)` for every count n ≥ 1 after every sequence of calls of `hgamma`, whatever the rest of the table held at the start: for even n up to 64 it is the gamma function of n/2, for odd n up to 64 it is the same multiple of it, within 4 parts in 1e8 (the square root of pi in the table is a single precision constant), and above 64 it is within 4 parts in 1e10. -/
theorem C153_hgamma (rest : ℕ → ℝ) (ns : List ℕ) (n : ℕ) (hn : 1 ≤ n) :
    |((after (GTable.start rest) ns).call n).1 - Gamma ((n : ℝ) / 2)| ≤ 4 / 10 ^ 8 * Gamma ((n : ℝ) / 2) ∧
    (n % 2 = 0 → n ≤ 64 → ((after (GTable.start rest) ns).call n).1 = Gamma ((n : ℝ) / 2)) ∧
    (n % 2 = 1 → n ≤ 64 → ((after (GTable.start rest) ns).call n).1 = 14868421 / 8388608 / √π * Gamma ((n : ℝ) / 2)) ∧
    (64 < n → |((after (GTable.start rest) ns).call n).1 - Gamma ((n : ℝ) / 2)| ≤ 4 / 10 ^ 10 * Gamma ((n : ℝ) / 2)) := by
  obtain ⟨r, e, h1, h2, h3, h4⟩ := call_near (good_after (good_start rest) ns) n hn
  have hg : 0 < Gamma ((n : ℝ) / 2) := Gamma_pos_of_pos (by positivity)
  have hd : r * Gamma ((n : ℝ) / 2) - Gamma ((n : ℝ) / 2) = (r - 1) * Gamma ((n : ℝ) / 2) := by ring
  rw [e]
  refine ⟨?_, fun ha hb => by rw [h2 ha hb, one_mul], fun ha hb => by rw [h3 ha hb], fun h => ?_⟩
  · rw [hd, abs_mul, abs_of_pos hg]; exact mul_le_mul_of_nonneg_right h1 hg.le
  · rw [hd, abs_mul, abs_of_pos hg]; exact mul_le_mul_of_nonneg_right (h4 h) hg.le

/-- A case meeting the hypotheses: the table is extended twice before. -/
example (rest : ℕ → ℝ) : (after (GTable.start rest) [5, 100, 9]).ntop = 9 := by
  simp [after, GTable.call, GTable.start]

end Verif.Mvnt
