import Verif.Count.Gammln
import Mathlib.Analysis.Calculus.Deriv.MeanValue
import Mathlib.Analysis.SpecialFunctions.Log.Deriv
import Mathlib.Analysis.SpecialFunctions.Stirling
import Mathlib.Analysis.SpecialFunctions.Complex.LogBounds
import Mathlib.Analysis.SpecialFunctions.Log.Summable

/-!
# Accuracy of the log gamma function: lemmas

Polynomials are lists of coefficients, so that the kernel can compute with them.
-/

set_option linter.unusedSectionVars false

namespace Verif.OnOff.Lz

open Filter Topology

/-! ## Polynomials -/

/-- The value of the polynomial with the coefficients in the list, that of the constant term first. -/
noncomputable def pev : List ℚ → ℝ → ℝ
  | [], _ => 0
  | a :: l, z => a + z * pev l z

/-- Sum. -/
def padd : List ℚ → List ℚ → List ℚ
  | [], m => m
  | l, [] => l
  | a :: l, b :: m => (a + b) :: padd l m

/-- Multiple. -/
def psc (c : ℚ) (l : List ℚ) : List ℚ := l.map (c * ·)

/-- Product. -/
def pmul : List ℚ → List ℚ → List ℚ
  | [], _ => []
  | a :: l, m => padd (psc a m) (0 :: pmul l m)

/-- Derivative. -/
def pder : List ℚ → List ℚ
  | [] => []
  | _ :: l => padd l (0 :: pder l)

/-- The polynomial at the argument plus one. -/
def pshift : List ℚ → List ℚ
  | [] => []
  | a :: l => padd [a] (pmul [1, 1] (pshift l))

theorem pev_add : ∀ (l m : List ℚ) (z : ℝ), pev (padd l m) z = pev l z + pev m z
  | [], m, z => by simp [padd, pev]
  | a :: l, [], z => by simp [padd, pev]
  | a :: l, b :: m, z => by simp only [padd, pev, pev_add l m]; push_cast; ring

theorem pev_sc (c : ℚ) : ∀ (l : List ℚ) (z : ℝ), pev (psc c l) z = c * pev l z
  | [], z => by simp [psc, pev]
  | a :: l, z => by
    have := pev_sc c l z
    simp only [psc, List.map_cons, pev] at this ⊢
    rw [this]; push_cast; ring

theorem pev_mul : ∀ (l m : List ℚ) (z : ℝ), pev (pmul l m) z = pev l z * pev m z
  | [], m, z => by simp [pmul, pev]
  | a :: l, m, z => by simp only [pmul, pev, pev_add, pev_sc, pev_mul l m]; push_cast; ring

theorem pev_shift : ∀ (l : List ℚ) (z : ℝ), pev (pshift l) z = pev l (z + 1)
  | [], z => by simp [pshift, pev]
  | a :: l, z => by simp only [pshift, pev, pev_add, pev_mul, pev_shift l]; push_cast; ring

theorem pev_der : ∀ (l : List ℚ) (z : ℝ), HasDerivAt (pev l) (pev (pder l) z) z
  | [], z => hasDerivAt_const z _
  | a :: l, z => by
    have h := (((hasDerivAt_id z).mul (pev_der l z)).const_add (a : ℝ))
    refine h.congr_deriv ?_
    simp only [pder, pev_add, pev, id]; push_cast; ring

theorem pev_nonneg : ∀ (l : List ℚ) (_ : ∀ a ∈ l, 0 ≤ a) {z : ℝ} (_ : 0 ≤ z), 0 ≤ pev l z
  | [], _, z, _ => le_refl _
  | a :: l, h, z, hz => by
    have h1 := pev_nonneg l (fun b hb => h b (by simp [hb])) hz
    have h2 : (0 : ℝ) ≤ a := by exact_mod_cast h a (by simp)
    simp only [pev]; positivity

theorem pev_pos {a : ℚ} {l : List ℚ} (ha : 0 < a) (h : ∀ a ∈ l, 0 ≤ a) {z : ℝ} (hz : 0 ≤ z) : 0 < pev (a :: l) z := by
  have h1 := pev_nonneg l h hz
  have h2 : (0 : ℝ) < a := by exact_mod_cast ha
  simp only [pev]; positivity

/-- The sum of fractions over a common denominator. -/
def fsum : List (List ℚ × List ℚ) → List ℚ × List ℚ
  | [] => ([], [1])
  | (n, d) :: fs => (padd (pmul n (fsum fs).2) (pmul d (fsum fs).1), pmul d (fsum fs).2)

theorem fsum_eval : ∀ (fs : List (List ℚ × List ℚ)) (z : ℝ) (_ : ∀ f ∈ fs, 0 < pev f.2 z),
    0 < pev (fsum fs).2 z ∧ (fs.map fun f => pev f.1 z / pev f.2 z).sum = pev (fsum fs).1 z / pev (fsum fs).2 z
  | [], z, _ => by simp [fsum, pev]
  | (n, d) :: fs, z, h => by
    obtain ⟨h1, h2⟩ := fsum_eval fs z fun f hf => h f (by simp [hf])
    have h3 : 0 < pev d z := h (n, d) (by simp)
    refine ⟨by simp only [fsum, pev_mul]; positivity, ?_⟩
    simp only [List.map_cons, List.sum_cons, h2, fsum, pev_add, pev_mul]
    field_simp

/-- Whether the list shows that the polynomial is positive for all arguments from zero on. -/
def posList (l : List ℚ) : Bool :=
  match l with
  | [] => false
  | a :: l => decide (0 < a) && l.all fun b => decide (0 ≤ b)

theorem posList_pos {l : List ℚ} (h : posList l = true) {z : ℝ} (hz : 0 ≤ z) : 0 < pev l z := by
  cases l with
  | nil => simp [posList] at h
  | cons a l =>
    simp only [posList, Bool.and_eq_true, decide_eq_true_eq, List.all_eq_true] at h
    exact pev_pos h.1 h.2 hz

/-- Fractions with a sum that is not negative from zero on. -/
def nnFracs (fs : List (List ℚ × List ℚ)) : Bool := (fs.all fun f => posList f.2) && (fsum fs).1.all fun b => decide (0 ≤ b)

theorem nnFracs_sum {fs : List (List ℚ × List ℚ)} (h : nnFracs fs = true) {z : ℝ} (hz : 0 ≤ z) : 0 ≤ (fs.map fun f => pev f.1 z / pev f.2 z).sum := by
  simp only [nnFracs, Bool.and_eq_true, List.all_eq_true, decide_eq_true_eq] at h
  obtain ⟨h1, h2⟩ := fsum_eval fs z fun f hf => posList_pos (h.1 f hf) hz
  rw [h2]
  exact div_nonneg (pev_nonneg _ h.2 hz) h1.le

/-! ## A convex function that tends to zero -/

theorem nonneg_of_convex {h h' h'' : ℝ → ℝ} (d1 : ∀ z, 0 ≤ z → HasDerivAt h (h' z) z) (d2 : ∀ z, 0 ≤ z → HasDerivAt h' (h'' z) z) (hn : ∀ z, 0 ≤ z → 0 ≤ h'' z)
    (hl : Tendsto (fun n : ℕ => h n) atTop (𝓝 0)) {z : ℝ} (hz : 0 ≤ z) : 0 ≤ h z := by
  have mono : MonotoneOn h' (Set.Ici 0) := by
    refine monotoneOn_of_deriv_nonneg (convex_Ici 0) (fun x hx => (d2 x hx).continuousAt.continuousWithinAt) (fun x hx => ?_) fun x hx => ?_
    · rw [interior_Ici] at hx; exact (d2 x hx.le).differentiableAt.differentiableWithinAt
    · rw [interior_Ici] at hx; rw [(d2 x hx.le).deriv]; exact hn x hx.le
  have mv : ∀ a b, 0 ≤ a → a < b → ∃ c, a < c ∧ c < b ∧ h b - h a = h' c * (b - a) := by
    intro a b ha hab
    obtain ⟨c, hc, he⟩ := exists_hasDerivAt_eq_slope h h' hab (fun x hx => (d1 x (ha.trans hx.1)).continuousAt.continuousWithinAt) fun x hx => d1 x (ha.trans hx.1.le)
    refine ⟨c, hc.1, hc.2, ?_⟩
    rw [he, div_mul_cancel₀ _ (sub_pos.mpr hab).ne']
  have neg : ∀ a, 0 ≤ a → h' a ≤ 0 := by
    intro a ha
    by_contra hp
    push Not at hp
    have lim : Tendsto (fun n : ℕ => h a + h' a * ((n : ℝ) - a)) atTop atTop :=
      tendsto_atTop_add_const_left _ _ (Tendsto.const_mul_atTop hp (tendsto_atTop_add_const_right _ _ tendsto_natCast_atTop_atTop))
    obtain ⟨n, hn1, hn2, hn3⟩ := ((lim.eventually_ge_atTop 1).and ((tendsto_natCast_atTop_atTop.eventually_gt_atTop a).and (hl.eventually (gt_mem_nhds (show (0 : ℝ) < 1 by norm_num))))).exists
    obtain ⟨c, hc1, hc2, hc3⟩ := mv a n ha hn2
    have : h' a ≤ h' c := mono ha (ha.trans hc1.le) hc1.le
    nlinarith
  have anti : ∀ a b, 0 ≤ a → a < b → h b ≤ h a := by
    intro a b ha hab
    obtain ⟨c, hc1, hc2, hc3⟩ := mv a b ha hab
    have := neg c (ha.trans hc1.le)
    nlinarith
  refine le_of_tendsto hl ?_
  filter_upwards [tendsto_natCast_atTop_atTop.eventually_gt_atTop z] with n hn
  exact anti z n hz hn

end Verif.OnOff.Lz
