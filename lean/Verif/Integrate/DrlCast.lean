import Verif.Integrate.DrlFit
import Mathlib.Data.Rat.Cast.Order

/-!
# The basic rules of DCUHRE: the tabulated rules

The decimals are rational numbers, so that what the tables have to satisfy can be computed.
-/

set_option linter.unusedSectionVars false

namespace Verif.Drl

open Finset

/-- A list of rational numbers as one of real numbers. -/
def up (l : List ℚ) : List ℝ := l.map (↑)

theorem up_inj : Function.Injective up := List.map_injective_iff.2 Rat.cast_injective

theorem sgn_up : ∀ g : List ℚ, sgn (up g) = (sgn g).map up
  | [] => rfl
  | m :: g => by
    have ih := sgn_up g
    rw [up] at ih
    rw [up, List.map_cons, sgn, sgn, ih, List.map_flatMap, List.flatMap_map]
    congr 1
    funext y
    by_cases h : m = 0
    · simp [h, up]
    · simp [h, up]

theorem Pm_up (g : List ℚ) : Pm (up g) = (Pm g).image up := by
  ext p
  rw [mem_Pm, mem_image]
  constructor
  · intro h
    rw [← List.mem_permutations, up, ← List.map_permutations, List.mem_map] at h
    obtain ⟨q, hq, e⟩ := h
    exact ⟨q, mem_Pm.2 (List.mem_permutations.1 hq), e⟩
  · rintro ⟨q, hq, rfl⟩
    exact (mem_Pm.1 hq).map _

theorem orb_up (g : List ℚ) : orb (up g) = (orb g).image up := by
  unfold orb
  rw [Pm_up, image_biUnion, biUnion_image]
  congr 1
  funext p
  rw [sgn_up]
  ext y
  simp

/-- The orbit, in a form that can be computed. -/
def orbC (g : List ℚ) : Finset (List ℚ) := (g.permutations'.flatMap sgn).toFinset

theorem orb_eq (g : List ℚ) : orb g = orbC g := by
  ext y
  simp [orb, orbC, mem_Pm]

/-- A table with decimals. -/
structure Casts (t : Tab ℝ) (q : Tab ℚ) : Prop where
  wtleng : t.wtleng = q.wtleng
  g : ∀ i, t.g i = up (q.g i)
  w : ∀ k i, t.w k i = (q.w k i : ℚ)
  rulpts : ∀ i, t.rulpts i = (q.rulpts i : ℚ)
  errcof : ∀ i, t.errcof i = (q.errcof i : ℚ)

theorem up_gen (n : ℕ) (vs : List ℚ) : up (gen n vs) = gen n (up vs) := by simp [up, gen]

theorem dec_cast (p : ℤ × ℕ) : (dec p : ℝ) = ((dec p : ℚ) : ℝ) := by simp [dec]

theorem entry_cast (l : List (ℤ × ℕ)) (i : ℕ) : (entry l i : ℝ) = ((entry l i : ℚ) : ℝ) := dec_cast _

theorem casts132 : Casts d132 d132 := by
  refine ⟨rfl, fun i => ?_, fun k i => entry_cast _ _, fun i => ?_, fun i => ?_⟩
  · simp only [d132]
    rw [up_gen]
    congr 1
    split <;> simp [up, entry_cast]
  · simp only [d132]; split_ifs <;> simp
  · simp only [d132]; split_ifs <;> simp

theorem casts113 : Casts d113 d113 := by
  refine ⟨rfl, fun i => ?_, fun k i => entry_cast _ _, fun i => ?_, fun i => ?_⟩
  · simp only [d113]
    rw [up_gen]
    congr 1
    split <;> simp [up, entry_cast]
  · simp only [d113]; split_ifs <;> simp
  · simp only [d113]; split_ifs <;> simp

/-- What is to be computed for a table. -/
def Check (q : Tab ℚ) (n : ℕ) : Prop :=
  3 ≤ q.wtleng ∧ 1 ≤ n ∧ q.g 1 = List.replicate n 0 ∧ (0 < (q.g 2).getD 0 0 ∧ q.g 2 = ax n 0 ((q.g 2).getD 0 0)) ∧ (0 < (q.g 3).getD 0 0 ∧ q.g 3 = ax n 0 ((q.g 3).getD 0 0)) ∧
  (∀ i ∈ Icc 1 q.wtleng, (q.g i).length = n ∧ (q.g i).Pairwise (· ≥ ·) ∧ (∀ m ∈ q.g i, 0 ≤ m ∧ m ≤ 1) ∧ ((#(orbC (q.g i)) : ℕ) : ℚ) = q.rulpts i) ∧
  ((List.range q.wtleng).map fun i => q.g (i + 1)).Nodup

instance (q : Tab ℚ) (n : ℕ) : Decidable (Check q n) := by unfold Check; infer_instance

theorem check132 : Check d132 2 := by decide +kernel

theorem check113 : Check d113 3 := by decide +kernel

theorem up_ax (n i : ℕ) (v : ℚ) : up (ax n i v) = ax n i (v : ℝ) := by
  simp [up, ax, List.map_set]

theorem fit_cast {t : Tab ℝ} {q : Tab ℚ} (hc : Casts t q) {n : ℕ} (h : Check q n) : Fit t n := by
  obtain ⟨h1, h2, h3, ⟨h4, h5⟩, ⟨h6, h7⟩, h8, h9⟩ := h
  refine ⟨by rw [hc.wtleng]; exact h1, h2, by rw [hc.g, h3]; simp [up], ⟨_, Rat.cast_pos.2 h4, by rw [hc.g, ← up_ax, ← h5]⟩, ⟨_, Rat.cast_pos.2 h6, by rw [hc.g, ← up_ax, ← h7]⟩, ?_, ?_, ?_⟩
  · intro i i1 i2
    rw [hc.g, up, List.length_map]
    exact (h8 i (mem_Icc.2 ⟨by omega, hc.wtleng ▸ i2⟩)).1
  · intro i i1 i2
    rw [hc.g, up, List.pairwise_map]
    exact (h8 i (mem_Icc.2 ⟨by omega, hc.wtleng ▸ i2⟩)).2.1.imp fun h => Rat.cast_le.2 h
  · intro i i1 i2 m hm
    rw [hc.g, up] at hm
    obtain ⟨m', hm', rfl⟩ := List.mem_map.1 hm
    exact Rat.cast_nonneg.2 ((h8 i (mem_Icc.2 ⟨by omega, hc.wtleng ▸ i2⟩)).2.2.1 m' hm').1

theorem apart_cast {t : Tab ℝ} {q : Tab ℚ} (hc : Casts t q) {n : ℕ} (h : Check q n) : Apart t := by
  obtain ⟨h1, h2, h3, -, -, h8, h9⟩ := h
  refine ⟨fun i j i1 i2 j1 j2 e => ?_, fun i i1 i2 m hm => ?_⟩
  · rw [hc.g, hc.g] at e
    have e := up_inj e
    rw [hc.wtleng] at i2 j2
    have := (List.nodup_map_iff_inj_on List.nodup_range).1 h9 (i - 1) (by simp; omega) (j - 1) (by simp; omega) (by rw [show i - 1 + 1 = i by omega, show j - 1 + 1 = j by omega]; exact e)
    omega
  · rw [hc.g, up] at hm
    obtain ⟨m', hm', rfl⟩ := List.mem_map.1 hm
    have := ((h8 i (mem_Icc.2 ⟨by omega, hc.wtleng ▸ i2⟩)).2.2.1 m' hm').2
    exact_mod_cast this

theorem rulpts_cast {t : Tab ℝ} {q : Tab ℚ} (hc : Casts t q) {n : ℕ} (h : Check q n) {i : ℕ} (h1 : 1 ≤ i) (h2 : i ≤ t.wtleng) : ((orb (t.g i)).card : ℝ) = t.rulpts i := by
  rw [hc.rulpts, hc.g, orb_up, card_image_of_injective _ up_inj, orb_eq, ← (h.2.2.2.2.2.1 i (mem_Icc.2 ⟨h1, hc.wtleng ▸ h2⟩)).2.2.2]
  simp

end Verif.Drl
