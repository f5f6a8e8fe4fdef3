import Verif.Lk.Lk
import Mathlib.Analysis.SpecialFunctions.Integrals.Basic
import Mathlib.Analysis.SpecialFunctions.ImproperIntegrals
import Mathlib.Tactic.Linarith
import Mathlib.Tactic.FieldSimp

/-!
# Properties C191-C194: the grid of fluxes, interpolation and rates
-/

set_option linter.unusedSectionVars false

noncomputable section

namespace Verif.Lk

open Real intervalIntegral Set

/-! ## C191: the grid -/

/-- What `setstp` and `stpinf` are for: at least two steps lead from the lower to the upper limit, in order. -/
def Steps (pt : ℝ → ℝ → ℤ → ℕ → ℝ) : Prop :=
  ∀ lo hi n, lo < hi → 2 ≤ n.natAbs → pt lo hi n 1 = lo ∧ pt lo hi n n.natAbs = hi ∧ ∀ i j, 1 ≤ i → i < j → j ≤ n.natAbs → pt lo hi n i < pt lo hi n j

theorem oneMore_abs (n : ℤ) : (oneMore n).natAbs = n.natAbs + 1 := by
  rw [oneMore]; split_ifs <;> omega

theorem map_range_pairwise {h : ℕ → ℝ} {m : ℕ} (hh : ∀ i j, i < j → j < m → h i < h j) : ((List.range m).map h).Pairwise (· < ·) := by
  rw [List.pairwise_map]
  refine List.Pairwise.imp_of_mem (fun {a b} _ hb hab => hh a b hab (List.mem_range.1 hb)) (List.pairwise_lt_range)

/-- C191: the grid has the number of points asked for, in strictly increasing order, starts at the lower limit and passes through the threshold, the second limit and the last one, if these are in order and there are two points up to the threshold.

Missing: a last limit below the second (`C191_violated_order`), one point up to the threshold (`C191_violated_low`). -/
theorem C191_grid_partial {pt : ℝ → ℝ → ℤ → ℕ → ℝ} (hp : Steps pt) {nFmax : ℕ} {fth f1 f2 f3 : ℝ} {n1 n2 n3 : ℤ} (hn : n1.natAbs + n2.natAbs + n3.natAbs ≤ nFmax)
    (h1 : f1 < fth) (h2 : fth < f2) (h3 : f2 < f3) (hn1 : 2 ≤ n1.natAbs) :
    ∃ g, setFgrid pt nFmax fth f1 f2 f3 n1 n2 n3 = some g ∧ g.length = n1.natAbs + n2.natAbs + n3.natAbs ∧ g.Pairwise (· < ·) ∧
      g[0]? = some f1 ∧ g[n1.natAbs - 1]? = some fth ∧ (n2 ≠ 0 → g[n1.natAbs + n2.natAbs - 1]? = some f2) ∧ (n3 ≠ 0 → g[n1.natAbs + n2.natAbs + n3.natAbs - 1]? = some f3) := by
  have e1 : n1 ≠ 0 := by rintro rfl; simp at hn1
  obtain ⟨a1, a2, a3⟩ := hp f1 fth n1 h1 hn1
  refine ⟨_, by rw [setFgrid, if_neg (by omega), if_neg (not_le.2 h1), if_neg (not_le.2 h2), if_neg e1], ?_, ?_, ?_, ?_, ?_, ?_⟩
  · simp; omega
  · have b2 : ∀ i, i < n2.natAbs → fth < pt fth f2 (oneMore n2) (i + 2) ∧ pt fth f2 (oneMore n2) (i + 2) ≤ f2 := by
      intro i hi
      obtain ⟨c1, c2, c3⟩ := hp fth f2 (oneMore n2) h2 (by rw [oneMore_abs]; omega)
      refine ⟨c1.symm.trans_lt (c3 1 (i + 2) le_rfl (by omega) (by rw [oneMore_abs]; omega)), ?_⟩
      rcases Nat.lt_or_ge (i + 2) (oneMore n2).natAbs with h | h
      · exact ((c3 (i + 2) _ (by omega) h le_rfl).trans_eq c2).le
      · rw [show i + 2 = (oneMore n2).natAbs by rw [oneMore_abs] at h ⊢; omega, c2]
    have b3 : ∀ i, i < n3.natAbs → f2 < pt f2 f3 (oneMore n3) (i + 2) := by
      intro i hi
      obtain ⟨c1, c2, c3⟩ := hp f2 f3 (oneMore n3) h3 (by rw [oneMore_abs]; omega)
      exact c1.symm.trans_lt (c3 1 (i + 2) le_rfl (by omega) (by rw [oneMore_abs]; omega))
    have b1 : ∀ i, i < n1.natAbs - 1 → pt f1 fth n1 (i + 1) < fth := fun i hi => (a3 (i + 1) n1.natAbs (by omega) (by omega) le_rfl).trans_eq a2
    have p1 : ((List.range (n1.natAbs - 1)).map fun i => pt f1 fth n1 (i + 1)).Pairwise (· < ·) := map_range_pairwise fun i j hij hj => a3 _ _ (by omega) (by omega) (by omega)
    have p2 : ((List.range n2.natAbs).map fun i => pt fth f2 (oneMore n2) (i + 2)).Pairwise (· < ·) := map_range_pairwise fun i j hij hj =>
      (hp fth f2 (oneMore n2) h2 (by rw [oneMore_abs]; omega)).2.2 _ _ (by omega) (by omega) (by rw [oneMore_abs]; omega)
    have p3 : ((List.range n3.natAbs).map fun i => pt f2 f3 (oneMore n3) (i + 2)).Pairwise (· < ·) := map_range_pairwise fun i j hij hj =>
      (hp f2 f3 (oneMore n3) h3 (by rw [oneMore_abs]; omega)).2.2 _ _ (by omega) (by omega) (by rw [oneMore_abs]; omega)
    simp only [List.append_assoc, List.pairwise_append, List.mem_append, List.mem_map, List.mem_range, List.pairwise_singleton, List.mem_cons, List.not_mem_nil, or_false]
    refine ⟨p1, ⟨trivial, ⟨p2, p3, ?_⟩, ?_⟩, ?_⟩
    · rintro _ ⟨i, hi, rfl⟩ _ ⟨j, hj, rfl⟩
      exact (b2 i hi).2.trans_lt (b3 j hj)
    · rintro _ rfl _ (⟨j, hj, rfl⟩ | ⟨j, hj, rfl⟩)
      · exact (b2 j hj).1
      · exact h2.trans (b3 j hj)
    · rintro _ ⟨i, hi, rfl⟩ _ (rfl | ⟨j, hj, rfl⟩ | ⟨j, hj, rfl⟩)
      · exact b1 i hi
      · exact (b1 i hi).trans (b2 j hj).1
      · exact (b1 i hi).trans (h2.trans (b3 j hj))
  · rw [List.append_assoc, List.append_assoc, List.getElem?_append_left (by simp; omega)]
    simp [show 0 < n1.natAbs - 1 by omega, a1]
  · rw [List.append_assoc, List.append_assoc, List.getElem?_append_right (by simp)]
    simp
  · intro hn2
    have : n2.natAbs ≠ 0 := by omega
    obtain ⟨c1, c2, c3⟩ := hp fth f2 (oneMore n2) h2 (by rw [oneMore_abs]; omega)
    rw [List.getElem?_append_left (by simp; omega), List.getElem?_append_right (by simp; omega)]
    simp only [List.length_append, List.length_map, List.length_range, List.length_singleton]
    rw [List.getElem?_map, List.getElem?_range (by omega), Option.map_some]
    rw [show n1.natAbs + n2.natAbs - 1 - (n1.natAbs - 1 + 1) + 2 = (oneMore n2).natAbs by rw [oneMore_abs]; omega, c2]
  · intro hn3
    have : n3.natAbs ≠ 0 := by omega
    obtain ⟨c1, c2, c3⟩ := hp f2 f3 (oneMore n3) h3 (by rw [oneMore_abs]; omega)
    rw [List.getElem?_append_right (by simp; omega)]
    simp only [List.length_append, List.length_map, List.length_range, List.length_singleton]
    rw [List.getElem?_map, List.getElem?_range (by omega), Option.map_some]
    rw [show n1.natAbs + n2.natAbs + n3.natAbs - 1 - (n1.natAbs - 1 + 1 + n2.natAbs) + 2 = (oneMore n3).natAbs by rw [oneMore_abs]; omega, c2]

/-- C191: grids that do not fit, lower limits not below the threshold and second limits not above it are refused. -/
theorem C191_refused {pt : ℝ → ℝ → ℤ → ℕ → ℝ} {nFmax : ℕ} {fth f1 f2 f3 : ℝ} {n1 n2 n3 : ℤ} (h : nFmax < n1.natAbs + n2.natAbs + n3.natAbs ∨ fth ≤ f1 ∨ f2 ≤ fth) :
    setFgrid pt nFmax fth f1 f2 f3 n1 n2 n3 = none := by
  rw [setFgrid]
  split_ifs with a b c d <;> first | rfl | (exfalso; rcases h with h | h | h <;> [exact a h; exact b h; exact c h])

/-- Equal steps. -/
def linear (lo hi : ℝ) (n : ℤ) (i : ℕ) : ℝ := lo + (i - 1) * ((hi - lo) / (n.natAbs - 1))

theorem linear_steps : Steps linear := by
  intro lo hi n h hn
  have h0 : (0 : ℝ) < n.natAbs - 1 := by
    have : (2 : ℝ) ≤ n.natAbs := by exact_mod_cast hn
    linarith
  refine ⟨by simp [linear], ?_, fun i j _ hij _ => ?_⟩
  · rw [linear, mul_div_cancel₀ _ h0.ne']; ring
  · have : (i : ℝ) < j := by exact_mod_cast hij
    have hd : 0 < (hi - lo) / ((n.natAbs : ℝ) - 1) := div_pos (by linarith) h0
    rw [linear, linear]
    have := mul_lt_mul_of_pos_right (sub_lt_sub_right this 1) hd
    linarith

/-- C191 fails if the last limit is below the second: nothing is refused and the grid turns back, here 1/2, 1, 3, 2. -/
theorem C191_violated_order : setFgrid linear 10 1 (1 / 2) 3 2 2 1 1 = some [1 / 2, 1, 3, 2] := by
  rw [setFgrid, if_neg (by norm_num), if_neg (by norm_num), if_neg (by norm_num), if_neg (by norm_num)]
  simp [List.range_succ, linear, oneMore]
  norm_num

/-- C191 fails for one point up to the threshold: the lower limit is not in the grid. -/
theorem C191_violated_low {pt : ℝ → ℝ → ℤ → ℕ → ℝ} {fth f1 f2 f3 : ℝ} (h1 : f1 < fth) (h2 : fth < f2) : setFgrid pt 10 fth f1 f2 f3 1 0 0 = some [fth] := by
  rw [setFgrid, if_neg (by norm_num), if_neg (not_le.2 h1), if_neg (not_le.2 h2), if_neg (by norm_num)]
  simp

/-- Three, two and two points. -/
example : ∃ g, setFgrid linear 10 2 1 3 5 3 2 2 = some g ∧ g.length = 7 := by
  obtain ⟨g, h, h', _⟩ := C191_grid_partial linear_steps (nFmax := 10) (fth := 2) (f1 := 1) (f2 := 3) (f3 := 5) (n1 := 3) (n2 := 2) (n3 := 2) (by norm_num) (by norm_num) (by norm_num) (by norm_num) (by norm_num)
  exact ⟨g, h, h'⟩

/-! ## C192: interpolation -/

/-- The bisection ends at neighbours. -/
theorem locate_spec {g : ℕ → ℝ} {f : ℝ} : ∀ (m nlo nhi : ℕ), nhi - nlo ≤ m → nlo < nhi → g nlo ≤ f →
    nlo ≤ (locate g 1 f nlo nhi).1 ∧ (locate g 1 f nlo nhi).2 = (locate g 1 f nlo nhi).1 + 1 ∧ (locate g 1 f nlo nhi).2 ≤ nhi ∧ g (locate g 1 f nlo nhi).1 ≤ f ∧
      ((locate g 1 f nlo nhi).2 = nhi ∨ f < g (locate g 1 f nlo nhi).2) := by
  intro m
  induction m with
  | zero => intro nlo nhi h h'; omega
  | succ m ih =>
      intro nlo nhi hm hlt hlo
      rw [locate]
      by_cases h : nhi - nlo > 1
      · simp only [if_pos h]
        by_cases hg : (g ((nhi + nlo) / 2) - f) / 1 > 0
        · simp only [if_pos hg]
          have := ih nlo ((nhi + nlo) / 2) (by omega) (by omega) hlo
          refine ⟨this.1, this.2.1, by omega, this.2.2.2.1, Or.inr ?_⟩
          rcases this.2.2.2.2 with h' | h'
          · rw [h']; rw [div_one] at hg; linarith
          · exact h'
        · simp only [if_neg hg]
          have := ih ((nhi + nlo) / 2) nhi (by omega) (by omega) (by rw [div_one] at hg; linarith)
          exact ⟨by omega, this.2⟩
      · simp only [if_neg h]
        exact ⟨le_rfl, by omega, le_rfl, hlo, Or.inl trivial⟩

/-- An increasing grid of positive fluxes with positive rates. -/
structure Grid (g y : ℕ → ℝ) (n : ℕ) : Prop where
  two : 2 ≤ n
  pos : ∀ i, 1 ≤ i → i ≤ n → 0 < g i ∧ 0 < y i
  mono : ∀ i j, 1 ≤ i → i < j → j ≤ n → g i < g j

theorem Grid.sgn {g y : ℕ → ℝ} {n : ℕ} (h : Grid g y n) : (g n - g 1) / |g n - g 1| = 1 := by
  have := h.mono 1 n le_rfl h.two le_rfl
  rw [abs_of_pos (by linarith), div_self (by linarith)]

theorem Grid.at {g y : ℕ → ℝ} {n k : ℕ} {f : ℝ} (h : Grid g y n) (hk : 1 ≤ k) (hkn : k + 1 ≤ n) (hf : g k ≤ f) (hf' : k + 1 = n ∨ f < g (k + 1)) : locate g 1 f 1 n = (k, k + 1) := by
  have hle : ∀ i j, 1 ≤ i → i ≤ j → j ≤ n → g i ≤ g j := fun i j h1 h2 h3 => by
    rcases h2.lt_or_eq with h2 | rfl
    · exact (h.mono i j h1 h2 h3).le
    · exact le_rfl
  obtain ⟨a, b, c, d, e⟩ := locate_spec (g := g) (f := f) n 1 n (by omega) h.two ((hle 1 k le_rfl hk (by omega)).trans hf)
  set q := locate g 1 f 1 n
  have : q.1 = k := by
    rcases lt_trichotomy q.1 k with h1 | h1 | h1
    · rcases e with e | e
      · omega
      · have := hle q.2 k (by omega) (by omega) (by omega); linarith
    · exact h1
    · rcases hf' with hf' | hf'
      · omega
      · have := hle (k + 1) q.1 (by omega) h1 (by omega); linarith
  exact Prod.ext this (by omega)

theorem powInterp_eq {f1 f2 y1 y2 : ℝ} (hf1 : 0 < f1) (hf : f1 < f2) (hy1 : 0 < y1) (hy2 : 0 < y2) (f : ℝ) : powInterp f1 f2 y1 y2 f = some (y1 * (f / f1) ^ (log (y2 / y1) / log (f2 / f1))) := by
  rw [powInterp, if_pos ⟨div_pos hy2 hy1, div_pos (hf1.trans hf) hf1, hf.ne'⟩]

theorem pow_end {f1 f2 y1 y2 : ℝ} (hf1 : 0 < f1) (hf : f1 < f2) (hy1 : 0 < y1) (hy2 : 0 < y2) : y1 * (f2 / f1) ^ (log (y2 / y1) / log (f2 / f1)) = y2 := by
  have h1 : 1 < f2 / f1 := (one_lt_div hf1).2 hf
  rw [rpow_def_of_pos (by linarith), mul_div_cancel₀ _ (log_pos h1).ne', exp_log (div_pos hy2 hy1)]
  field_simp

/-- C192: the value between two points of the grid, or above the last. -/
theorem C192_value {g y : ℕ → ℝ} {n k : ℕ} {flo f : ℝ} (h : Grid g y n) (hk : 1 ≤ k) (hkn : k + 1 ≤ n) (hlo : flo ≤ g 1) (hf : g k ≤ f) (hf' : k + 1 = n ∨ f < g (k + 1)) :
    ∃ v, dRdFat g y n flo f = some v ∧ log v = log (y k) + (log f - log (g k)) / (log (g (k + 1)) - log (g k)) * (log (y (k + 1)) - log (y k)) := by
  obtain ⟨p1, p2⟩ := h.pos k hk (by omega)
  obtain ⟨p3, p4⟩ := h.pos (k + 1) (by omega) hkn
  have hm := h.mono k (k + 1) hk (by omega) hkn
  have hf0 : 0 < f := p1.trans_le hf
  have h1k : g 1 ≤ g k := by
    rcases hk.lt_or_eq with hk | rfl
    · exact (h.mono 1 k le_rfl hk (by omega)).le
    · exact le_rfl
  refine ⟨_, by rw [dRdFat, if_neg (not_lt.2 (hlo.trans (h1k.trans hf)))]; simp only [h.sgn, h.at hk hkn hf hf']; exact powInterp_eq p1 hm p2 p4 f, ?_⟩
  rw [log_mul p2.ne' (rpow_pos_of_pos (div_pos hf0 p1) _).ne', log_rpow (div_pos hf0 p1), log_div hf0.ne' p1.ne', log_div p4.ne' p2.ne', log_div p3.ne' p1.ne']
  ring

/-- C192: at the points of the grid the rate is that of the grid. -/
theorem C192_nodes {g y : ℕ → ℝ} {n k : ℕ} {flo : ℝ} (h : Grid g y n) (hk : 1 ≤ k) (hkn : k ≤ n) (hlo : flo ≤ g 1) : dRdFat g y n flo (g k) = some (y k) := by
  have h1k : g 1 ≤ g k := by
    rcases hk.lt_or_eq with hk | rfl
    · exact (h.mono 1 k le_rfl hk (by omega)).le
    · exact le_rfl
  rw [dRdFat, if_neg (not_lt.2 (hlo.trans h1k))]
  have h2 := h.two
  rcases hkn.lt_or_eq with hlt | rfl
  · simp only [h.sgn, h.at hk hlt le_rfl (Or.inr (h.mono k (k + 1) hk (by omega) hlt))]
    rw [powInterp_eq (h.pos k hk hkn).1 (h.mono k (k + 1) hk (by omega) hlt) (h.pos k hk hkn).2 (h.pos (k + 1) (by omega) hlt).2, div_self (h.pos k hk hkn).1.ne', one_rpow, mul_one]
  · obtain ⟨j, rfl⟩ : ∃ j, k = j + 1 := ⟨k - 1, by omega⟩
    have hm := h.mono j (j + 1) (by omega) (by omega) le_rfl
    simp only [h.sgn, h.at (k := j) (by omega) le_rfl hm.le (Or.inl rfl)]
    rw [powInterp_eq (h.pos j (by omega) (by omega)).1 hm (h.pos j (by omega) (by omega)).2 (h.pos (j + 1) (by omega) le_rfl).2,
      pow_end (h.pos j (by omega) (by omega)).1 hm (h.pos j (by omega) (by omega)).2 (h.pos (j + 1) (by omega) le_rfl).2]

/-- C192: between two points the rate is between their rates. -/
theorem C192_between {g y : ℕ → ℝ} {n k : ℕ} {flo f : ℝ} (h : Grid g y n) (hk : 1 ≤ k) (hkn : k + 1 ≤ n) (hlo : flo ≤ g 1) (hf : g k ≤ f) (hf' : f ≤ g (k + 1)) :
    ∃ v, dRdFat g y n flo f = some v ∧ min (y k) (y (k + 1)) ≤ v ∧ v ≤ max (y k) (y (k + 1)) := by
  rcases hf'.lt_or_eq with hlt | rfl
  · obtain ⟨p1, p2⟩ := h.pos k hk (by omega)
    obtain ⟨p3, p4⟩ := h.pos (k + 1) (by omega) hkn
    have hm := h.mono k (k + 1) hk (by omega) hkn
    have hf0 : 0 < f := p1.trans_le hf
    obtain ⟨v, hv, hl⟩ := C192_value h hk hkn hlo hf (Or.inr hlt)
    have hv0 : 0 < v := by
      have hh : g 1 ≤ g k := by
        rcases hk.lt_or_eq with hk | rfl
        · exact (h.mono 1 k le_rfl hk (by omega)).le
        · exact le_rfl
      rw [dRdFat, if_neg (not_lt.2 (hlo.trans (hh.trans hf)))] at hv
      simp only [h.sgn, h.at hk hkn hf (Or.inr hlt)] at hv
      rw [powInterp_eq p1 hm p2 p4] at hv
      rw [← Option.some.inj hv]
      exact mul_pos p2 (rpow_pos_of_pos (div_pos hf0 p1) _)
    refine ⟨v, hv, ?_, ?_⟩
    all_goals
      have hd : 0 < log (g (k + 1)) - log (g k) := sub_pos.2 (log_lt_log p1 hm)
      have t0 : 0 ≤ (log f - log (g k)) / (log (g (k + 1)) - log (g k)) := div_nonneg (sub_nonneg.2 (log_le_log p1 hf)) hd.le
      have t1 : (log f - log (g k)) / (log (g (k + 1)) - log (g k)) ≤ 1 := (div_le_one hd).2 (sub_le_sub_right (log_le_log hf0 hlt.le) _)
      set t := (log f - log (g k)) / (log (g (k + 1)) - log (g k))
    · rcases le_total (y k) (y (k + 1)) with hy | hy
      · rw [min_eq_left hy, ← log_le_log_iff p2 hv0, hl]
        have := mul_nonneg t0 (sub_nonneg.2 (log_le_log p2 hy)); linarith
      · rw [min_eq_right hy, ← log_le_log_iff p4 hv0, hl]
        have := mul_nonneg (sub_nonneg.2 t1) (sub_nonneg.2 (log_le_log p4 hy)); nlinarith
    · rcases le_total (y k) (y (k + 1)) with hy | hy
      · rw [max_eq_right hy, ← log_le_log_iff hv0 p4, hl]
        have := mul_nonneg (sub_nonneg.2 t1) (sub_nonneg.2 (log_le_log p2 hy)); nlinarith
      · rw [max_eq_left hy, ← log_le_log_iff hv0 p2, hl]
        have := mul_nonneg t0 (sub_nonneg.2 (log_le_log p4 hy)); nlinarith
  · exact ⟨_, C192_nodes h (by omega) hkn hlo, min_le_right _ _, le_max_right _ _⟩

/-- C192: a power law is reproduced, also above the grid. -/
theorem C192_exact {g : ℕ → ℝ} {n : ℕ} {flo f a s : ℝ} (ha : 0 < a) (h : Grid g (fun k => a * g k ^ s) n) (hlo : flo ≤ g 1) (hf : g 1 ≤ f) : dRdFat g (fun k => a * g k ^ s) n flo f = some (a * f ^ s) := by
  obtain ⟨a1, b1, c1, d1, e1⟩ := locate_spec (g := g) (f := f) n 1 n (by omega) h.two hf
  rw [dRdFat, if_neg (not_lt.2 (hlo.trans hf))]
  simp only [h.sgn]
  set q := locate g 1 f 1 n
  rw [b1] at c1 ⊢
  obtain ⟨p1, p2⟩ := h.pos q.1 a1 (by omega)
  obtain ⟨p3, p4⟩ := h.pos (q.1 + 1) (by omega) c1
  have hm := h.mono q.1 (q.1 + 1) a1 (by omega) c1
  have hl : log (g (q.1 + 1) / g q.1) ≠ 0 := (log_pos ((one_lt_div p1).2 hm)).ne'
  have hf0 : 0 < f := p1.trans_le d1
  rw [powInterp_eq p1 hm p2 p4]
  have : a * g (q.1 + 1) ^ s / (a * g q.1 ^ s) = (g (q.1 + 1) / g q.1) ^ s := by
    rw [mul_div_mul_left _ _ ha.ne', div_rpow p3.le p1.le]
  rw [this, log_rpow (div_pos p3 p1), mul_div_assoc, div_self hl, mul_one, div_rpow hf0.le p1.le, mul_assoc, mul_div_cancel₀ _ (rpow_pos_of_pos p1 s).ne']

/-- C192: below the grid the rate is zero. -/
theorem C192_below {g y : ℕ → ℝ} {n : ℕ} {flo f : ℝ} (h : f < flo) : dRdFat g y n flo f = some 0 := if_pos h

/-- C192 fails for the second component of a superposition below the threshold: the grid there is filled with zeros and the interpolation divides zero by zero. -/
theorem C192_violated_second {g iso : ℕ → ℝ} {is sky : ℝ → ℝ} {em flo f : ℝ} {n nF1 k : ℕ} (h : Grid g iso n) (hk : 1 ≤ k) (hkn : k + 1 ≤ n) (hn1 : k < nF1) (hlo : flo ≤ g 1) (hf : g k ≤ f) (hf' : f < g (k + 1)) :
    dRdFat g (fun i => fill is sky em 3 2 nF1 i (g i)) n flo f = none := by
  have h1k : g 1 ≤ g k := by
    rcases hk.lt_or_eq with hk | rfl
    · exact (h.mono 1 k le_rfl hk (by omega)).le
    · exact le_rfl
  rw [dRdFat, if_neg (not_lt.2 (hlo.trans (h1k.trans hf)))]
  simp only [h.sgn, h.at hk hkn hf (Or.inr hf')]
  rw [powInterp, if_neg]
  rintro ⟨h0, _⟩
  simp [fill, hn1] at h0

/-- Fluxes 1, 2, 3 with rates 8, 4, 2. -/
example : Grid (fun k => (k : ℝ)) (fun k => 16 / 2 ^ k) 3 :=
  ⟨by norm_num, fun i h _ => ⟨by exact_mod_cast h, by positivity⟩, fun i j _ h _ => by exact_mod_cast h⟩

/-! ## C193: the rate on the grid -/

/-- Specification: the function between two points: a power law if both values have the same sign, otherwise a straight line. -/
def segFn (f1 f2 y1 y2 f : ℝ) : ℝ :=
  if y2 * y1 > 0 then y1 * (f / f1) ^ (log (y2 / y1) / log (f2 / f1)) else y1 + (y2 - y1) * (f - f1) / (f2 - f1)

/-- Specification: through all points. -/
def pw : List (ℝ × ℝ) → ℝ → ℝ
  | p :: q :: l, f => if f ≤ q.1 then segFn p.1 q.1 p.2 q.2 f else pw (q :: l) f
  | _, _ => 0

theorem segFn_cont {f1 f2 y1 y2 : ℝ} (h1 : 0 < f1) : ContinuousOn (segFn f1 f2 y1 y2) (Icc f1 f2) := by
  by_cases h : y2 * y1 > 0
  · have : segFn f1 f2 y1 y2 = fun f => y1 * (f / f1) ^ (log (y2 / y1) / log (f2 / f1)) := funext fun f => if_pos h
    rw [this]
    exact continuousOn_const.mul ((continuousOn_id.div_const _).rpow_const fun x hx => Or.inl (div_pos (h1.trans_le hx.1) h1).ne')
  · have : segFn f1 f2 y1 y2 = fun f => y1 + (y2 - y1) * (f - f1) / (f2 - f1) := funext fun f => if_neg h
    rw [this]
    exact Continuous.continuousOn (by fun_prop)

theorem pow_integral {f1 f2 y1 s : ℝ} (h1 : 0 < f1) (h : f1 < f2) : ∫ f in f1..f2, y1 * (f / f1) ^ s = if s + 1 ≠ 0 then y1 * f1 * ((f2 / f1) ^ (s + 1) - 1) / (s + 1) else y1 * f1 * log (f2 / f1) := by
  have h0 : (0 : ℝ) ∉ uIcc f1 f2 := by
    rw [uIcc_of_le h.le]; exact fun hh => absurd hh.1 (not_le.2 h1)
  have h2 : 0 < f2 := h1.trans h
  have e : ∫ f in f1..f2, y1 * (f / f1) ^ s = ∫ f in f1..f2, y1 / f1 ^ s * f ^ s := by
    refine integral_congr fun f hf => ?_
    rw [uIcc_of_le h.le] at hf
    rw [div_rpow (h1.le.trans hf.1) h1.le]
    ring
  rw [e, integral_const_mul]
  split_ifs with hs
  · rw [integral_rpow (Or.inr ⟨fun hh => hs (by linarith), h0⟩), div_rpow h2.le h1.le, rpow_add_one h1.ne', rpow_add_one h2.ne']
    have := (rpow_pos_of_pos h1 s).ne'
    field_simp
  · have hs1 : s = -1 := by push Not at hs; linarith
    subst hs1
    simp only [rpow_neg_one]
    rw [integral_inv h0]
    field_simp

theorem seg_integral {f1 f2 y1 y2 : ℝ} (h1 : 0 < f1) (h : f1 < f2) : ∫ f in f1..f2, segFn f1 f2 y1 y2 f = seg f1 f2 y1 y2 := by
  simp only [segFn, seg]
  split_ifs with hy hs
  · rw [pow_integral h1 h, if_pos hs]
  · rw [pow_integral h1 h, if_neg hs]
  · have hd : f2 - f1 ≠ 0 := by linarith
    have e : ∀ f, y1 + (y2 - y1) * (f - f1) / (f2 - f1) = (y1 - (y2 - y1) * f1 / (f2 - f1)) + (y2 - y1) / (f2 - f1) * f := fun f => by ring
    have hi : IntervalIntegrable (fun f : ℝ => (y2 - y1) / (f2 - f1) * f) MeasureTheory.volume f1 f2 := Continuous.intervalIntegrable (by fun_prop) _ _
    simp only [e]
    rw [integral_add intervalIntegrable_const hi, integral_const, integral_const_mul, integral_id, smul_eq_mul]
    field_simp
    ring

/-- The first flux of a grid, and the last. -/
def lastF : ℝ × ℝ → List (ℝ × ℝ) → ℝ
  | p, [] => p.1
  | _, q :: l => lastF q l

theorem lastF_ge {p : ℝ × ℝ} {l : List (ℝ × ℝ)} (h : (p :: l).Pairwise fun a b => a.1 < b.1) : p.1 ≤ lastF p l := by
  induction l generalizing p with
  | nil => exact le_rfl
  | cons q l ih =>
      have := List.pairwise_cons.1 h
      exact (this.1 q (by simp)).le.trans (ih this.2)

theorem rEff_integral {p : ℝ × ℝ} {l : List (ℝ × ℝ)} (h0 : 0 < p.1) (h : (p :: l).Pairwise fun a b => a.1 < b.1) :
    IntervalIntegrable (pw (p :: l)) MeasureTheory.volume p.1 (lastF p l) ∧ ∫ f in p.1..(lastF p l), pw (p :: l) f = rEff (p :: l) := by
  induction l generalizing p with
  | nil => simp [lastF, rEff]
  | cons q l ih =>
      obtain ⟨a, b⟩ := List.pairwise_cons.1 h
      have hpq : p.1 < q.1 := a q (by simp)
      obtain ⟨i1, i2⟩ := ih (h0.trans hpq) b
      have hlast : q.1 ≤ lastF q l := lastF_ge b
      have e1 : Set.EqOn (segFn p.1 q.1 p.2 q.2) (pw (p :: q :: l)) (uIoc p.1 q.1) := by
        intro f hf
        rw [uIoc_of_le hpq.le] at hf
        rw [pw, if_pos hf.2]
      have e2 : Set.EqOn (pw (q :: l)) (pw (p :: q :: l)) (uIoc q.1 (lastF q l)) := by
        intro f hf
        rw [uIoc_of_le hlast] at hf
        rw [pw, if_neg (not_le.2 hf.1)]
      have j1 : IntervalIntegrable (pw (p :: q :: l)) MeasureTheory.volume p.1 q.1 :=
        (ContinuousOn.intervalIntegrable (by rw [uIcc_of_le hpq.le]; exact segFn_cont h0)).congr e1
      have j2 : IntervalIntegrable (pw (p :: q :: l)) MeasureTheory.volume q.1 (lastF q l) := i1.congr e2
      refine ⟨j1.trans j2, ?_⟩
      rw [lastF, ← integral_add_adjacent_intervals j1 j2, rEff, ← seg_integral h0 hpq, ← i2]
      congr 1
      · exact integral_congr_ae (Filter.Eventually.of_forall fun f hf => (e1 hf).symm)
      · exact integral_congr_ae (Filter.Eventually.of_forall fun f hf => (e2 hf).symm)

/-- C193: the rate on the grid is the integral over all fluxes of the grid of the function through its points that is a power law wherever it can be. -/
theorem C193_integral {p : ℝ × ℝ} {l : List (ℝ × ℝ)} (h0 : 0 < p.1) (h : (p :: l).Pairwise fun a b => a.1 < b.1) : rEff (p :: l) = ∫ f in p.1..(lastF p l), pw (p :: l) f :=
  (rEff_integral h0 h).2.symm

theorem segFn_ends {f1 f2 y1 y2 : ℝ} (h1 : 0 < f1) (h : f1 < f2) : segFn f1 f2 y1 y2 f1 = y1 ∧ segFn f1 f2 y1 y2 f2 = y2 := by
  rw [segFn, segFn]
  split_ifs with hy
  · refine ⟨by rw [div_self h1.ne', one_rpow, mul_one], ?_⟩
    have hq : 1 < f2 / f1 := (one_lt_div h1).2 h
    have hy1 : y1 ≠ 0 := by rintro rfl; simp at hy
    have hr : 0 < y2 / y1 := by
      have : y2 / y1 = y2 * y1 / y1 ^ 2 := by field_simp
      rw [this]; positivity
    rw [rpow_def_of_pos (by linarith), mul_div_cancel₀ _ (log_pos hq).ne', exp_log hr]
    field_simp
  · have : f2 - f1 ≠ 0 := by linarith
    refine ⟨by simp, by field_simp; ring⟩

/-- C193: this function goes through the points of the grid. -/
theorem C193_through {p : ℝ × ℝ} {l : List (ℝ × ℝ)} (hl : l ≠ []) (h0 : 0 < p.1) (h : (p :: l).Pairwise fun a b => a.1 < b.1) : ∀ q ∈ p :: l, pw (p :: l) q.1 = q.2 := by
  induction l generalizing p with
  | nil => exact absurd rfl hl
  | cons r l ih =>
      obtain ⟨a, b⟩ := List.pairwise_cons.1 h
      have hpr : p.1 < r.1 := a r (by simp)
      intro q hq
      rcases List.mem_cons.1 hq with rfl | hq
      · rw [pw, if_pos hpr.le, (segFn_ends h0 hpr).1]
      · rcases List.mem_cons.1 hq with rfl | hq
        · rw [pw, if_pos le_rfl, (segFn_ends h0 hpr).2]
        · have hrq : r.1 < q.1 := (List.pairwise_cons.1 b).1 q hq
          rw [pw, if_neg (not_le.2 hrq)]
          exact ih (fun e => by rw [e] at hq; simp at hq) (h0.trans hpr) b q (List.mem_cons_of_mem _ hq)

/-- C193: for a power law the rate is exact. -/
theorem C193_exact {a s : ℝ} (ha : 0 < a) {p : ℝ × ℝ} {l : List (ℝ × ℝ)} (h0 : 0 < p.1) (h : (p :: l).Pairwise fun a b => a.1 < b.1) (hy : ∀ q ∈ p :: l, q.2 = a * q.1 ^ s) :
    rEff (p :: l) = ∫ f in p.1..(lastF p l), a * f ^ s := by
  induction l generalizing p with
  | nil => simp [lastF, rEff]
  | cons r l ih =>
      obtain ⟨b, c⟩ := List.pairwise_cons.1 h
      have hpr : p.1 < r.1 := b r (by simp)
      have hr0 := h0.trans hpr
      have hlast : r.1 ≤ lastF r l := lastF_ge c
      have cont : ∀ x y, p.1 ≤ x → x ≤ y → IntervalIntegrable (fun f => a * f ^ s) MeasureTheory.volume x y := fun x y hx hxy =>
        ContinuousOn.intervalIntegrable (by
          rw [uIcc_of_le hxy]
          exact continuousOn_const.mul (continuousOn_id.rpow_const fun z hz => Or.inl (h0.trans_le (hx.trans hz.1)).ne'))
      rw [rEff, lastF, ih hr0 c (fun q hq => hy q (List.mem_cons_of_mem _ hq)), ← integral_add_adjacent_intervals (cont p.1 r.1 le_rfl hpr.le) (cont r.1 _ hpr.le hlast), ← seg_integral h0 hpr]
      congr 1
      refine integral_congr fun f hf => ?_
      rw [uIcc_of_le hpr.le] at hf
      have e1 := hy p (by simp)
      have e2 := hy r (by simp)
      have q1 := rpow_pos_of_pos h0 s
      have q2 := rpow_pos_of_pos hr0 s
      simp only [segFn]
      rw [e1, e2, if_pos (by positivity), mul_div_mul_left _ _ ha.ne', ← div_rpow hr0.le h0.le, log_rpow (div_pos hr0 h0), mul_div_assoc, div_self (log_pos ((one_lt_div h0).2 hpr)).ne', mul_one,
        div_rpow (h0.le.trans hf.1) h0.le, mul_assoc, mul_div_cancel₀ _ q1.ne']

/-- C193: rates scale with the efficiency or the density of sources. -/
theorem C193_scale {c : ℝ} (hc : 0 < c) : ∀ l : List (ℝ × ℝ), rEff (l.map fun p => (p.1, c * p.2)) = c * rEff l
  | [] => by simp [rEff]
  | [p] => by simp [rEff]
  | p :: q :: l => by
      have ih := C193_scale hc (q :: l)
      simp only [List.map_cons] at ih ⊢
      rw [rEff, ih, rEff, mul_add]
      congr 1
      simp only [seg]
      have e1 : (c * q.2) * (c * p.2) = c ^ 2 * (q.2 * p.2) := by ring
      have e2 : c * q.2 / (c * p.2) = q.2 / p.2 := mul_div_mul_left _ _ hc.ne'
      have e3 : c ^ 2 * (q.2 * p.2) > 0 ↔ q.2 * p.2 > 0 := mul_pos_iff_of_pos_left (by positivity)
      rw [e1, e2]
      simp only [e3]
      split_ifs <;> ring

/-! ## C194: above the grid -/

/-- C194: what is added for fluxes above the grid is the integral of the power law through the last two points times a power of the last flux.

Missing: the factor is 1 only if the last flux is 1 (`C194_violated_tail`). -/
theorem C194_tail_partial {f0 f1 y0 y1 t : ℝ} (h1 : 0 < f1) (h : tail f0 f1 y0 y1 = some t) :
    t = f1 ^ (log (y1 / y0) / log (f1 / f0)) * ∫ f in Ioi f1, y1 * (f / f1) ^ (log (y1 / y0) / log (f1 / f0)) := by
  simp only [tail] at h
  set s := log (y1 / y0) / log (f1 / f0)
  split_ifs at h with hs
  push Not at hs
  rw [← Option.some.inj h]
  have e : ∫ f in Ioi f1, y1 * (f / f1) ^ s = ∫ f in Ioi f1, y1 / f1 ^ s * f ^ s := by
    refine MeasureTheory.setIntegral_congr_fun measurableSet_Ioi fun f hf => ?_
    rw [div_rpow (h1.le.trans (le_of_lt hf)) h1.le]
    ring
  rw [e, MeasureTheory.integral_const_mul, integral_Ioi_rpow_of_lt (by linarith) h1]
  have := (rpow_pos_of_pos h1 s).ne'
  field_simp

/-- C194: exact for a last flux of 1. -/
theorem C194_one {f0 y0 y1 t : ℝ} (h : tail f0 1 y0 y1 = some t) : t = ∫ f in Ioi (1 : ℝ), y1 * f ^ (log (y1 / y0) / log (1 / f0)) := by
  have := C194_tail_partial one_pos h
  simpa using this

/-- C194: it is refused exactly if the integral does not exist. -/
theorem C194_diverges {f0 f1 y0 y1 : ℝ} (h1 : 0 < f1) : tail f0 f1 y0 y1 = none ↔ ¬ MeasureTheory.IntegrableOn (fun f => f ^ (log (y1 / y0) / log (f1 / f0))) (Ioi f1) := by
  rw [integrableOn_Ioi_rpow_iff h1]
  simp only [tail]
  split_ifs with hs
  · simp; linarith
  · push Not at hs; simp; linarith

/-- C194 fails for other fluxes: for a grid that ends with fluxes 1 and 4 and the slope -5/2 of a homogeneous distribution 1/384 is added instead of 1/12. -/
theorem C194_violated_tail : tail 1 4 1 (1 / 32) = some (1 / 384) ∧ ∫ f in Ioi (4 : ℝ), 1 / 32 * (f / 4) ^ (-5 / 2 : ℝ) = 1 / 12 := by
  have hs : log ((1 / 32 : ℝ) / 1) / log (4 / 1) = -5 / 2 := by
    have a : (1 / 32 : ℝ) / 1 = 2 ^ (-5 : ℝ) := by rw [rpow_neg (by norm_num)]; norm_num
    have b : (4 : ℝ) / 1 = 2 ^ (2 : ℝ) := by norm_num
    rw [a, b, log_rpow two_pos, log_rpow two_pos]
    have := (log_pos one_lt_two).ne'
    field_simp
  have p : (4 : ℝ) ^ (-5 / 2 + 1 : ℝ) = 1 / 8 := by
    rw [show (4 : ℝ) = 2 ^ (2 : ℝ) by norm_num, ← rpow_mul two_pos.le, show (2 : ℝ) * (-5 / 2 + 1) = -3 by norm_num, rpow_neg two_pos.le]
    norm_num
  have t : tail 1 4 1 (1 / 32) = some (1 / 384) := by
    simp only [tail]
    rw [hs, if_neg (by norm_num), p]
    norm_num
  refine ⟨t, ?_⟩
  have := C194_tail_partial (by norm_num) t
  rw [hs] at this
  have q : (4 : ℝ) ^ (-5 / 2 : ℝ) = 1 / 32 := by
    rw [show (4 : ℝ) = 2 ^ (2 : ℝ) by norm_num, ← rpow_mul two_pos.le, show (2 : ℝ) * (-5 / 2) = -5 by norm_num, rpow_neg two_pos.le]
    norm_num
  rw [q] at this
  linarith

/-- C194 fails for the total rate: nothing sets it to zero, so that with every evaluation the same contribution is added again. -/
theorem C194_violated_total {f0 f1 r0 r1 a t : ℝ} (h : addTot f0 f1 r0 r1 a = some t) (k : ℕ) :
    (fun x : Option ℝ => x.bind (addTot f0 f1 r0 r1))^[k] (some a) = some (a + k * (t - a)) := by
  simp only [addTot] at h
  split_ifs at h with hs
  have ht := Option.some.inj h
  induction k with
  | zero => simp
  | succ k ih =>
      rw [Function.iterate_succ_apply', ih]
      simp only [Option.bind_some, addTot]
      rw [if_neg hs, ← ht]
      congr 1
      push_cast
      ring

end Verif.Lk
