import Verif.MC.PWLinear
import Mathlib.Data.List.Range
import Mathlib.Data.Nat.Lattice
import Mathlib.Algebra.BigOperators.Group.List.Basic
import Mathlib.Tactic.Linarith
import Mathlib.Tactic.FieldSimp
import Mathlib.Tactic.Ring

/-! # Lemmas about the index ranges of piecewise linear densities -/

set_option linter.unusedSectionVars false
set_option linter.unusedSimpArgs false

namespace Verif.PW

variable {K : Type*} [Field K] [LinearOrder K] [IsStrictOrderedRing K] [FloorRing K]

theorem maxTo_ge (v : ℕ → K) (m : ℕ) : ∀ i, i ≤ m → v i ≤ maxTo v m := by
  induction m with
  | zero => intro i hi; simp only [Nat.le_zero] at hi; subst hi; simp [maxTo]
  | succ m ih =>
    intro i hi
    rcases Nat.lt_or_ge m i with h | h
    · have : i = m + 1 := by omega
      subst this; simp [maxTo]
    · exact le_trans (ih i h) (by simp [maxTo])

theorem maxTo_mem (v : ℕ → K) (m : ℕ) : ∃ i, i ≤ m ∧ v i = maxTo v m := by
  induction m with
  | zero => exact ⟨0, le_rfl, rfl⟩
  | succ m ih =>
    obtain ⟨i, hi, he⟩ := ih
    rcases le_total (maxTo v m) (v (m + 1)) with h | h
    · exact ⟨m + 1, le_rfl, by simp [maxTo, h]⟩
    · exact ⟨i, by omega, by simp [maxTo, h, he]⟩

theorem runs_spec (rest : List ℕ) : ∀ f l, f ≤ l → (l :: rest).Pairwise (· < ·) →
    (∀ r ∈ runs f l rest, r.1 ≤ r.2) ∧ (runs f l rest).Pairwise (fun r r' => r.2 + 1 < r'.1) ∧
    (∀ r ∈ runs f l rest, f ≤ r.1) ∧
    (∀ i, (∃ r ∈ runs f l rest, r.1 ≤ i ∧ i ≤ r.2) ↔ (f ≤ i ∧ i ≤ l) ∨ i ∈ rest) := by
  induction rest with
  | nil => intro f l h _; simp [runs, h]
  | cons m rest ih =>
    intro f l hfl hp
    rw [List.pairwise_cons] at hp
    obtain ⟨hl, hp⟩ := hp
    have hlm : l < m := hl m (by simp)
    simp only [runs]
    split_ifs with hm
    · obtain ⟨h1, h2, h3, h4⟩ := ih f m (by omega) hp
      refine ⟨h1, h2, h3, fun i => ?_⟩
      rw [h4 i, List.mem_cons]
      constructor
      · rintro (⟨a, b⟩ | h)
        · rcases Nat.lt_or_ge l i with hi | hi
          · exact Or.inr (Or.inl (by omega))
          · exact Or.inl ⟨a, hi⟩
        · exact Or.inr (Or.inr h)
      · rintro (⟨a, b⟩ | rfl | h)
        · exact Or.inl ⟨a, by omega⟩
        · exact Or.inl ⟨by omega, le_rfl⟩
        · exact Or.inr h
    · obtain ⟨h1, h2, h3, h4⟩ := ih m m le_rfl hp
      refine ⟨?_, ?_, ?_, fun i => ?_⟩
      · intro r hr
        rcases List.mem_cons.1 hr with rfl | hr
        · exact hfl
        · exact h1 r hr
      · rw [List.pairwise_cons]
        refine ⟨fun r hr => ?_, h2⟩
        have := h3 r hr
        simp only; omega
      · intro r hr
        rcases List.mem_cons.1 hr with rfl | hr
        · exact le_rfl
        · have := h3 r hr; omega
      · simp only [List.mem_cons, exists_eq_or_imp]
        rw [h4 i]
        have : (m ≤ i ∧ i ≤ m) ↔ i = m := by omega
        rw [this]

/-- What the constructor makes of a selection: neighbouring points are added on both sides. -/
structure Built (n : ℕ) (absc : ℕ → K) (lin : Bool) (delta : K) (w : ℕ → K) (sel : ℕ → Bool) (P : PW K) : Prop where
  hn : P.n = n
  ha : P.absc = absc
  hl : P.lin = lin
  hd : P.delta = delta
  hw : P.w = w
  lt : 2 ≤ n → ∀ r ∈ P.ranges, r.1 < r.2
  bound : ∀ r ∈ P.ranges, r.2 < n
  sorted : P.ranges.Pairwise (fun r r' => r.2 ≤ r'.1)
  mem : ∀ i, (∃ r ∈ P.ranges, r.1 ≤ i ∧ i < r.2) ↔ i + 1 < n ∧ (sel i = true ∨ sel (i + 1) = true)
  some_sel : ∃ i < n, sel i = true

theorem build_spec {n : ℕ} {absc : ℕ → K} {lin : Bool} {delta : K} {w : ℕ → K} {sel : ℕ → Bool} {P : PW K}
    (hsel : ∀ i < n, sel i = true → 0 < w i) (h : build n absc lin delta w sel = .ok P) :
    Built n absc lin delta w sel P := by
  unfold build at h
  rcases hf : (List.range n).filter sel with _ | ⟨s, rest⟩
  · rw [hf] at h; simp at h
  rw [hf] at h
  dsimp only at h
  have hpw : (s :: rest).Pairwise (· < ·) := by
    rw [← hf]
    exact List.Pairwise.filter _ List.pairwise_lt_range
  have hin : ∀ i, i ∈ s :: rest ↔ i < n ∧ sel i = true := by
    intro i; rw [← hf]; simp
  obtain ⟨h1, h2, h3, h4⟩ := runs_spec rest s s le_rfl hpw
  have h5 : ∀ i, (∃ r ∈ runs s s rest, r.1 ≤ i ∧ i ≤ r.2) ↔ i < n ∧ sel i = true := by
    intro i
    rw [h4 i, ← hin i, List.mem_cons]
    have : (s ≤ i ∧ i ≤ s) ↔ i = s := by omega
    rw [this]
  rcases hr : runs s s rest with _ | ⟨r, rs⟩
  · rw [hr] at h; simp at h
  rw [hr] at h h1 h2 h3 h5
  simp only [Except.ok.injEq] at h
  rw [List.pairwise_cons] at h2
  have hends : ∀ q ∈ r :: rs, (q.1 < n ∧ sel q.1 = true) ∧ (q.2 < n ∧ sel q.2 = true) := by
    intro q hq
    exact ⟨(h5 q.1).1 ⟨q, hq, le_rfl, h1 q hq⟩, (h5 q.2).1 ⟨q, hq, h1 q hq, le_rfl⟩⟩
  have hfirst : ∀ q ∈ r :: rs, firstRange n w q = (q.1 - 1, min (q.2 + 1) (n - 1)) := by
    intro q hq
    obtain ⟨⟨a1, a2⟩, b1, b2⟩ := hends q hq
    have c1 := hsel _ a1 a2
    have c2 := hsel _ b1 b2
    simp only [firstRange, gt_iff_lt, c1, c2, and_true, Prod.mk.injEq]
    constructor
    · split_ifs <;> omega
    · split_ifs <;> omega
  have hnext : ∀ q ∈ rs, nextRange n w q = (q.1 - 1, min (q.2 + 1) (n - 1)) := by
    intro q hq
    obtain ⟨⟨a1, a2⟩, b1, b2⟩ := hends q (by simp [hq])
    have c1 := hsel _ a1 a2
    have c2 := hsel _ b1 b2
    simp only [nextRange, gt_iff_lt, c1, c2, and_true, if_true, Prod.mk.injEq]
    refine ⟨trivial, ?_⟩
    split_ifs <;> omega
  have hR : P.ranges = (r :: rs).map fun q => (q.1 - 1, min (q.2 + 1) (n - 1)) := by
    rw [← h]
    simp only [List.map_cons, List.cons.injEq]
    exact ⟨hfirst r (by simp), List.map_congr_left hnext⟩
  refine ⟨by rw [← h], by rw [← h], by rw [← h], by rw [← h], by rw [← h], ?_, ?_, ?_, ?_, ?_⟩
  · intro hn2 q hq
    rw [hR, List.mem_map] at hq
    obtain ⟨q', hq', rfl⟩ := hq
    have := hends q' hq'
    have := h1 q' hq'
    simp only; omega
  · intro q hq
    rw [hR, List.mem_map] at hq
    obtain ⟨q', hq', rfl⟩ := hq
    have := hends q' hq'
    simp only; omega
  · rw [hR, List.pairwise_map]
    refine List.Pairwise.imp ?_ (List.pairwise_cons.2 h2 : List.Pairwise (fun r r' : ℕ × ℕ => r.2 + 1 < r'.1) (r :: rs))
    intro a b hab
    simp only; omega
  · intro i
    rw [hR]
    simp only [List.mem_map, exists_exists_and_eq_and]
    constructor
    · rintro ⟨q, hq, hqi, hiq⟩
      have hin := h1 q hq
      refine ⟨by omega, ?_⟩
      rcases Nat.lt_or_ge i q.1 with hlt | hge
      · right
        have : i + 1 = q.1 := by omega
        rw [this]; exact ((hends q hq).1).2
      · left
        exact ((h5 i).1 ⟨q, hq, hge, by omega⟩).2
    · rintro ⟨hi, hs | hs⟩
      · obtain ⟨q, hq, a, b⟩ := (h5 i).2 ⟨by omega, hs⟩
        exact ⟨q, hq, by omega, by omega⟩
      · obtain ⟨q, hq, a, b⟩ := (h5 (i + 1)).2 ⟨by omega, hs⟩
        exact ⟨q, hq, by omega, by omega⟩
  · obtain ⟨⟨a, b⟩, _⟩ := hends r (by simp)
    exact ⟨_, a, b⟩

theorem build_ok {n : ℕ} {absc : ℕ → K} {lin : Bool} {delta : K} {w : ℕ → K} {sel : ℕ → Bool}
    {i : ℕ} (hi : i < n) (hs : sel i = true) : ∃ P, build n absc lin delta w sel = .ok P := by
  unfold build
  rcases hf : (List.range n).filter sel with _ | ⟨s, rest⟩
  · have : i ∈ (List.range n).filter sel := by simp [hi, hs]
    rw [hf] at this; simp at this
  dsimp only
  have hne : ∀ rest f l, runs f l rest ≠ [] := by
    intro rest
    induction rest with
    | nil => intro f l; simp [runs]
    | cons m rest ih => intro f l; simp only [runs]; split_ifs; exact ih _ _; simp
  rcases hr : runs s s rest with _ | ⟨r, rs⟩
  · exact absurd hr (hne _ _ _)
  · exact ⟨_, rfl⟩

namespace Built

variable {n : ℕ} {absc : ℕ → K} {lin : Bool} {delta : K} {w : ℕ → K} {sel : ℕ → Bool} {P : PW K}

theorem mem_idx (B : Built n absc lin delta w sel P) (i : ℕ) :
    i ∈ P.idx ↔ i + 1 < n ∧ (sel i = true ∨ sel (i + 1) = true) := by
  rw [← B.mem i, PW.idx, List.mem_flatMap]
  constructor
  · rintro ⟨r, hr, hi⟩
    rw [List.mem_range'_1] at hi
    exact ⟨r, hr, hi.1, by omega⟩
  · rintro ⟨r, hr, a, b⟩
    exact ⟨r, hr, by rw [List.mem_range'_1]; omega⟩

theorem idx_sorted (B : Built n absc lin delta w sel P) : P.idx.Pairwise (· < ·) := by
  rw [PW.idx, List.pairwise_flatMap]
  refine ⟨fun r _ => ?_, ?_⟩
  · exact List.pairwise_lt_range'
  · refine List.Pairwise.imp ?_ B.sorted
    intro r r' h i hi j hj
    rw [List.mem_range'_1] at hi hj
    omega

theorem idx_nodup (B : Built n absc lin delta w sel P) : P.idx.Nodup :=
  B.idx_sorted.imp fun h => h.ne

theorem area_pos (B : Built n absc lin delta w sel P) (hinc : ∀ i, i + 1 < n → absc i < absc (i + 1))
    (hw : ∀ i < n, 0 ≤ w i) (hsel : ∀ i < n, sel i = true → 0 < w i) {i : ℕ} (hi : i ∈ P.idx) :
    0 < 1 / 2 * (w i + w (i + 1)) * (absc (i + 1) - absc i) := by
  obtain ⟨h1, h2⟩ := (B.mem_idx i).1 hi
  have a := hinc i h1
  have b := hw i (by omega)
  have c := hw (i + 1) h1
  have : 0 < w i + w (i + 1) := by
    rcases h2 with h | h
    · have := hsel i (by omega) h; linarith
    · have := hsel (i + 1) h1 h; linarith
  have : 0 < absc (i + 1) - absc i := by linarith
  positivity

theorem idx_ne (B : Built n absc lin delta w sel P) (hn : 2 ≤ n) : P.idx ≠ [] := by
  obtain ⟨i, hi, hs⟩ := B.some_sel
  by_cases h : i + 1 < n
  · exact List.ne_nil_of_mem ((B.mem_idx i).2 ⟨h, Or.inl hs⟩)
  · have : i - 1 + 1 = i := by omega
    exact List.ne_nil_of_mem ((B.mem_idx (i - 1)).2 ⟨by omega, Or.inr (by rw [this]; exact hs)⟩)

theorem areas_pos (B : Built n absc lin delta w sel P) (hinc : ∀ i, i + 1 < n → absc i < absc (i + 1))
    (hw : ∀ i < n, 0 ≤ w i) (hsel : ∀ i < n, sel i = true → 0 < w i) : ∀ x ∈ P.areas, 0 < x := by
  intro x hx
  rw [PW.areas, List.mem_map] at hx
  obtain ⟨i, hi, rfl⟩ := hx
  rw [B.ha, B.hw]
  exact B.area_pos hinc hw hsel hi

theorem norm_pos (B : Built n absc lin delta w sel P) (hn : 2 ≤ n) (hinc : ∀ i, i + 1 < n → absc i < absc (i + 1))
    (hw : ∀ i < n, 0 ≤ w i) (hsel : ∀ i < n, sel i = true → 0 < w i) : 0 < P.norm := by
  have h := B.areas_pos hinc hw hsel
  have hne : P.areas ≠ [] := by
    rw [PW.areas]; simpa using B.idx_ne hn
  rw [PW.norm]
  generalize P.areas = l at *
  cases l with
  | nil => exact absurd rfl hne
  | cons a l =>
    rw [List.sum_cons]
    have := h a (by simp)
    have : 0 ≤ l.sum := List.sum_nonneg fun x hx => (h x (by simp [hx])).le
    linarith

end Built

theorem linAbsc_inc {lo hi : K} {n : ℕ} (hn : 2 ≤ n) (h : lo < hi) : ∀ i, linAbsc lo hi n i < linAbsc lo hi n (i + 1) := by
  intro i
  have : (0 : K) < (n - 1 : ℕ) := by exact_mod_cast (by omega : 0 < n - 1)
  have : 0 < (hi - lo) / (n - 1 : ℕ) := div_pos (by linarith) this
  simp only [linAbsc]; push_cast; linarith

theorem relVals_nonneg {v : ℕ → K} {n : ℕ} (hv : ∀ i < n, 0 ≤ v i) : ∀ i < n, 0 ≤ relVals v n i := by
  intro i hi
  exact div_nonneg (hv i hi) (le_trans (hv i hi) (maxTo_ge v (n - 1) i (by omega)))

theorem relLogVals_nonneg (v : ℕ → ℝ) (n : ℕ) (cut : ℝ) (i : ℕ) : 0 ≤ relLogVals v n cut i := by
  unfold relLogVals; split_ifs
  · exact (Real.exp_pos _).le
  · exact le_rfl

/-- The density of an evenly spaced function at a point of the domain. -/
theorem Built.pdf_eq {n : ℕ} {lo hi : K} {w : ℕ → K} {sel : ℕ → Bool} {P : PW K}
    (B : Built n (linAbsc lo hi n) true ((hi - lo) / (n - 1 : ℕ)) w sel P) (hn : 2 ≤ n) (h : lo < hi)
    (hnorm : P.norm ≠ 0) {i : ℕ} {x : K} (hi1 : i + 1 < n) (hx1 : linAbsc lo hi n i ≤ x) (hx2 : x < linAbsc lo hi n (i + 1)) :
    P.pdf x = if (sel i = true ∨ sel (i + 1) = true) ∨ (x = linAbsc lo hi n i ∧ 0 < i ∧ sel (i - 1) = true) then
      .val ((w i + (w (i + 1) - w i) * ((x - linAbsc lo hi n i) / ((hi - lo) / (n - 1 : ℕ)))) / P.norm) else .val 0 := by
  have hn0 : (0 : K) < (n - 1 : ℕ) := by exact_mod_cast (by omega : 0 < n - 1)
  have hd : 0 < (hi - lo) / (n - 1 : ℕ) := div_pos (by linarith) hn0
  set d := (hi - lo) / (n - 1 : ℕ) with hdd
  have hmono : StrictMono (linAbsc lo hi n) := strictMono_nat_of_lt_succ (linAbsc_inc hn h)
  have hfl : ∀ j, j ≤ i → j + ⌊(x - linAbsc lo hi n j) / d⌋₊ = i := by
    intro j hj
    have e : (x - linAbsc lo hi n j) / d = (x - linAbsc lo hi n i) / d + ((i - j : ℕ) : K) := by
      simp only [linAbsc, ← hdd]
      rw [Nat.cast_sub hj]
      field_simp; ring
    have e0 : ⌊(x - linAbsc lo hi n i) / d⌋₊ = 0 := by
      rw [Nat.floor_eq_zero, div_lt_one hd]
      simp only [linAbsc, ← hdd] at hx2 ⊢
      push_cast at hx2; linarith
    rw [e, Nat.floor_add_natCast (div_nonneg (by linarith) hd.le), e0]
    omega
  have hreg : (∃ r ∈ P.ranges, linAbsc lo hi n r.1 ≤ x ∧ x ≤ linAbsc lo hi n r.2) ↔
      ((sel i = true ∨ sel (i + 1) = true) ∨ (x = linAbsc lo hi n i ∧ 0 < i ∧ sel (i - 1) = true)) := by
    constructor
    · rintro ⟨r, hr, a, b⟩
      have hr1 : r.1 ≤ i := by
        by_contra hc
        have := hmono.monotone (show i + 1 ≤ r.1 by omega)
        linarith
      have hr2 : i ≤ r.2 := by
        by_contra hc
        have := hmono (show r.2 < i by omega)
        linarith
      rcases Nat.lt_or_ge i r.2 with hlt | hge
      · exact Or.inl ((B.mem i).1 ⟨r, hr, hr1, hlt⟩).2
      · have hri : r.2 = i := by omega
        have hlt := B.lt hn r hr
        rw [hri] at b
        have hm := (B.mem (i - 1)).1 ⟨r, hr, by omega, by omega⟩
        have e : i - 1 + 1 = i := by omega
        rw [e] at hm
        rcases hm.2 with hs | hs
        · exact Or.inr ⟨le_antisymm b hx1, by omega, hs⟩
        · exact Or.inl (Or.inl hs)
    · rintro (hs | ⟨he, hi0, hs⟩)
      · obtain ⟨r, hr, a, b⟩ := (B.mem i).2 ⟨hi1, hs⟩
        exact ⟨r, hr, le_trans (hmono.monotone a) hx1, le_trans hx2.le (hmono.monotone (by omega))⟩
      · obtain ⟨r, hr, a, b⟩ := (B.mem (i - 1)).2 ⟨by omega, Or.inl hs⟩
        refine ⟨r, hr, ?_, ?_⟩
        · rw [he]; exact hmono.monotone (by omega)
        · rw [he]; exact hmono.monotone (by omega)
  unfold PW.pdf
  rw [B.ha, B.hl, B.hd, B.hn]
  split
  · rename_i hf
    rw [List.find?_eq_none] at hf
    rw [if_neg]
    rw [← hreg]
    rintro ⟨r, hr, a, b⟩
    exact hf r hr (by simp [a, b])
  · rename_i r hf
    have hr := List.mem_of_find?_eq_some hf
    have hp := List.find?_some hf
    simp only [decide_eq_true_eq] at hp
    have hr1 : r.1 ≤ i := by
      by_contra hc
      have := hmono.monotone (show i + 1 ≤ r.1 by omega)
      linarith [hp.1]
    rw [if_pos (hreg.1 ⟨r, hr, hp⟩)]
    simp only [Bool.true_eq_false, if_false, if_neg hd.ne', hfl r.1 hr1, if_neg (show ¬ n ≤ i + 1 by omega), if_neg hnorm]
    simp only [PW.pdfVals, B.hw, Num.val.injEq]
    have e : linAbsc lo hi n (i + 1) - linAbsc lo hi n i = d := by
      simp only [linAbsc, ← hdd]; push_cast; ring
    rw [e]; field_simp

theorem Built.pdf_out {n : ℕ} {lo hi : K} {w : ℕ → K} {sel : ℕ → Bool} {P : PW K}
    (B : Built n (linAbsc lo hi n) true ((hi - lo) / (n - 1 : ℕ)) w sel P) (hn : 2 ≤ n) (h : lo < hi)
    {x : K} (hx : x < lo ∨ hi < x) : P.pdf x = .val 0 := by
  have hn0 : (0 : K) < (n - 1 : ℕ) := by exact_mod_cast (by omega : 0 < n - 1)
  have hmono : StrictMono (linAbsc lo hi n) := strictMono_nat_of_lt_succ (linAbsc_inc hn h)
  have h0 : linAbsc lo hi n 0 = lo := by simp [linAbsc]
  have h1 : linAbsc lo hi n (n - 1) = hi := by simp only [linAbsc]; field_simp; ring
  unfold PW.pdf
  rw [B.ha]
  split
  · rfl
  · rename_i r hf
    exfalso
    have hr := List.mem_of_find?_eq_some hf
    have hp := List.find?_some hf
    simp only [decide_eq_true_eq] at hp
    have a := hmono.monotone (Nat.zero_le r.1)
    have b := hmono.monotone (show r.2 ≤ n - 1 by have := B.bound r hr; omega)
    rcases hx with hx | hx <;> linarith [hp.1, hp.2]

theorem Built.pdf_last {n : ℕ} {lo hi : K} {w : ℕ → K} {sel : ℕ → Bool} {P : PW K}
    (B : Built n (linAbsc lo hi n) true ((hi - lo) / (n - 1 : ℕ)) w sel P) (hn : 2 ≤ n) (h : lo < hi) :
    P.pdf hi = if sel (n - 1) = true ∨ sel (n - 2) = true then .err .index else .val 0 := by
  have hn0 : (0 : K) < (n - 1 : ℕ) := by exact_mod_cast (by omega : 0 < n - 1)
  have hd : 0 < (hi - lo) / (n - 1 : ℕ) := div_pos (by linarith) hn0
  have hmono : StrictMono (linAbsc lo hi n) := strictMono_nat_of_lt_succ (linAbsc_inc hn h)
  have h1 : linAbsc lo hi n (n - 1) = hi := by simp only [linAbsc]; field_simp; ring
  have hreg : (∃ r ∈ P.ranges, linAbsc lo hi n r.1 ≤ hi ∧ hi ≤ linAbsc lo hi n r.2) ↔ (sel (n - 1) = true ∨ sel (n - 2) = true) := by
    have e : n - 2 + 1 = n - 1 := by omega
    constructor
    · rintro ⟨r, hr, a, b⟩
      have hb := B.bound r hr
      have hr2 : r.2 = n - 1 := by
        by_contra hc
        have := hmono (show r.2 < n - 1 by omega)
        linarith
      have := B.lt hn r hr
      have hm := (B.mem (n - 2)).1 ⟨r, hr, by omega, by omega⟩
      rw [e] at hm
      exact hm.2.symm
    · intro hs
      obtain ⟨r, hr, a, b⟩ := (B.mem (n - 2)).2 ⟨by omega, by rw [e]; exact hs.symm⟩
      refine ⟨r, hr, ?_, ?_⟩
      · exact le_trans (hmono.monotone (show r.1 ≤ n - 1 by omega)) h1.le
      · exact le_trans h1.ge (hmono.monotone (by omega))
  unfold PW.pdf
  rw [B.ha, B.hl, B.hd, B.hn]
  split
  · rename_i hf
    rw [List.find?_eq_none] at hf
    rw [if_neg]
    rw [← hreg]
    rintro ⟨r, hr, a, b⟩
    exact hf r hr (by simp [a, b])
  · rename_i r hf
    have hr := List.mem_of_find?_eq_some hf
    have hp := List.find?_some hf
    simp only [decide_eq_true_eq] at hp
    rw [if_pos (hreg.1 ⟨r, hr, hp⟩)]
    have hb := B.bound r hr
    have hlt := B.lt hn r hr
    have e : r.1 + ⌊(hi - linAbsc lo hi n r.1) / ((hi - lo) / (n - 1 : ℕ))⌋₊ = n - 1 := by
      have : (hi - linAbsc lo hi n r.1) / ((hi - lo) / (n - 1 : ℕ)) = ((n - 1 - r.1 : ℕ) : K) := by
        rw [Nat.cast_sub (show r.1 ≤ n - 1 by omega)]
        have h' : hi - lo ≠ 0 := by linarith
        simp only [linAbsc]
        field_simp
        ring
      rw [this, Nat.floor_natCast]; omega
    simp only [Bool.true_eq_false, if_false, if_neg hd.ne', e, if_pos (show n ≤ n - 1 + 1 by omega)]

end Verif.PW
