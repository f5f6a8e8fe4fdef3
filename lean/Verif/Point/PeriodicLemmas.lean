import Verif.Point.Periodic
import Verif.Count.GammlnProps
import Mathlib.MeasureTheory.Integral.IntervalIntegral.Periodic
import Mathlib.Data.List.Count

/-!
# Periodic point processes: lemmas
-/

set_option linter.unusedSectionVars false

namespace Verif.Point

open Real MeasureTheory

theorem twopi_pos : 0 < twopi := by unfold twopi; norm_num
theorem tiny_pos : 0 < tiny := by unfold tiny; norm_num

/-- The bin of an event: the bins divide the unit interval of phase into `nb` equal parts. -/
noncomputable def binOf (nb : ℕ) (y : ℝ) : ℕ := ⌊nb * Int.fract y⌋.toNat

/-- The numbers of events in the bins when the phase is shifted by `u`. -/
noncomputable def counts (nb : ℕ) (phases : List ℝ) (u : ℝ) : List ℕ := (List.range nb).map fun j => phases.countP fun p => binOf nb (p + u) = j

theorem binOf_lt {nb : ℕ} (hn : 0 < nb) (y : ℝ) : binOf nb y < nb := by
  have h0 := Int.fract_nonneg y
  have h1 := Int.fract_lt_one y
  have hn' : (0 : ℝ) < nb := Nat.cast_pos.2 hn
  unfold binOf
  rw [Int.toNat_lt (Int.floor_nonneg.2 (by positivity)), Int.floor_lt]
  push_cast
  nlinarith

theorem binOf_cast {nb : ℕ} (y : ℝ) : ((binOf nb y : ℕ) : ℤ) = ⌊nb * Int.fract y⌋ := by
  have h0 := Int.fract_nonneg y
  unfold binOf
  rw [Int.toNat_of_nonneg (Int.floor_nonneg.2 (by positivity))]

/-- The bin is the number of bin widths, modulo the number of bins. -/
theorem binOf_emod {nb : ℕ} (hn : 0 < nb) (y : ℝ) : ((binOf nb y : ℕ) : ℤ) = ⌊nb * y⌋ % nb := by
  have h := binOf_lt hn y
  have hc := binOf_cast (nb := nb) y
  have : ⌊nb * y⌋ = binOf nb y + nb * ⌊y⌋ := by
    rw [hc]
    have : (nb : ℝ) * y = nb * Int.fract y + ((nb * ⌊y⌋ : ℤ) : ℝ) := by
      rw [← Int.self_sub_floor]
      push_cast
      ring
    rw [this, Int.floor_add_intCast]
  rw [this, Int.add_mul_emod_self_left, Int.emod_eq_of_lt (by omega) (by omega)]

/-- Distance to the next boundary of a bin, in units of phase. -/
noncomputable def dist (nb : ℕ) (y : ℝ) : ℝ := (⌊nb * y⌋ + 1 - nb * y) / nb

theorem dist_pos {nb : ℕ} (hn : 0 < nb) (y : ℝ) : 0 < dist nb y := by
  have hn' : (0 : ℝ) < nb := Nat.cast_pos.2 hn
  unfold dist
  have := Int.lt_floor_add_one (nb * y)
  apply div_pos _ hn'
  linarith

theorem getD_modify (l : List ℕ) (k j : ℕ) (hj : j < l.length) : (l.modify k (· + 1)).getD j 0 = l.getD j 0 + if k = j then 1 else 0 := by
  rw [List.getD_eq_getElem?_getD, List.getD_eq_getElem?_getD, List.getElem?_modify, List.getElem?_eq_getElem hj]
  by_cases h : k = j <;> simp [h]

theorem fbinLoop_spec {nb : ℕ} (hn : 0 < nb) (u : ℝ) (ps : List ℝ) (hp : ∀ p ∈ ps, 0 ≤ p + u) (bins : List ℕ) (hb : bins.length = nb) (d : ℝ) :
    ∃ d', fbinLoop nb (binbounds nb) u ps bins d = .val ((List.range nb).map fun j => bins.getD j 0 + ps.countP fun p => binOf nb (p + u) = j, d') ∧
      d' ≤ d ∧ (∀ p ∈ ps, d' ≤ dist nb (p + u)) ∧ (d' = d ∨ ∃ p ∈ ps, d' = dist nb (p + u)) := by
  induction ps generalizing bins d with
  | nil =>
    refine ⟨d, ?_, le_rfl, by simp, .inl rfl⟩
    have : (List.range nb).map (fun j => bins.getD j 0 + List.countP (fun p => decide (binOf nb (p + u) = j)) []) = bins := by
      apply List.ext_getElem
      · simp [hb]
      · intro i h1 h2
        simp [List.getD_eq_getElem?_getD, List.getElem?_eq_getElem h2]
    rw [this]
    rfl
  | cons p ps ih =>
    have hn' : (0 : ℝ) < nb := Nat.cast_pos.2 hn
    have hp0 := hp p (List.mem_cons_self ..)
    have ht : trunc (p + u) = ⌊p + u⌋ := if_pos hp0
    have hx : p + u - (⌊p + u⌋ : ℝ) = Int.fract (p + u) := Int.self_sub_floor _
    have hf0 := Int.fract_nonneg (p + u)
    have hj : trunc (nb * Int.fract (p + u)) = (binOf nb (p + u) : ℤ) := by
      rw [binOf_cast]
      exact if_pos (by positivity)
    have hlt := binOf_lt hn (p + u)
    have hdist : (if ((binOf nb (p + u) : ℕ) : ℤ) + 1 < nb then (binbounds nb).getD (((binOf nb (p + u) : ℕ) : ℤ).toNat + 1) 0 - Int.fract (p + u) else 1 - Int.fract (p + u)) = dist nb (p + u) := by
      have hfl : (⌊nb * (p + u)⌋ : ℝ) = binOf nb (p + u) + nb * ⌊p + u⌋ := by
        have hc := binOf_cast (nb := nb) (p + u)
        have : ⌊nb * (p + u)⌋ = binOf nb (p + u) + nb * ⌊p + u⌋ := by
          rw [hc]
          have : (nb : ℝ) * (p + u) = nb * Int.fract (p + u) + ((nb * ⌊p + u⌋ : ℤ) : ℝ) := by
            rw [← Int.self_sub_floor]
            push_cast
            ring
          rw [this, Int.floor_add_intCast]
        rw [this]
        push_cast
        ring
      have hd : dist nb (p + u) = ((binOf nb (p + u) : ℝ) + 1) / nb - Int.fract (p + u) := by
        unfold dist
        rw [hfl, ← Int.self_sub_floor]
        field_simp
        ring
      rw [hd]
      split_ifs with h
      · rw [Int.toNat_natCast]
        have hl : binOf nb (p + u) + 1 < nb := by omega
        congr 1
        rw [List.getD_eq_getElem?_getD, binbounds, List.getElem?_map, List.getElem?_range hl]
        simp only [Option.map_some, Option.getD_some]
        push_cast
        ring
      · have : binOf nb (p + u) + 1 = nb := by omega
        have h1 : ((binOf nb (p + u) : ℝ) + 1) / nb = 1 := by
          rw [div_eq_one_iff_eq hn'.ne']
          exact_mod_cast this
        rw [h1]
    unfold fbinLoop
    simp only [ht, hx, hj, hdist]
    rw [if_pos ⟨by omega, by omega⟩]
    have hdp := dist_pos hn (p + u)
    obtain ⟨d', e1, e2, e3, e4⟩ := ih (fun q hq => hp q (List.mem_cons_of_mem _ hq)) (bins.modify ((binOf nb (p + u) : ℕ) : ℤ).toNat (· + 1)) (by simp [hb])
      (if dist nb (p + u) < d ∧ 0 < dist nb (p + u) then dist nb (p + u) else d)
    refine ⟨d', ?_, ?_, ?_, ?_⟩
    · rw [e1]
      congr 2
      apply List.map_congr_left
      intro j hj
      rw [List.mem_range] at hj
      rw [Int.toNat_natCast, getD_modify _ _ _ (by omega), List.countP_cons]
      simp only [decide_eq_true_eq]
      omega
    · refine e2.trans ?_
      split_ifs with h
      exacts [h.1.le, le_rfl]
    · intro q hq
      rcases List.mem_cons.1 hq with rfl | hq
      · refine e2.trans ?_
        split_ifs with h
        · exact le_rfl
        · push Not at h
          by_contra hc
          push Not at hc
          exact absurd (h hc) (by linarith)
      · exact e3 q hq
    · rcases e4 with h | ⟨q, hq, h⟩
      · by_cases hc : dist nb (p + u) < d ∧ 0 < dist nb (p + u)
        · rw [if_pos hc] at h
          exact .inr ⟨p, List.mem_cons_self .., h⟩
        · rw [if_neg hc] at h
          exact .inl h
      · exact .inr ⟨q, List.mem_cons_of_mem _ hq, h⟩

/-- The distance to the nearest boundary of a bin in front of an event, at most a bin width. -/
theorem fbindata_spec {nb : ℕ} (hn : 0 < nb) {phases : List ℝ} (hp : ∀ p ∈ phases, 0 ≤ p) {phi : ℝ} (h0 : 0 ≤ phi) :
    ∃ d, fbindata phases phi nb (binbounds nb) = .val (counts nb phases (phi / twopi), twopi * (d + nb * tiny)) ∧
      d ≤ 1 / nb ∧ (∀ p ∈ phases, d ≤ dist nb (p + phi / twopi)) ∧ (d = 1 / nb ∨ ∃ p ∈ phases, d = dist nb (p + phi / twopi)) := by
  have := twopi_pos
  obtain ⟨d, e1, e2⟩ := fbinLoop_spec hn (phi / twopi) phases (fun p h => add_nonneg (hp p h) (by positivity)) (List.replicate nb 0) (by simp) (1 / nb)
  refine ⟨d, ?_, e2⟩
  unfold fbindata
  rw [e1]
  have : (List.range nb).map (fun j => (List.replicate nb 0).getD j 0 + phases.countP fun p => binOf nb (p + phi / twopi) = j) = counts nb phases (phi / twopi) := by
    apply List.map_congr_left
    intro j hj
    rw [List.mem_range] at hj
    simp [hj]
  rw [this]
  rfl

/-- Between one crossing and the next the bins do not change. -/
theorem binOf_eq {nb : ℕ} (hn : 0 < nb) {y z : ℝ} (h1 : y ≤ z) (h2 : z - y < dist nb y) : binOf nb z = binOf nb y := by
  have hn' : (0 : ℝ) < nb := Nat.cast_pos.2 hn
  have : ⌊nb * z⌋ = ⌊nb * y⌋ := by
    unfold dist at h2
    rw [lt_div_iff₀ hn'] at h2
    apply Int.floor_eq_on_Ico ⌊nb * y⌋
    constructor
    · exact (Int.floor_le _).trans (by nlinarith)
    · nlinarith
  have e1 := binOf_emod hn y
  have e2 := binOf_emod hn z
  rw [this] at e2
  omega

theorem counts_eq {nb : ℕ} (hn : 0 < nb) {phases : List ℝ} {u v : ℝ} (h1 : u ≤ v) (h2 : ∀ p ∈ phases, v - u < dist nb (p + u)) : counts nb phases v = counts nb phases u := by
  unfold counts
  apply List.map_congr_left
  intro j _
  apply List.countP_congr
  intro p hp
  rw [binOf_eq hn (y := p + u) (z := p + v) (by linarith) (by linarith [h2 p hp])]

theorem counts_length (nb : ℕ) (phases : List ℝ) (u : ℝ) : (counts nb phases u).length = nb := by simp [counts]

/-- Every event is in one bin. -/
theorem counts_sum {nb : ℕ} (hn : 0 < nb) (phases : List ℝ) (u : ℝ) : (counts nb phases u).sum = phases.length := by
  unfold counts
  induction phases with
  | nil => simp
  | cons p ps ih =>
    simp only [List.countP_cons, List.length_cons]
    have hs : ∀ f g : ℕ → ℕ, ((List.range nb).map fun j => f j + g j).sum = ((List.range nb).map f).sum + ((List.range nb).map g).sum := by
      intro f g
      induction List.range nb with
      | nil => rfl
      | cons a l ih => simp only [List.map_cons, List.sum_cons, ih]; omega
    rw [hs, ih]
    congr 1
    have : ∀ k, k < nb → ((List.range nb).map fun j => if k = j then 1 else 0).sum = 1 := by
      intro k hk
      rw [← List.sum_toFinset (f := fun j => if k = j then 1 else 0) List.nodup_range]
      simp [hk]
    simpa using this _ (binOf_lt hn (p + u))

/-! ## The loop of the exact integral -/

/-- Where an event next crosses a boundary, in bin widths of the shift. -/
noncomputable def next (nb : ℕ) (p s : ℝ) : ℝ := ⌊nb * p + s⌋ + 1 - nb * p

theorem next_mono (nb : ℕ) (p : ℝ) {s t : ℝ} (h : s ≤ t) : next nb p s ≤ next nb p t := by
  unfold next
  have : ⌊nb * p + s⌋ ≤ ⌊nb * p + t⌋ := Int.floor_le_floor (by linarith)
  have : (⌊nb * p + s⌋ : ℝ) ≤ ⌊nb * p + t⌋ := by exact_mod_cast this
  linarith

theorem next_gt (nb : ℕ) (p s : ℝ) : s < next nb p s := by
  unfold next
  linarith [Int.lt_floor_add_one (nb * p + s)]

theorem next_passed (nb : ℕ) (p : ℝ) {s t : ℝ} (h : next nb p s ≤ t) : next nb p s + 1 ≤ next nb p t := by
  unfold next at *
  have : ⌊nb * p + s⌋ + 1 ≤ ⌊nb * p + t⌋ := by
    rw [Int.le_floor]
    push_cast
    linarith
  have : (⌊nb * p + s⌋ : ℝ) + 1 ≤ ⌊nb * p + t⌋ := by exact_mod_cast this
  linarith

theorem dist_next {nb : ℕ} (hn : 0 < nb) (p phi : ℝ) : dist nb (p + phi / twopi) = (next nb p (nb * (phi / twopi)) - nb * (phi / twopi)) / nb := by
  unfold dist next
  rw [mul_add]
  ring

/-- Events that still cross a boundary before the end of the sweep. -/
noncomputable def pending (nb : ℕ) (phases : List ℝ) (phi : ℝ) : ℕ := phases.countP fun p => next nb p (nb * (phi / twopi)) < 1

theorem pending_le (nb : ℕ) (phases : List ℝ) (phi : ℝ) : pending nb phases phi ≤ phases.length := List.countP_le_length

theorem countP_lt {α : Type*} (p q : α → Bool) (l : List α) (h : ∀ x ∈ l, p x → q x) (x : α) (hx : x ∈ l) (hq : q x) (hp : ¬ p x) : l.countP p < l.countP q := by
  induction l with
  | nil => simp at hx
  | cons a l ih =>
    have hle : l.countP p ≤ l.countP q := List.countP_mono_left fun y hy => h y (List.mem_cons_of_mem _ hy)
    have ha := h a (List.mem_cons_self ..)
    rw [List.countP_cons, List.countP_cons]
    rcases List.mem_cons.1 hx with rfl | hx
    · simp only [hq, if_true]
      rw [if_neg hp]
      omega
    · have := ih (fun y hy => h y (List.mem_cons_of_mem _ hy)) hx
      by_cases hpa : p a = true
      · simp [hpa, ha hpa]; omega
      · rw [if_neg hpa]; split_ifs <;> omega

theorem pending_mono {nb : ℕ} (phases : List ℝ) {phi psi : ℝ} (h : phi ≤ psi) : ∀ p ∈ phases, next nb p (nb * (psi / twopi)) < 1 → next nb p (nb * (phi / twopi)) < 1 := by
  intro p _ hp
  have := twopi_pos
  exact (next_mono nb p (by gcongr)).trans_lt hp

theorem pending_lt {nb : ℕ} {phases : List ℝ} {phi psi p : ℝ} (h : phi ≤ psi) (hp : p ∈ phases) (h1 : next nb p (nb * (phi / twopi)) < 1)
    (h2 : next nb p (nb * (phi / twopi)) ≤ nb * (psi / twopi)) (hphi : 0 ≤ phi) : pending nb phases psi < pending nb phases phi := by
  have := twopi_pos
  refine countP_lt _ _ phases (fun q hq hq' => ?_) p hp (by simpa using h1) ?_
  · simp only [decide_eq_true_eq] at hq' ⊢
    exact pending_mono phases h q hq hq'
  · simp only [decide_eq_true_eq, not_lt]
    have h3 := next_passed nb p h2
    have h4 := next_gt nb p (nb * (phi / twopi))
    have : (0 : ℝ) ≤ nb * (phi / twopi) := by positivity
    linarith

end Verif.Point
