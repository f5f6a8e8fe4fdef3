import Verif.Agrid.Agrid
import Verif.Grid.GridQuadProps

/-!
# Properties C199-C201: global likelihood and credible regions from grids
-/

set_option linter.unusedSectionVars false

noncomputable section

namespace Verif.Agrid

open Real

/-- Specification: the trapezoid rule with unit steps. -/
def trapz : List ℝ → ℝ
  | u :: v :: l => (u + v) / 2 + trapz (v :: l)
  | _ => 0

theorem wsum_tail (n : ℕ) : ∀ (l : List ℝ) (u : ℝ) (k : ℕ), 1 ≤ k → k + (l.length + 1) = n →
    (((u :: l).zipIdx k).map fun p => (if p.2 = 0 ∨ p.2 + 1 = n then 1 / 2 else 1) * p.1).sum = u / 2 + trapz (u :: l)
  | [], u, k, hk, hn => by
      have : k + 1 = n := by simpa using hn
      simp [trapz, this]; ring
  | v :: l, u, k, hk, hn => by
      rw [List.length_cons] at hn
      rw [List.zipIdx_cons, List.map_cons, List.sum_cons, wsum_tail n l v (k + 1) (by omega) (by omega), if_neg (by simp only; omega), trapz]
      simp only
      ring

/-- The loops with half weights are the trapezoid rule. -/
theorem wsum_eq {l : List ℝ} (h : 2 ≤ l.length) : wsum l = trapz l := by
  match l, h with
  | u :: v :: l, _ =>
      rw [wsum, List.zipIdx_cons, List.map_cons, List.sum_cons, wsum_tail _ l v 1 le_rfl (by simp; omega), if_pos (Or.inl rfl), trapz]
      simp only
      ring

theorem trapz_map_mul (c : ℝ) : ∀ l : List ℝ, trapz (l.map fun v => c * v) = c * trapz l
  | [] => by simp [trapz]
  | [u] => by simp [trapz]
  | u :: v :: l => by
      have := trapz_map_mul c (v :: l)
      simp only [List.map_cons] at this ⊢
      rw [trapz, this, trapz]; ring

theorem trapz_mono {f g : ℝ → ℝ} : ∀ (l : List ℝ), (∀ v ∈ l, f v ≤ g v) → trapz (l.map f) ≤ trapz (l.map g)
  | [], _ => by simp [trapz]
  | [u], _ => by simp [trapz]
  | u :: v :: l, h => by
      have := trapz_mono (v :: l) fun x hx => h x (List.mem_cons_of_mem _ hx)
      have h1 := h u (by simp)
      have h2 := h v (by simp)
      simp only [List.map_cons] at this ⊢
      rw [trapz, trapz]; linarith

theorem trapz_add (f g : ℝ → ℝ) : ∀ (l : List ℝ), trapz (l.map fun v => f v + g v) = trapz (l.map f) + trapz (l.map g)
  | [] => by simp [trapz]
  | [u] => by simp [trapz]
  | u :: v :: l => by
      have := trapz_add f g (v :: l)
      simp only [List.map_cons] at this ⊢
      rw [trapz, trapz, trapz, this]; ring

theorem trapz_const (c : ℝ) : ∀ (l : List ℝ), l ≠ [] → trapz (l.map fun _ => c) = (l.length - 1) * c
  | [], h => absurd rfl h
  | [u], _ => by simp [trapz]
  | u :: v :: l, _ => by
      have := trapz_const c (v :: l) (by simp)
      simp only [List.map_cons] at this ⊢
      rw [trapz, this]
      push_cast [List.length_cons]
      ring

theorem trapz_pos {l : List ℝ} (h : 2 ≤ l.length) (hp : ∀ v ∈ l, 0 ≤ v) (hx : ∃ v ∈ l, 0 < v) : 0 < trapz l := by
  match l, h with
  | u :: v :: l, _ =>
      clear h
      induction l generalizing u v with
      | nil =>
          simp only [trapz]
          have h1 := hp u (by simp)
          have h2 := hp v (by simp)
          obtain ⟨w, hw, hw0⟩ := hx
          rcases List.mem_cons.1 hw with rfl | hw
          · linarith
          · rw [List.mem_singleton.1 hw] at hw0; linarith
      | cons w l ih =>
          have h1 := hp u (by simp)
          have h2 := hp v (by simp)
          have nn : 0 ≤ trapz (v :: w :: l) := by
            have := trapz_mono (f := fun _ => (0 : ℝ)) (g := id) (v :: w :: l) fun x hx => hp x (List.mem_cons_of_mem _ hx)
            rw [trapz_const 0 _ (by simp), mul_zero, List.map_id] at this
            exact this
          rw [trapz]
          obtain ⟨x, hxm, hx0⟩ := hx
          rcases List.mem_cons.1 hxm with rfl | hxm
          · linarith
          · have := ih v w (by simp) (fun y hy => hp y (List.mem_cons_of_mem _ hy)) ⟨x, hxm, hx0⟩
            linarith

/-! ### The largest value and the range -/

theorem foldl_max (l : List ℝ) : ∀ m : ℝ, m ≤ l.foldl (fun m v => if v > m then v else m) m ∧ (∀ v ∈ l, v ≤ l.foldl (fun m v => if v > m then v else m) m) ∧
    (l.foldl (fun m v => if v > m then v else m) m = m ∨ l.foldl (fun m v => if v > m then v else m) m ∈ l) := by
  induction l with
  | nil => intro m; simp
  | cons a l ih =>
      intro m
      rw [List.foldl_cons]
      obtain ⟨h1, h2, h3⟩ := ih (if a > m then a else m)
      have ha : a ≤ (if a > m then a else m) := by split_ifs with h <;> linarith
      have hm : m ≤ (if a > m then a else m) := by split_ifs with h <;> linarith
      refine ⟨hm.trans h1, fun v hv => ?_, ?_⟩
      · rcases List.mem_cons.1 hv with rfl | hv
        · exact ha.trans h1
        · exact h2 v hv
      · rcases h3 with h3 | h3
        · rw [h3]
          split_ifs with h
          · exact Or.inr (by simp)
          · exact Or.inl rfl
        · exact Or.inr (List.mem_cons_of_mem _ h3)

theorem lpmax_spec {l : List ℝ} {m : ℝ} (h : lpmaxOf l = some m) : m ∈ l ∧ ∀ v ∈ l, v ≤ m := by
  match l, h with
  | a :: l, h =>
      rw [← Option.some.inj h]
      obtain ⟨h1, h2, h3⟩ := foldl_max (a :: l) a
      exact ⟨by rcases h3 with h3 | h3 <;> [(rw [h3]; simp); exact h3], h2⟩

theorem range_spec {l : List (ℝ × ℝ)} {r : ℝ × ℝ} (h : rangeOf l = some r) : (∃ q ∈ l, q.1 = r.1) ∧ (∃ q ∈ l, q.2 = r.2) ∧ ∀ q ∈ l, r.1 ≤ q.1 ∧ q.2 ≤ r.2 := by
  match l, h with
  | p :: l, h =>
      rw [← Option.some.inj h]
      clear h
      have key : ∀ (l : List (ℝ × ℝ)) (p : ℝ × ℝ), (∃ q ∈ p :: l, q.1 = (l.foldl (fun r q => (min q.1 r.1, max q.2 r.2)) p).1) ∧ (∃ q ∈ p :: l, q.2 = (l.foldl (fun r q => (min q.1 r.1, max q.2 r.2)) p).2) ∧
          ∀ q ∈ p :: l, (l.foldl (fun r q => (min q.1 r.1, max q.2 r.2)) p).1 ≤ q.1 ∧ q.2 ≤ (l.foldl (fun r q => (min q.1 r.1, max q.2 r.2)) p).2 := by
        intro l
        induction l with
        | nil => intro p; simp
        | cons a l ih =>
            intro p
            rw [List.foldl_cons]
            obtain ⟨h1, h2, h3⟩ := ih (min a.1 p.1, max a.2 p.2)
            refine ⟨?_, ?_, ?_⟩
            · obtain ⟨q, hq, hq'⟩ := h1
              rcases List.mem_cons.1 hq with rfl | hq
              · rcases le_total a.1 p.1 with hh | hh
                · exact ⟨a, by simp, by rw [← hq']; simp [hh]⟩
                · exact ⟨p, by simp, by rw [← hq']; simp [hh]⟩
              · exact ⟨q, by simp [hq], hq'⟩
            · obtain ⟨q, hq, hq'⟩ := h2
              rcases List.mem_cons.1 hq with rfl | hq
              · rcases le_total a.2 p.2 with hh | hh
                · exact ⟨p, by simp, by rw [← hq']; simp [hh]⟩
                · exact ⟨a, by simp, by rw [← hq']; simp [hh]⟩
              · exact ⟨q, by simp [hq], hq'⟩
            · intro q hq
              have h0 := h3 _ (List.mem_cons_self)
              rcases List.mem_cons.1 hq with rfl | hq
              · exact ⟨h0.1.trans (min_le_right _ _), (le_max_right _ _).trans h0.2⟩
              · rcases List.mem_cons.1 hq with rfl | hq
                · exact ⟨h0.1.trans (min_le_left _ _), (le_max_left _ _).trans h0.2⟩
                · exact h3 q (List.mem_cons_of_mem _ hq)
      exact key l p

/-! ## C199: the global likelihood -/

/-- A grid with at least two points and an increasing axis. -/
structure Ok1 (lg : Bool) (g : G1) : Prop where
  two : 2 ≤ g.lp.length
  inc : g.xl < g.xh
  pos : lg = true → 0 < g.xl

theorem stepOf_pos {lg : Bool} {lo hi : ℝ} {n : ℕ} (hn : 2 ≤ n) (h : lo < hi) (hp : lg = true → 0 < lo) : 0 < stepOf lg lo hi n := by
  have h0 : (0 : ℝ) < n - 1 := by
    have : (2 : ℝ) ≤ n := by exact_mod_cast hn
    linarith
  rw [stepOf]
  split_ifs with hl
  · exact div_pos (log_pos ((one_lt_div (hp hl)).2 h)) h0
  · exact div_pos (by linarith) h0

theorem priorOf_pos {lg : Bool} {lo hi : ℝ} (h : lo < hi) (hp : lg = true → 0 < lo) : 0 < priorOf lg lo hi := by
  rw [priorOf]
  split_ifs with hl
  · exact one_div_pos.2 (log_pos ((one_lt_div (hp hl)).2 h))
  · exact one_div_pos.2 (abs_pos.2 (by linarith))

theorem sum_map_congr {α : Type} {f g : α → ℝ} {l : List α} (h : ∀ a ∈ l, f a = g a) : (l.map f).sum = (l.map g).sum := by
  rw [List.map_congr_left h]

/-- The range and the mode of well-formed grids. -/
theorem setup1 {lg : Bool} {gs : List G1} (hne : gs ≠ []) (hok : ∀ g ∈ gs, Ok1 lg g) : ∃ r m, rangeOf (gs.map fun g => (g.xl, g.xh)) = some r ∧ lpmaxOf (gs.flatMap G1.lp) = some m ∧
    r.1 < r.2 ∧ (lg = true → 0 < r.1) ∧ 0 < norm1 lg m gs := by
  obtain ⟨g0, gs', rfl⟩ := List.exists_cons_of_ne_nil hne
  have h0 := hok g0 (by simp)
  obtain ⟨v0, l0, hl0⟩ : ∃ v l, g0.lp = v :: l := List.exists_cons_of_ne_nil (fun e => by have := h0.two; rw [e] at this; simp at this)
  have hm : ∃ m, lpmaxOf ((g0 :: gs').flatMap G1.lp) = some m := by rw [List.flatMap_cons, hl0]; exact ⟨_, rfl⟩
  obtain ⟨m, hm⟩ := hm
  have hr : ∃ r, rangeOf ((g0 :: gs').map fun g => (g.xl, g.xh)) = some r := by rw [List.map_cons]; exact ⟨_, rfl⟩
  obtain ⟨r, hr⟩ := hr
  refine ⟨r, m, hr, hm, ?_, ?_, ?_⟩
  · have := (range_spec hr).2.2 (g0.xl, g0.xh) (by simp)
    exact this.1.trans_lt (h0.inc.trans_le this.2)
  · intro hl
    obtain ⟨q, hq, hq'⟩ := (range_spec hr).1
    obtain ⟨g, hg, rfl⟩ := List.mem_map.1 hq
    rw [← hq']; exact (hok g hg).pos hl
  · obtain ⟨hmem, hmax⟩ := lpmax_spec hm
    obtain ⟨g, hg, hgm⟩ := List.mem_flatMap.1 hmem
    have sc : ∀ v, 0 ≤ scaled m v := fun v => by rw [scaled]; split_ifs <;> [exact (exp_pos _).le; exact le_rfl]
    have nn : ∀ g ∈ g0 :: gs', 0 ≤ wsum (g.lp.map (scaled m)) * stepOf lg g.xl g.xh g.lp.length := fun g hg => by
      have hk := hok g hg
      rw [wsum_eq (by simpa using hk.two)]
      refine mul_nonneg ?_ (stepOf_pos hk.two hk.inc hk.pos).le
      have := trapz_mono (f := fun _ => (0 : ℝ)) (g := scaled m) g.lp fun v _ => sc v
      rwa [trapz_const 0 _ (fun e => by have := hk.two; rw [e] at this; simp at this), mul_zero] at this
    have hk := hok g hg
    have pos : 0 < wsum (g.lp.map (scaled m)) * stepOf lg g.xl g.xh g.lp.length := by
      rw [wsum_eq (by simpa using hk.two)]
      refine mul_pos (trapz_pos (by simpa using hk.two) ?_ ⟨scaled m m, List.mem_map_of_mem hgm, ?_⟩) (stepOf_pos hk.two hk.inc hk.pos)
      · intro v hv
        obtain ⟨w, _, rfl⟩ := List.mem_map.1 hv
        exact sc w
      · rw [scaled, sub_self, if_pos (by norm_num)]; exact exp_pos _
    rw [norm1]
    refine lt_of_lt_of_le pos (List.single_le_sum ?_ _ (List.mem_map_of_mem hg))
    intro x hx
    obtain ⟨g', hg', rfl⟩ := List.mem_map.1 hx
    exact nn g' hg'

/-- Specification: the sum over the grids of the trapezoid rule for the posterior. -/
def quad1 (lg : Bool) (gs : List G1) : ℝ := (gs.map fun g => stepOf lg g.xl g.xh g.lp.length * trapz (g.lp.map exp)).sum

/-- C199: the global likelihood is that of the trapezoid rule, less what was set to zero, which is at most a fraction e^-200 of the mode over the whole range. -/
theorem C199_global {fp lg : Bool} {gs : List G1} (hne : gs ≠ []) (hok : ∀ g ∈ gs, Ok1 lg g) : ∃ r m L, rangeOf (gs.map fun g => (g.xl, g.xh)) = some r ∧ lpmaxOf (gs.flatMap G1.lp) = some m ∧ lgl1 fp lg gs = some L ∧
    exp L ≤ (if fp then priorOf lg r.1 r.2 else 1) * quad1 lg gs ∧
    (if fp then priorOf lg r.1 r.2 else 1) * (quad1 lg gs - exp (m - 200) * (gs.map fun g => stepOf lg g.xl g.xh g.lp.length * (g.lp.length - 1)).sum) ≤ exp L := by
  obtain ⟨r, m, hr, hm, h1, h2, h3⟩ := setup1 hne hok
  have hP : 0 < (if fp then priorOf lg r.1 r.2 else 1) := by
    split_ifs
    · exact priorOf_pos h1 h2
    · exact one_pos
  set P := (if fp then priorOf lg r.1 r.2 else 1) with hPdef
  have hv : 0 < P * norm1 lg m gs := mul_pos hP h3
  have hL : lgl1 fp lg gs = some (log (P * norm1 lg m gs) + m) := by
    simp only [lgl1, hr, hm, Option.bind_some, ← hPdef]
    rw [if_pos hv]
  refine ⟨r, m, _, hr, hm, hL, ?_⟩
  have e : exp (log (P * norm1 lg m gs) + m) = P * (gs.map fun g => stepOf lg g.xl g.xh g.lp.length * trapz (g.lp.map fun v => exp m * scaled m v)).sum := by
    rw [exp_add, exp_log hv, mul_assoc]
    congr 1
    rw [norm1, ← List.sum_map_mul_right]
    refine sum_map_congr fun g hg => ?_
    have e2 : (g.lp.map fun v => exp m * scaled m v) = (g.lp.map (scaled m)).map fun v => exp m * v := by rw [List.map_map]; rfl
    rw [wsum_eq (by simpa using (hok g hg).two), e2, trapz_map_mul]
    ring
  rw [e]
  have sm : ∀ v, exp m * scaled m v ≤ exp v := fun v => by
    rw [scaled]; split_ifs
    · rw [← exp_add]; exact (by ring_nf; exact le_rfl)
    · rw [mul_zero]; exact (exp_pos v).le
  have sl : ∀ v, exp v + -exp (m - 200) ≤ exp m * scaled m v := fun v => by
    rw [scaled]; split_ifs with hh
    · rw [← exp_add, show m + (v - m) = v by ring]; have := exp_pos (m - 200); linarith
    · push Not at hh
      rw [mul_zero]
      have := exp_le_exp.2 (show v ≤ m - 200 by linarith)
      linarith
  constructor
  · refine mul_le_mul_of_nonneg_left ?_ hP.le
    refine List.sum_le_sum fun g hg => ?_
    exact mul_le_mul_of_nonneg_left (trapz_mono _ fun v _ => sm v) (stepOf_pos (hok g hg).two (hok g hg).inc (hok g hg).pos).le
  · refine mul_le_mul_of_nonneg_left ?_ hP.le
    rw [quad1, sub_eq_add_neg, ← neg_mul, ← List.sum_map_mul_left, ← List.sum_map_add]
    refine List.sum_le_sum fun g hg => ?_
    have hk := hok g hg
    have := mul_le_mul_of_nonneg_left (trapz_mono g.lp fun v _ => sl v) (stepOf_pos hk.two hk.inc hk.pos).le
    rw [trapz_add, trapz_const _ _ (fun e => by have := hk.two; rw [e] at this; simp at this)] at this
    refine le_trans (le_of_eq ?_) this
    ring

/-- C199: if nothing is set to zero it is exact. -/
theorem C199_exact {fp lg : Bool} {gs : List G1} (hne : gs ≠ []) (hok : ∀ g ∈ gs, Ok1 lg g) {m : ℝ} (hm : lpmaxOf (gs.flatMap G1.lp) = some m) (hcut : ∀ g ∈ gs, ∀ v ∈ g.lp, m - 200 < v) :
    ∃ r L, rangeOf (gs.map fun g => (g.xl, g.xh)) = some r ∧ lgl1 fp lg gs = some L ∧ exp L = (if fp then priorOf lg r.1 r.2 else 1) * quad1 lg gs := by
  obtain ⟨r, m', hr, hm', h1, h2, h3⟩ := setup1 hne hok
  rw [hm] at hm'
  cases hm'
  have hP : 0 < (if fp then priorOf lg r.1 r.2 else 1) := by
    split_ifs
    · exact priorOf_pos h1 h2
    · exact one_pos
  set P := (if fp then priorOf lg r.1 r.2 else 1) with hPdef
  have hv : 0 < P * norm1 lg m gs := mul_pos hP h3
  have hL : lgl1 fp lg gs = some (log (P * norm1 lg m gs) + m) := by
    simp only [lgl1, hr, hm, Option.bind_some, ← hPdef]
    rw [if_pos hv]
  refine ⟨r, _, hr, hL, ?_⟩
  rw [exp_add, exp_log hv, mul_assoc]
  congr 1
  rw [norm1, quad1, ← List.sum_map_mul_right]
  refine sum_map_congr fun g hg => ?_
  have e : g.lp.map exp = (g.lp.map (scaled m)).map fun v => exp m * v := by
    rw [List.map_map]
    refine List.map_congr_left fun v hv => ?_
    have := hcut g hg v hv
    rw [Function.comp, scaled, if_pos (by linarith), ← exp_add, show m + (v - m) = v by ring]
  rw [wsum_eq (by simpa using (hok g hg).two), e, trapz_map_mul]
  ring

/-- C199: with the flat prior, a constant likelihood on grids that together just cover their range is the global likelihood.

Missing: grids that overlap (`C199_violated_overlap`) and descending axes (`C199_violated_descending`). -/
theorem C199_constant_partial {gs : List G1} {c : ℝ} (hne : gs ≠ []) (hok : ∀ g ∈ gs, Ok1 false g) (hc : ∀ g ∈ gs, ∀ v ∈ g.lp, v = c) {r : ℝ × ℝ} (hr : rangeOf (gs.map fun g => (g.xl, g.xh)) = some r)
    (htile : (gs.map fun g => g.xh - g.xl).sum = r.2 - r.1) : lgl1 true false gs = some c := by
  obtain ⟨r', m, hr', hm, h1, h2, h3⟩ := setup1 hne hok
  rw [hr] at hr'
  cases hr'
  have hmc : m = c := by
    obtain ⟨hmem, _⟩ := lpmax_spec hm
    obtain ⟨g, hg, hgm⟩ := List.mem_flatMap.1 hmem
    exact hc g hg m hgm
  subst hmc
  obtain ⟨r', L, hr', hL, he⟩ := C199_exact (fp := true) hne hok hm fun g hg v hv => by rw [hc g hg v hv]; linarith
  rw [hr] at hr'
  cases hr'
  rw [hL]
  congr 1
  refine exp_injective ?_
  rw [he, if_pos rfl]
  have e : quad1 false gs = exp m * (r.2 - r.1) := by
    rw [quad1, ← htile, ← List.sum_map_mul_left]
    refine sum_map_congr fun g hg => ?_
    have hk := hok g hg
    have e2 : g.lp.map exp = g.lp.map fun _ => exp m := List.map_congr_left fun v hv => by rw [hc g hg v hv]
    rw [e2, trapz_const _ _ (fun e => by have := hk.two; rw [e] at this; simp at this), stepOf, if_neg (by simp)]
    have : (g.lp.length : ℝ) - 1 ≠ 0 := by
      have : (2 : ℝ) ≤ g.lp.length := by exact_mod_cast hk.two
      linarith
    field_simp
  have hd : 0 < r.2 - r.1 := by linarith
  rw [e, priorOf, if_neg (by simp), abs_of_pos hd]
  field_simp

/-- C199 fails for grids that overlap: the same grid given twice doubles the global likelihood. -/
theorem C199_violated_overlap : lgl1 true false [⟨[0, 0], 0, 1⟩] = some 0 ∧ lgl1 true false [⟨[0, 0], 0, 1⟩, ⟨[0, 0], 0, 1⟩] = some (log 2) := by
  constructor
  · simp [lgl1, rangeOf, lpmaxOf, norm1, wsum, scaled, stepOf, priorOf]
    norm_num
  · simp [lgl1, rangeOf, lpmaxOf, norm1, wsum, scaled, stepOf, priorOf]
    norm_num

/-- C199 fails for a descending axis, which the prior allows for: the logarithm of a negative number is taken. -/
theorem C199_violated_descending : lgl1 true false [⟨[0, 0], 1, 0⟩] = none := by
  simp [lgl1, rangeOf, lpmaxOf, norm1, wsum, scaled, stepOf, priorOf]

/-- C199: in two dimensions too the normalisation is the trapezoid rule along both axes. -/
theorem C199_two {xlg ylg : Bool} {m : ℝ} {gs : List G2} (h : ∀ g ∈ gs, 2 ≤ g.lp.length ∧ 2 ≤ g.ny ∧ ∀ r ∈ g.lp, r.length = g.ny) (hcut : ∀ g ∈ gs, ∀ r ∈ g.lp, ∀ v ∈ r, m - 200 < v) :
    exp m * norm2 xlg ylg m gs = (gs.map fun g => stepOf xlg g.xl g.xh g.lp.length * stepOf ylg g.yl g.yh g.ny * trapz (g.lp.map fun r => trapz (r.map exp))).sum := by
  rw [norm2, ← List.sum_map_mul_left]
  refine sum_map_congr fun g hg => ?_
  obtain ⟨h1, h2, h3⟩ := h g hg
  have e : (g.lp.map fun r => trapz (r.map exp)) = (g.lp.map fun r => wsum (r.map (scaled m))).map fun v => exp m * v := by
    rw [List.map_map]
    refine List.map_congr_left fun r hr => ?_
    have e2 : r.map exp = (r.map (scaled m)).map fun v => exp m * v := by
      rw [List.map_map]
      refine List.map_congr_left fun v hv => ?_
      have := hcut g hg r hr v hv
      rw [Function.comp, scaled, if_pos (by linarith), ← exp_add, show m + (v - m) = v by ring]
    rw [Function.comp, wsum_eq (by rw [List.length_map, h3 r hr]; exact h2), e2, trapz_map_mul]
  rw [wsum_eq (by simpa using h1), e, trapz_map_mul]
  ring

/-- C199: adding a constant to the logarithm of the posterior adds it to that of the global likelihood. -/
theorem C199_shift {fp lg : Bool} {gs : List G1} {c : ℝ} : lgl1 fp lg (gs.map fun g => ⟨g.lp.map (· + c), g.xl, g.xh⟩) = (lgl1 fp lg gs).map (· + c) := by
  have hr : (gs.map fun g : G1 => (⟨g.lp.map (· + c), g.xl, g.xh⟩ : G1)).map (fun g => (g.xl, g.xh)) = gs.map fun g => (g.xl, g.xh) := by rw [List.map_map]; rfl
  have hf : (gs.map fun g : G1 => (⟨g.lp.map (· + c), g.xl, g.xh⟩ : G1)).flatMap G1.lp = (gs.flatMap G1.lp).map (· + c) := by
    rw [List.flatMap_map, List.map_flatMap]
  have hm : lpmaxOf ((gs.flatMap G1.lp).map (· + c)) = (lpmaxOf (gs.flatMap G1.lp)).map (· + c) := by
    match gs.flatMap G1.lp with
    | [] => rfl
    | v :: l =>
        simp only [List.map_cons, lpmaxOf, Option.map_some]
        have key : ∀ (l : List ℝ) (m : ℝ), (l.map (· + c)).foldl (fun m v => if v > m then v else m) (m + c) = l.foldl (fun m v => if v > m then v else m) m + c := by
          intro l
          induction l with
          | nil => intro m; rfl
          | cons a l ih =>
              intro m
              rw [List.map_cons, List.foldl_cons, List.foldl_cons, ← ih]
              congr 1
              simp only [gt_iff_lt, add_lt_add_iff_right]
              split_ifs <;> rfl
        congr 1
        exact key (v :: l) v
  simp only [lgl1, hr, hf, hm]
  cases rangeOf (gs.map fun g => (g.xl, g.xh)) with
  | none => rfl
  | some r =>
      cases lpmaxOf (gs.flatMap G1.lp) with
      | none => rfl
      | some m =>
          have hn : norm1 lg (m + c) (gs.map fun g => ⟨g.lp.map (· + c), g.xl, g.xh⟩) = norm1 lg m gs := by
            rw [norm1, norm1, List.map_map]
            refine sum_map_congr fun g _ => ?_
            have : (g.lp.map (· + c)).map (scaled (m + c)) = g.lp.map (scaled m) := by
              rw [List.map_map]
              refine List.map_congr_left fun v _ => ?_
              simp only [Function.comp, scaled, add_sub_add_right_eq_sub]
            simp only [Function.comp, this, List.length_map]
          simp only [Option.map_some, Option.bind_some, hn]
          split_ifs
          · simp only [Option.map_some]; congr 1; ring
          · rfl
          · simp only [Option.map_some]; congr 1; ring
          · rfl

/-! ## C200: the content above a level -/

theorem scaled_nonneg (m v : ℝ) : 0 ≤ scaled m v := by rw [scaled]; split_ifs <;> [exact (exp_pos _).le; exact le_rfl]

theorem trap_eq : ∀ l : List ℝ, Verif.HPD.trap l = trapz l
  | [] => by simp [Verif.HPD.trap, trapz]
  | [u] => by simp [Verif.HPD.trap, trapz]
  | u :: v :: l => by rw [Verif.HPD.trap_cons, trap_eq (v :: l), trapz]

/-- C200: the content above a level never increases with the level, is between zero and the normalisation, is the normalisation for levels below the posterior, and zero at the mode. -/
theorem C200_content {lg : Bool} {m : ℝ} {gs : List G1} (hok : ∀ g ∈ gs, Ok1 lg g) :
    (∀ c c', c ≤ c' → tot1 lg m gs c' ≤ tot1 lg m gs c) ∧ (∀ c, 0 ≤ tot1 lg m gs c ∧ tot1 lg m gs c ≤ norm1 lg m gs) ∧
    (∀ c, (∀ g ∈ gs, ∀ v ∈ g.lp, c < scaled m v) → tot1 lg m gs c = norm1 lg m gs) ∧ ((∀ g ∈ gs, ∀ v ∈ g.lp, v ≤ m) → tot1 lg m gs 1 = 0) := by
  have nn : ∀ g : G1, ∀ x ∈ g.lp.map (scaled m), 0 ≤ x := fun g x hx => by
    obtain ⟨v, _, rfl⟩ := List.mem_map.1 hx
    exact scaled_nonneg m v
  have sp : ∀ g ∈ gs, 0 < stepOf lg g.xl g.xh g.lp.length := fun g hg => stepOf_pos (hok g hg).two (hok g hg).inc (hok g hg).pos
  have wt : ∀ g ∈ gs, wsum (g.lp.map (scaled m)) = Verif.HPD.trap (g.lp.map (scaled m)) := fun g hg => by
    rw [wsum_eq (by simpa using (hok g hg).two), trap_eq]
  refine ⟨fun c c' hc => ?_, fun c => ⟨?_, ?_⟩, fun c hc => ?_, fun hmax => ?_⟩
  · exact List.sum_le_sum fun g hg => mul_le_mul_of_nonneg_left (Verif.HPD.C35_monotone _ _ _ (nn g) hc) (sp g hg).le
  · refine List.sum_nonneg fun x hx => ?_
    obtain ⟨g, hg, rfl⟩ := List.mem_map.1 hx
    exact mul_nonneg (sp g hg).le (Verif.HPD.C35_bounds _ _ (nn g)).1
  · refine List.sum_le_sum fun g hg => ?_
    rw [wt g hg, mul_comm]
    exact mul_le_mul_of_nonneg_right (Verif.HPD.C35_bounds _ _ (nn g)).2 (sp g hg).le
  · refine sum_map_congr fun g hg => ?_
    rw [wt g hg, mul_comm, Verif.HPD.qgt1d_full]
    intro x hx
    obtain ⟨v, hv, rfl⟩ := List.mem_map.1 hx
    exact hc g hg v hv
  · rw [tot1]
    refine (sum_map_congr (g := fun _ => 0) fun g hg => ?_).trans (by simp)
    rw [Verif.HPD.C35_zero, mul_zero]
    intro x hx
    obtain ⟨v, hv, rfl⟩ := List.mem_map.1 hx
    rw [scaled]
    split_ifs
    · exact exp_le_one_iff.2 (by have := hmax g hg v hv; linarith)
    · exact zero_le_one

/-- C200: a root of `lratio` is the level above which the wanted fraction of the posterior lies. -/
theorem C200_root {lg : Bool} {m : ℝ} {gs : List G1} {cf lp : ℝ} (hn : 0 < norm1 lg m gs) (hc : 0 < cf) : lratio1 lg m gs cf lp = 0 ↔ tot1 lg m gs (exp lp) = cf * norm1 lg m gs := by
  simp only [lratio1]
  constructor
  · intro h
    split_ifs at h with ht
    · norm_num at h
    · push Not at ht
      have hp : 0 < tot1 lg m gs (exp lp) / norm1 lg m gs / cf := by positivity
      have h1 := eq_one_of_pos_of_log_eq_zero hp h
      field_simp at h1
      linarith
  · intro h
    rw [if_neg (by rw [h, not_le]; positivity), h, mul_div_assoc, div_self hn.ne', mul_one, div_self hc.ne', log_one]

/-- C200: `lratio` never increases with the level, is positive for levels below the whole posterior and negative from the mode on: there is something to bracket. -/
theorem C200_bracket {lg : Bool} {gs : List G1} (hne : gs ≠ []) (hok : ∀ g ∈ gs, Ok1 lg g) {m cf : ℝ} (hm : lpmaxOf (gs.flatMap G1.lp) = some m) (hc : 0 < cf) (hc1 : cf < 1) :
    (∀ lp lp', lp ≤ lp' → 0 < tot1 lg m gs (exp lp') → lratio1 lg m gs cf lp' ≤ lratio1 lg m gs cf lp) ∧ (∀ lp, (∀ g ∈ gs, ∀ v ∈ g.lp, exp lp < scaled m v) → 0 < lratio1 lg m gs cf lp) ∧ ∀ lp, 0 ≤ lp → lratio1 lg m gs cf lp < 0 := by
  obtain ⟨r, m', hr, hm', h1, h2, hn⟩ := setup1 hne hok
  rw [hm] at hm'
  cases hm'
  obtain ⟨c1, c2, c3, c4⟩ := C200_content (m := m) hok
  have hmax : ∀ g ∈ gs, ∀ v ∈ g.lp, v ≤ m := fun g hg v hv => (lpmax_spec hm).2 v (List.mem_flatMap.2 ⟨g, hg, hv⟩)
  refine ⟨fun lp lp' h hp => ?_, fun lp h => ?_, fun lp h => ?_⟩
  · have h3 := c1 _ _ (exp_le_exp.2 h)
    simp only [lratio1]
    rw [if_neg (not_le.2 hp), if_neg (not_le.2 (hp.trans_le h3))]
    refine log_le_log (by positivity) ?_
    gcongr
  · simp only [lratio1]
    rw [c3 _ h, if_neg (not_le.2 hn), div_self hn.ne']
    exact log_pos ((one_lt_div hc).2 hc1)
  · simp only [lratio1]
    have : tot1 lg m gs (exp lp) ≤ 0 := (c1 1 (exp lp) (one_le_exp h)).trans (c4 hmax).le
    rw [if_pos this]
    norm_num

/-! ## C201: the boundaries of the region -/

/-- Specification: the straight lines through the points. -/
def lines : List ℝ → List ℝ → ℝ → ℝ
  | x :: x' :: xs, y :: y' :: ys, t => if t ≤ x' then y + (y' - y) * (t - x) / (x' - x) else lines (x' :: xs) (y' :: ys) t
  | _, _, _ => 0

theorem xvals_bounds {c : ℝ} : ∀ {xs ys : List ℝ} {x : ℝ}, xs.head? = some x → xs.Pairwise (· < ·) → ∀ t ∈ xvals c xs ys, x < t
  | [], _, _, h, _ => by simp at h
  | [a], ys, x, h, _ => by intro t ht; cases ys <;> simp [xvals] at ht
  | a :: b :: xs, [], x, h, _ => by intro t ht; simp [xvals] at ht
  | a :: b :: xs, [y], x, h, _ => by intro t ht; simp [xvals] at ht
  | a :: b :: xs, y :: y' :: ys, x, h, hp => by
      intro t ht
      have hx : a = x := by simpa using h
      subst hx
      obtain ⟨p1, p2⟩ := List.pairwise_cons.1 hp
      have hab : a < b := p1 b (by simp)
      rw [xvals] at ht
      rcases List.mem_append.1 ht with ht | ht
      · split_ifs at ht with hc
        · rw [List.mem_singleton.1 ht]
          have : 0 < (c - y) / (y' - y) := by
            rcases hc with ⟨h1, h2⟩ | ⟨h1, h2⟩
            · exact div_pos (by linarith) (by linarith)
            · exact div_pos_of_neg_of_neg (by linarith) (by linarith)
          have := mul_pos (show 0 < b - a by linarith) this
          rw [mul_div_assoc]; linarith
        · simp at ht
      · exact hab.trans (xvals_bounds (by rfl) p2 t ht)

/-- C201: at every boundary returned the straight lines through the points cross the level; boundaries are returned in order. -/
theorem C201_crossings {c : ℝ} : ∀ {xs ys : List ℝ}, xs.Pairwise (· < ·) → (∀ t ∈ xvals c xs ys, lines xs ys t = c) ∧ (xvals c xs ys).Pairwise (· < ·)
  | [], ys, _ => by cases ys <;> simp [xvals]
  | [a], ys, _ => by cases ys <;> simp [xvals]
  | a :: b :: xs, [], _ => by simp [xvals]
  | a :: b :: xs, [y], _ => by simp [xvals]
  | a :: b :: xs, y :: y' :: ys, hp => by
      obtain ⟨p1, p2⟩ := List.pairwise_cons.1 hp
      have hab : a < b := p1 b (by simp)
      obtain ⟨i1, i2⟩ := C201_crossings (c := c) (ys := y' :: ys) p2
      have hb := xvals_bounds (c := c) (ys := y' :: ys) (x := b) rfl p2
      have hrest : ∀ t ∈ xvals c (b :: xs) (y' :: ys), lines (a :: b :: xs) (y :: y' :: ys) t = c := fun t ht => by
        rw [lines, if_neg (not_le.2 (hb t ht))]; exact i1 t ht
      rw [xvals]
      split_ifs with hc
      · have hy : y' - y ≠ 0 := by rcases hc with ⟨h1, h2⟩ | ⟨h1, h2⟩ <;> linarith
        have hlt : a + (b - a) * (c - y) / (y' - y) < b := by
          have : (c - y) / (y' - y) < 1 := by
            rcases hc with ⟨h1, h2⟩ | ⟨h1, h2⟩
            · exact (div_lt_one (by linarith)).2 (by linarith)
            · rw [div_lt_one_of_neg (by linarith)]; linarith
          have := mul_lt_mul_of_pos_left this (show 0 < b - a by linarith)
          rw [mul_div_assoc]; linarith
        refine ⟨fun t ht => ?_, ?_⟩
        · rcases List.mem_append.1 ht with ht | ht
          · rw [List.mem_singleton.1 ht, lines, if_pos hlt.le]
            have : b - a ≠ 0 := by linarith
            field_simp
            ring
          · exact hrest t ht
        · rw [List.singleton_append, List.pairwise_cons]
          exact ⟨fun t ht => hlt.trans (hb t ht), i2⟩
      · rw [List.nil_append]
        exact ⟨hrest, i2⟩

/-- The points of an axis increase. -/
theorem axis_inc {lg : Bool} {lo hi : ℝ} {n : ℕ} (hn : 2 ≤ n) (h : lo < hi) (hp : lg = true → 0 < lo) : (axis lg lo hi n).Pairwise (· < ·) := by
  rw [axis, List.pairwise_map]
  refine List.Pairwise.imp (fun {a b} hab => ?_) List.pairwise_lt_range
  have : (a : ℝ) < b := by exact_mod_cast hab
  have := mul_lt_mul_of_pos_right this (stepOf_pos hn h hp)
  linarith

/-- C201: for a grid without points set to zero the boundaries are found, in increasing order, and at each, in the coordinate of the grid, the interpolated logarithm of the posterior is the critical level.

Missing: points at which the level is met exactly (`C201_violated_exact`) and points set to zero (`C201_violated_zero`). -/
theorem C201_region_partial {lg : Bool} {m c : ℝ} {g : G1} (hk : Ok1 lg g) (hcut : ∀ v ∈ g.lp, m - 200 < v) : ∃ l, region lg m g c = some l ∧ l.Pairwise (· < ·) ∧
    ∀ t ∈ l, lines (axis lg g.xl g.xh g.lp.length) (g.lp.map fun v => v - m) (if lg then log t else t) = c := by
  have e : (g.lp.map (scaled m)).map log = g.lp.map fun v => v - m := by
    rw [List.map_map]
    refine List.map_congr_left fun v hv => ?_
    have := hcut v hv
    rw [Function.comp, scaled, if_pos (by linarith), log_exp]
  have hall : (g.lp.map (scaled m)).all (fun v => decide (v > 0)) = true := by
    rw [List.all_eq_true]
    intro x hx
    obtain ⟨v, hv, rfl⟩ := List.mem_map.1 hx
    have := hcut v hv
    rw [scaled, if_pos (by linarith)]
    simpa using exp_pos _
  obtain ⟨i1, i2⟩ := C201_crossings (c := c) (ys := g.lp.map fun v => v - m) (axis_inc (lg := lg) hk.two hk.inc hk.pos)
  refine ⟨_, by rw [region]; simp only [hall, if_true, e]; rfl, ?_, ?_⟩
  · cases lg with
    | false => simpa using i2
    | true =>
        simp only [if_true]
        rw [List.pairwise_map]
        exact i2.imp fun h => exp_lt_exp.2 h
  · cases lg with
    | false => simpa using i1
    | true =>
        simp only [if_true]
        intro t ht
        obtain ⟨s, hs, rfl⟩ := List.mem_map.1 ht
        rw [log_exp]
        exact i1 s hs

/-- C201 fails if the level is met exactly at a point: for a tent through the level at the points, no boundary is found. -/
theorem C201_violated_exact : xvals 1 [0, 1, 2, 3, 4] [0, 1, 2, 1, 0] = [] := by
  simp [xvals]

/-- C201 fails if a point of the grid was set to zero, even though it is far below the level. -/
theorem C201_violated_zero : region false 0 ⟨[-300, 0, -300], 0, 2⟩ (-1) = none := by
  have : scaled 0 (-300) = 0 := by rw [scaled, if_neg (by norm_num)]
  simp [region, this]

example : Ok1 false ⟨[-3, 0, -3], 0, 2⟩ := ⟨by simp, by norm_num, by simp⟩

end Verif.Agrid
