import Verif.Integrate.DrlCast
import Verif.Integrate.DcuhreProps

/-!
# The basic rules of the vector integrator DCUHRE (C103)

Definitions from the lemmas that are part of statements: `pt c h y` (the point with the coordinates `c + y h`), `orb g` (the points that arise from the generator `g` by permutations and changes of signs), `dif` (the sum over the components
of the integrand of the size of the fourth difference along an axis), `First` (the first axis with the largest number), `Lit` (the values that the literal `0.4707` may have), `Good` (what C102 asks of a rule).
-/

set_option linter.unusedSectionVars false

namespace Verif.Drl

open Finset
open Verif.Adapt (put Box)
open Verif.Dcuhre (Out ruleLen keyf Good Call)

variable {K : Type*} [Field K] [LinearOrder K] [IsStrictOrderedRing K]

/-! ## Specification -/

/-- The rules and the dimensions they are for. -/
structure Valid (key : ℤ) (n : ℕ) : Prop where
  rule : 1 ≤ key ∧ key ≤ 4
  dim : 2 ≤ n
  two : key = 1 → n = 2
  three : key = 2 → n = 3

/-! ## Helper lemmas -/

theorem valid_cases {key : ℤ} {n : ℕ} (h : Valid key n) {P : Tab ℝ → Prop} {l0 : ℝ} (h1 : key = 1 → n = 2 → P d132) (h2 : key = 2 → n = 3 → P d113) (h3 : key = 3 → P (d09 n l0)) (h4 : key = 4 → P (d07 n l0)) :
    P (tab key n l0) := by
  unfold tab
  obtain ⟨⟨a, b⟩, -, c, d⟩ := h
  split_ifs with q1 q2 q3
  · exact h1 q1 (c q1)
  · exact h2 q2 (d q2)
  · exact h3 q3
  · exact h4 (by omega)

theorem fit_tab {key : ℤ} {n : ℕ} (h : Valid key n) {l0 : ℝ} (hl : Lit l0) : Fit (tab key n l0) n :=
  valid_cases (P := fun t => Fit t n) h (fun _ e => by rw [e]; exact fit_cast casts132 check132) (fun _ e => by rw [e]; exact fit_cast casts113 check113) (fun _ => fit9 h.dim (ok_lit hl))
    fun _ => fit7 h.dim (ok_lit hl)

theorem apart_tab {key : ℤ} {n : ℕ} (h : Valid key n) {l0 : ℝ} (hl : Lit l0) : Apart (tab key n l0) :=
  valid_cases (P := Apart) h (fun _ _ => apart_cast casts132 check132) (fun _ _ => apart_cast casts113 check113) (fun _ => apart9 h.dim (ok_lit hl)) fun _ => apart7 h.dim (ok_lit hl)

theorem rulpts_tab {key : ℤ} {n : ℕ} (h : Valid key n) {l0 : ℝ} (hl : Lit l0) : ∀ i, 1 ≤ i → i ≤ (tab key n l0).wtleng → ((orb ((tab key n l0).g i)).card : ℝ) = (tab key n l0).rulpts i :=
  valid_cases (P := fun t => ∀ i, 1 ≤ i → i ≤ t.wtleng → ((orb (t.g i)).card : ℝ) = t.rulpts i) h (fun _ _ _ => rulpts_cast casts132 check132) (fun _ _ _ => rulpts_cast casts113 check113)
    (fun _ _ => rulpts9 h.dim (ok_lit hl)) fun _ _ => rulpts7 h.dim (ok_lit hl)

theorem errcof_tab {key : ℤ} {n : ℕ} (h : Valid key n) {l0 : ℝ} : 0 ≤ (tab key n l0).errcof 3 ∧ 0 ≤ (tab key n l0).errcof 4 :=
  valid_cases (P := fun t => 0 ≤ t.errcof 3 ∧ 0 ≤ t.errcof 4) h (fun _ _ => by norm_num [d132]) (fun _ _ => by norm_num [d113]) (fun _ => by norm_num [d09, coef]) fun _ => by norm_num [d07, coef]

/-- `WTLENG` and `NUM` of `DCHHRE`. -/
theorem num_tab {key : ℤ} {n : ℕ} (h : Valid key n) (l0 : ℝ) : (tab key n l0).wtleng = (ruleLen key n).2 ∧ ∑ i ∈ Icc 1 (tab key n l0).wtleng, (tab key n l0).rulpts i = ((ruleLen key n).1 : ℤ) := by
  refine valid_cases (P := fun t => t.wtleng = (ruleLen key n).2 ∧ ∑ i ∈ Icc 1 t.wtleng, t.rulpts i = ((ruleLen key n).1 : ℤ)) h (fun e _ => ?_) (fun e _ => ?_) (fun e => ?_) fun e => ?_
  · subst e
    refine ⟨rfl, ?_⟩
    show ∑ i ∈ Icc 1 14, d132.rulpts i = ((65 : ℤ) : ℝ)
    rw [sum_Icc_succ_top (by norm_num)]
    norm_num [d132, sum_Icc_succ_top]
  · subst e
    refine ⟨rfl, ?_⟩
    show ∑ i ∈ Icc 1 13, d113.rulpts i = ((127 : ℤ) : ℝ)
    norm_num [d113, sum_Icc_succ_top]
  · subst e
    have hd : (((4 * (n : ℤ) * (n - 1) * (n - 2)).tdiv 3 : ℤ) : ℝ) = 4 * n * (n - 1) * (n - 2) / 3 := by
      have hc := choose_three n
      have : 4 * (n : ℤ) * (n - 1) * (n - 2) = 3 * (8 * (n.choose 3 : ℕ)) := by
        have : ((4 * (n : ℤ) * (n - 1) * (n - 2) : ℤ) : ℝ) = ((3 * (8 * ((n.choose 3 : ℕ) : ℤ)) : ℤ) : ℝ) := by
          push_cast
          rw [hc]; ring
        exact_mod_cast this
      rw [this, Int.mul_tdiv_cancel_left _ (by norm_num)]
      push_cast
      rw [hc]; ring
    have hr : (ruleLen 3 n).1 = 1 + 4 * 2 * (n : ℤ) + 2 * n * (n - 1) + 4 * n * (n - 1) + (4 * n * (n - 1) * (n - 2) : ℤ).tdiv 3 + 2 ^ n := by simp [ruleLen]
    have hr2 : (ruleLen 3 n).2 = if n = 2 then 8 else 9 := by simp [ruleLen]
    rw [hr, hr2]
    refine ⟨rfl, ?_⟩
    push_cast
    rw [hd]
    by_cases hb : 2 < n
    · have hw : (d09 n l0).wtleng = 9 := by simp only [d09]; rw [if_neg (by omega)]
      rw [hw]
      have : (d09 n l0).rulpts = pts9 true (2 ^ n) (n : ℝ) := by simp [d09, hb]
      rw [this]
      norm_num [pts9, sum_Icc_succ_top]
      ring
    · have h2 : n = 2 := by have := h.dim; omega
      subst h2
      have hw : (d09 2 l0).wtleng = 8 := rfl
      rw [hw]
      have : (d09 2 l0).rulpts = pts9 false (2 ^ 2) 2 := by simp [d09]
      rw [this]
      norm_num [pts9, sum_Icc_succ_top]
  · subst e
    have hr : (ruleLen 4 n).1 = 1 + 3 * 2 * (n : ℤ) + 2 * n * (n - 1) + 2 ^ n := by simp [ruleLen]
    refine ⟨rfl, ?_⟩
    rw [hr]
    have hw : (d07 n l0).wtleng = 6 := rfl
    rw [hw]
    have : (d07 n l0).rulpts = pts7 (2 ^ n) (n : ℝ) := rfl
    rw [this]
    push_cast
    norm_num [pts7, sum_Icc_succ_top]
    ring

/-! ## C103 -/

/-- C103.  The sums over symmetric points: for a generator whose coordinates decrease and are not negative, there is one term for each of the different points that arise from it by permutations and changes of signs, whatever ties there
are between its coordinates and whatever the variable `LXCHNG` held, and the generator is left as it was. -/
theorem C103_symmetric {g : List K} (hg : g.Pairwise (· ≥ ·)) (hn : ∀ m ∈ g, 0 ≤ m) (f : List K → ℕ → K) {c h : List K} (hc : c.length = g.length) (hh : h.length = g.length) (lx : ℕ) (pts : List (List K)) :
    ∃ N, ∀ fuel ≥ N, ∃ (a : Acc K) (L : List (List K)), dfshre fuel f lx c h g pts = some (a, g) ∧ L.Nodup ∧ (∀ y, y ∈ L ↔ (y.map abs).Perm g) ∧ a.pts = pts ++ L.map (pt c h) ∧
      ∀ j, a.sum j = (L.map fun y => f (pt c h y) j).sum := by
  refine ⟨2 ^ g.length + #(Pm g), fun fuel hf => ?_⟩
  obtain ⟨L, h1, h2, h3⟩ := dfshre_spec hg hn hf f hc hh lx pts
  refine ⟨_, L, h3, h1, h2, calls_pts _ _ _, fun j => ?_⟩
  rw [calls_sum, List.map_map, zero_add]
  rfl

/-- C103.  For each rule and dimension the basic rule ends, calls the integrand at exactly as many points as `DCHHRE` reports, all different if no width is zero, and all inside the region; the generators are left as they were. -/
theorem C103_points {key : ℤ} {n : ℕ} (hk : Valid key n) {l0 : ℝ} (hl : Lit l0) : ∃ N, ∀ fuel ≥ N, ∀ (numfun : ℕ) (f : List ℝ → ℕ → ℝ) (lx : ℕ → ℕ) (c h : List ℝ), c.length = n → h.length = n →
    ∃ r, drlhre fuel (tab key n l0) numfun f lx c h = some r ∧ r.g = (tab key n l0).g ∧ (r.pts.length : ℤ) = (ruleLen key n).1 ∧ ((∀ w ∈ h, w ≠ 0) → r.pts.Nodup) ∧
      ∀ x ∈ r.pts, x.length = n ∧ ∀ i < n, |x.getD i 0 - c.getD i 0| ≤ |h.getD i 0| := by
  obtain ⟨N, hN⟩ := drlhre_spec (tab key n l0) (fit_tab hk hl)
  refine ⟨N, fun fuel hf numfun f lx c h hc hh => ?_⟩
  obtain ⟨r, L, r1, r2, r3, r4, -⟩ := hN fuel hf numfun f lx c h hc hh
  obtain ⟨p1, p2, p3⟩ := points_spec (fit_tab hk hl) (apart_tab hk hl) r4
  refine ⟨r, r1, r2, ?_, ?_, ?_⟩
  · have h1 : ((L.length : ℕ) : ℝ) = ((ruleLen key n).1 : ℤ) := by
      rw [← (num_tab hk l0).2, p2]
      push_cast
      refine sum_congr rfl fun i hi => ?_
      rw [mem_Icc] at hi
      exact rulpts_tab hk hl i hi.1 hi.2
    rw [r3, List.length_map]
    exact_mod_cast h1
  · intro h0
    rw [r3]
    exact p1.map_on fun y hy y' hy' e => pt_inj (hc.trans hh.symm) h0 y y' ((p3 y hy).1.trans hc.symm) ((p3 y' hy').1.trans hc.symm) e
  · intro x hx
    rw [r3] at hx
    obtain ⟨y, hy, rfl⟩ := List.mem_map.1 hx
    obtain ⟨q1, q2⟩ := p3 y hy
    refine ⟨(pt_length (hc.trans q1.symm) (hh.trans q1.symm)).trans q1, fun i hi => ?_⟩
    rw [pt_getD (hc.trans q1.symm) (hh.trans q1.symm) i (by omega), add_sub_cancel_left, abs_mul]
    have : |y.getD i 0| ≤ 1 := by
      rw [List.getD_eq_getElem _ _ (by omega)]
      exact q2 _ (List.getElem_mem _)
    exact mul_le_of_le_one_left (abs_nonneg _) this

/-- C103.  The number of points for each generator is what `RULPTS` says, and the number of generators and of points is what `DCHHRE` says. -/
theorem C103_counts {key : ℤ} {n : ℕ} (hk : Valid key n) {l0 : ℝ} (hl : Lit l0) :
    (∀ i, 1 ≤ i → i ≤ (tab key n l0).wtleng → ((orb ((tab key n l0).g i)).card : ℝ) = (tab key n l0).rulpts i) ∧ (tab key n l0).wtleng = (ruleLen key n).2 ∧
    ((∑ i ∈ Icc 1 (tab key n l0).wtleng, (orb ((tab key n l0).g i)).card : ℕ) : ℤ) = (ruleLen key n).1 := by
  refine ⟨rulpts_tab hk hl, (num_tab hk l0).1, ?_⟩
  have h1 : ((∑ i ∈ Icc 1 (tab key n l0).wtleng, (orb ((tab key n l0).g i)).card : ℕ) : ℝ) = ((ruleLen key n).1 : ℤ) := by
    rw [← (num_tab hk l0).2]
    push_cast
    refine sum_congr rfl fun i hi => ?_
    rw [mem_Icc] at hi
    exact rulpts_tab hk hl i hi.1 hi.2
  exact_mod_cast h1

/-- C103.  The value is the volume in half widths times the weighted sums over the points of the generators; the axis for the next division is the first of those with the largest fourth difference, and the first of the longest ones when
all differences are zero. -/
theorem C103_axis {key : ℤ} {n : ℕ} (hk : Valid key n) {l0 : ℝ} (hl : Lit l0) : ∃ N, ∀ fuel ≥ N, ∀ (numfun : ℕ) (f : List ℝ → ℕ → ℝ) (lx : ℕ → ℕ) (c h : List ℝ), c.length = n → h.length = n →
    ∃ r, drlhre fuel (tab key n l0) numfun f lx c h = some r ∧
      (∀ j, r.out.val j = h.prod * ∑ i ∈ Icc 1 (tab key n l0).wtleng, (tab key n l0).w 1 i * ∑ y ∈ orb ((tab key n l0).g i), f (pt c h y) j) ∧
      ((∃ i < n, dif (tab key n l0) numfun f c h i ≠ 0) → First n (dif (tab key n l0) numfun f c h) r.out.dir) ∧
      ((∀ i < n, dif (tab key n l0) numfun f c h i = 0) → First n (fun i => h.getD i 0) r.out.dir) := by
  obtain ⟨N, hN⟩ := drlhre_spec (tab key n l0) (fit_tab hk hl)
  refine ⟨N, fun fuel hf numfun f lx c h hc hh => ?_⟩
  obtain ⟨r, L, r1, -, -, -, r5, -, r7, r8⟩ := hN fuel hf numfun f lx c h hc hh
  exact ⟨r, r1, r5, fun ⟨i, hi, h0⟩ => r8 i hi h0, r7⟩

/-- C103.  The errors of a basic rule are not negative, and the axis it names exists: with enough fuel it is what C102 asks for. -/
theorem C103_good {key : ℤ} {n : ℕ} (hk : Valid key n) {l0 : ℝ} (hl : Lit l0) : ∃ N, ∀ fuel ≥ N, ∀ (numfun : ℕ) (f : List ℝ → ℕ → ℝ) (lx : ℕ → ℕ), Good n (rule fuel (tab key n l0) n numfun f lx) := by
  obtain ⟨N, hN⟩ := drlhre_spec (tab key n l0) (fit_tab hk hl)
  refine ⟨N, fun fuel hf numfun f lx b hb => ?_⟩
  obtain ⟨r, L, r1, -, -, -, -, r6, r7, r8⟩ := hN fuel hf numfun f lx (vec n b.center) (vec n b.width) (length_vec _ _) (length_vec _ _)
  unfold rule
  rw [r1]
  refine ⟨fun j => ?_, ?_⟩
  · show 0 ≤ r.out.err j
    rw [r6, vec_prod]
    refine mul_nonneg (prod_nonneg fun i hi => ?_) (error_nonneg _ _ (errcof_tab hk).1 (errcof_tab hk).2 _ _ _ _)
    rw [mem_Icc] at hi
    exact hb i hi.1 hi.2
  · show 1 ≤ r.out.dir ∧ r.out.dir ≤ n
    by_cases h0 : ∀ i < n, dif (tab key n l0) numfun f (vec n b.center) (vec n b.width) i = 0
    · exact ⟨(r7 h0).1, (r7 h0).2.1⟩
    · push Not at h0
      obtain ⟨i, hi, h0⟩ := h0
      exact ⟨(r8 i hi h0).1, (r8 i hi h0).2.1⟩

/-- C103.  Every call that passes the checks has a rule that is for its dimension. -/
theorem C103_valid {c : Call K} {p : Verif.Dcuhre.Plan} (h : Verif.Dcuhre.dchhre c = .inr p) : Valid (keyf c.key c.ndim) c.ndim := by
  obtain ⟨⟨h1, h2⟩, ⟨h3, -⟩, h4, h5, -⟩ := (Verif.Dcuhre.C102_checks c).1 ⟨p, h⟩
  unfold keyf
  refine ⟨?_, h3, fun e => ?_, fun e => ?_⟩
  · split_ifs <;> omega
  · split_ifs at e <;> first | assumption | omega | exact h4 e
  · split_ifs at e <;> first | assumption | omega | exact h5 e

/-! ## The hypotheses are met -/

/-- The rules, the values of the literal, and a generator with ties. -/
example : Valid 1 2 ∧ Valid 2 3 ∧ (∀ n, 2 ≤ n → Valid 3 n ∧ Valid 4 n) ∧ Lit lam0 ∧ Lit (4707 / 10000) ∧ [(3 : ℚ), 3, 1, 0].Pairwise (· ≥ ·) :=
  ⟨⟨by norm_num, by norm_num, by simp, by simp⟩, ⟨by norm_num, by norm_num, by simp, by simp⟩, fun _ h => ⟨⟨by norm_num, h, by simp, by simp⟩, ⟨by norm_num, h, by simp, by simp⟩⟩, Or.inl rfl, Or.inr rfl, by decide +kernel⟩

/-- The points for a generator with ties: twelve permutations, eight choices of signs. -/
example : (dfshre 40 (fun x j => x.sum ^ j) 0 [1, 1, 1, 1] [1, 2, 1, 1] [(3 : ℚ), 3, 1, 0] []).map (fun a => (a.1.pts.length, decide a.1.pts.Nodup, a.1.sum 0, a.2)) = some (96, true, 96, [3, 3, 1, 0]) := by
  decide +kernel

end Verif.Drl
