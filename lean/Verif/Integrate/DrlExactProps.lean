import Verif.Integrate.DrlPoly

/-!
# The vector integrator DCUHRE for polynomials (C104)

Definitions from other files that are part of statements: `tab` (the tables of a rule), `Lit` (the values that the literal `0.4707` may have), `drlhre` and `dcuhre` (the models), `Left` (what a run and any number of restarts leave), `sign`
(minus one for an odd number of reversed limits), `ruleLen` (the number of points of a rule).
-/

set_option linter.unusedSectionVars false

namespace Verif.Drl

open Finset
open Verif.Adapt (put Box halves)
open Verif.Dcuhre (Out ruleLen keyf Good Call Rg Ans Args St Left Same sign dcuhre dcuhreRestart dchhre args loop split accurate finish Heap Totals Passed)
open Verif.SymRl (boxInt)

/-! ## Specification -/

/-- The integrand with the polynomials `p 1`, `p 2`, … as components. -/
noncomputable def polys {n : ℕ} (p : ℕ → MvPolynomial (Fin n) ℝ) (x : List ℝ) (j : ℕ) : ℝ := MvPolynomial.eval (fun i : Fin n => x.getD i 0) (p j)

/-- The degree up to which the rule for `KEY` is exact. -/
def degree (key : ℤ) : ℕ := if key = 4 then 7 else 9

/-- The degree up to which the error estimate is zero. -/
def sure (key : ℤ) : ℕ := if key = 4 then 1 else 3

/-- The basic rules of `DCUHRE`; the values that `LXCHNG` holds at first may differ from region to region. -/
noncomputable def basic (fuel : ℕ) (l0 : ℝ) (n numfun : ℕ) (f : List ℝ → ℕ → ℝ) (lx : Box ℝ → ℕ → ℕ) (key : ℤ) (b : Box ℝ) : Out ℝ := rule fuel (tab key n l0) n numfun f (lx b) b

/-! ## Helper lemmas -/

theorem moments_tab {key : ℤ} (hk : key = 3 ∨ key = 4) {n : ℕ} (hn : 2 ≤ n) {l0 : ℝ} (hl : Lit l0) :
    Moments (tab key n l0) n 1 (degree key) 1 ∧ Moments (tab key n l0) n 2 (sure key) 0 ∧ Moments (tab key n l0) n 3 (sure key) 0 ∧ Moments (tab key n l0) n 4 (sure key) 0 ∧ Moments (tab key n l0) n 5 (sure key) 0 := by
  have mono : ∀ {t : Tab ℝ} {k D D' : ℕ} {θ : ℝ}, Moments t n k D θ → D' ≤ D → Moments t n k D' θ := fun h hD κ h1 h2 => h κ h1 (h2.trans hD)
  rcases hk with rfl | rfl
  · obtain ⟨a, b, c, d, e⟩ := moments9 hn hl
    exact ⟨a, mono b (by decide), mono c (by decide), mono d (by decide), mono e (by decide)⟩
  · obtain ⟨a, b, c, d, e⟩ := moments7 hn hl
    exact ⟨a, mono b (by decide), mono c (by decide), mono d (by decide), mono e (by decide)⟩

theorem valid_of {key : ℤ} (hk : key = 3 ∨ key = 4) {n : ℕ} (hn : 2 ≤ n) : Valid key n := ⟨by omega, hn, by omega, by omega⟩

theorem sure_le (key : ℤ) : sure key ≤ degree key := by
  unfold sure degree; split_ifs <;> omega

theorem search_zero (t : Tab ℝ) (n i : ℕ) : search t n i 0 0 = 0 := by
  unfold search
  have : ∀ l : List ℕ, l.foldl (fun s k => max s (|(0 : ℝ) + scales t i (k + 1) * 0| * norms t n i (k + 1))) 0 = 0 := by
    intro l
    induction l with
    | nil => rfl
    | cons x l ih => rw [List.foldl_cons]; simpa using ih
  exact this _

theorem error_zero (t : Tab ℝ) (n : ℕ) : error t n 0 0 0 0 = 0 := by
  unfold error
  simp only [search_zero]
  split_ifs <;> simp

/-- The rule for polynomials. -/
theorem drlhre_poly {key : ℤ} (hk : key = 3 ∨ key = 4) {n : ℕ} (hn : 2 ≤ n) {l0 : ℝ} (hl : Lit l0) : ∃ N, ∀ fuel ≥ N, ∀ (numfun : ℕ) (p : ℕ → MvPolynomial (Fin n) ℝ) (lx : ℕ → ℕ) (c h : Fin n → ℝ),
    ∃ r, drlhre fuel (tab key n l0) numfun (polys p) lx (List.ofFn c) (List.ofFn h) = some r ∧
      ∀ j, ((p j).totalDegree ≤ degree key → r.out.val j = boxInt (p j) c h) ∧ ((p j).totalDegree ≤ sure key → r.out.err j = 0) := by
  have ht := fit_tab (valid_of hk hn) hl
  obtain ⟨m1, m2, m3, m4, m5⟩ := moments_tab hk hn hl
  obtain ⟨N, hN⟩ := drlhre_spec (tab key n l0) ht
  refine ⟨N, fun fuel hf numfun p lx c h => ?_⟩
  obtain ⟨r, L, r1, -, -, -, r5, r6, -⟩ := hN fuel hf numfun (polys p) lx (List.ofFn c) (List.ofFn h) (by simp) (by simp)
  refine ⟨r, r1, fun j => ⟨fun hp => ?_, fun hp => ?_⟩⟩
  · rw [r5, ← one_mul (boxInt _ _ _)]
    exact total_poly ht m1 (p j) hp c h
  · rw [r6]
    by_cases h0 : (List.ofFn h).prod = 0
    · rw [h0, zero_mul]
    · have z : ∀ {k}, Moments (tab key n l0) n k (sure key) 0 → total (tab key n l0) k (fun y => polys p (pt (List.ofFn c) (List.ofFn h) y) j) = 0 := by
        intro k hM
        have := total_poly ht hM (p j) hp c h
        rw [zero_mul] at this
        exact (mul_eq_zero.1 this).resolve_left h0
      rw [z m2, z m3, z m4, z m5, error_zero, mul_zero]

/-- The rule as the integrator calls it. -/
theorem basic_poly {key : ℤ} (hk : key = 3 ∨ key = 4) {n : ℕ} (hn : 2 ≤ n) {l0 : ℝ} (hl : Lit l0) : ∃ N, ∀ fuel ≥ N, ∀ (numfun : ℕ) (p : ℕ → MvPolynomial (Fin n) ℝ) (lx : Box ℝ → ℕ → ℕ),
    Good n (basic fuel l0 n numfun (polys p) lx key) ∧
      ∀ b j, ((p j).totalDegree ≤ degree key → (basic fuel l0 n numfun (polys p) lx key b).val j = boxInt (p j) (fun i => b.center (i + 1)) (fun i => b.width (i + 1))) ∧
        ((p j).totalDegree ≤ sure key → (basic fuel l0 n numfun (polys p) lx key b).err j = 0) := by
  obtain ⟨N, hN⟩ := drlhre_poly hk hn hl
  obtain ⟨N', hN'⟩ := C103_good (valid_of hk hn) hl
  refine ⟨max N N', fun fuel hf numfun p lx => ⟨fun b hb => hN' fuel (le_trans (le_max_right _ _) hf) numfun (polys p) (lx b) b hb, fun b j => ?_⟩⟩
  obtain ⟨r, r1, r2⟩ := hN fuel (le_trans (le_max_left _ _) hf) numfun p (lx b) (fun i => b.center (i + 1)) (fun i => b.width (i + 1))
  have e : basic fuel l0 n numfun (polys p) lx key b = r.out := by
    unfold basic rule vec
    rw [Verif.SymRl.range_map_ofFn n fun i => b.center (i + 1), Verif.SymRl.range_map_ofFn n fun i => b.width (i + 1), r1]
  rw [e]
  exact r2 j

theorem boxInt_min {n : ℕ} (p : MvPolynomial (Fin n) ℝ) (a b : Fin n → ℝ) : boxInt p (fun i => (a i + b i) / 2) (fun i => |b i - a i| / 2) = ∫ x in Set.Icc (a ⊓ b) (a ⊔ b), MvPolynomial.eval x p := by
  rw [← Verif.SymRl.boxInt_eq p (a := a ⊓ b) (b := a ⊔ b) (inf_le_left.trans le_sup_left)]
  congr 1 <;> funext i <;> simp only [Pi.inf_apply, Pi.sup_apply] <;> rcases le_total (a i) (b i) with h | h
  · rw [inf_eq_left.2 h, sup_eq_right.2 h]; ring
  · rw [inf_eq_right.2 h, sup_eq_left.2 h]; ring
  · rw [inf_eq_left.2 h, sup_eq_right.2 h, abs_of_nonneg (by linarith)]; ring
  · rw [inf_eq_right.2 h, sup_eq_left.2 h, abs_of_nonpos (by linarith)]; ring

section zero
variable {K : Type*} [Field K] [LinearOrder K] [IsStrictOrderedRing K]

/-- What makes the errors of all regions zero: the rule has none, and its values add up. -/
structure Sure (g : Args K) (j : ℕ) : Prop where
  err : ∀ b, (g.rule b).err j = 0
  val : ∀ (b : Box K) i, 1 ≤ i → i ≤ g.ndim → (g.rule b).val j = (g.rule (halves b i).1).val j + (g.rule (halves b i).2).val j

theorem split_zero {g : Args K} (hg : Good g.ndim g.rule) {s : St K} (hs : Heap g s.heap s.n) {j : ℕ} (hj : Sure g j) (h0 : ∀ k, 1 ≤ k → k ≤ s.n → (s.heap k).err j = 0) :
    ∀ k, 1 ≤ k → k ≤ (split g s).n → ((split g s).heap k).err j = 0 := by
  obtain ⟨L, R, h', N, hh, e⟩ := Verif.Dcuhre.split_eq g s hs.n1
  have top := hs.recs 1 le_rfl hs.n1
  have gt := (hg _ top.width).2
  rw [← top.dir] at gt
  have hval : (s.heap 1).val j - (R.val j + L.val j) = 0 := by
    rw [top.val, N.valL, N.valR, N.boxL, N.boxR, hj.val _ _ gt.1 gt.2]
    ring
  rw [e]
  refine Verif.Dcuhre.split_all hs.n1 hh (P := fun x => x.err j = 0) (fun k k1 k2 => h0 k (by omega) k2) ?_ ?_
  · rw [N.errL, Verif.Dcuhre.adjust]
    simp [hj.err, hval]
  · rw [N.errR, Verif.Dcuhre.adjust]
    simp [hj.err, hval]

theorem loop_zero {g : Args K} (hg : Good g.ndim g.rule) (h5 : 0 ≤ g.c5) (h6 : 0 ≤ g.c6) {j : ℕ} (hj : Sure g j) : ∀ (fuel : ℕ) (s : St K) (r : ℕ × St K), Heap g s.heap s.n →
    (∀ k, 1 ≤ k → k ≤ s.n → (s.heap k).err j = 0) → loop g fuel s = some r → ∀ k, 1 ≤ k → k ≤ r.2.n → (r.2.heap k).err j = 0 := by
  intro fuel
  induction fuel with
  | zero => intro s r _ _ h; simp [loop] at h
  | succ fuel ih =>
    intro s r hs h0 h
    rw [loop] at h
    split_ifs at h with c1
    · obtain ⟨hH, -, hn, -⟩ := Verif.Dcuhre.split_spec hg h5 h6 hs
      have hz := split_zero hg hs hj h0
      dsimp only at h
      split_ifs at h with c2 c3
      · exact ih _ _ hH hz h
      · simp only [Option.some.injEq] at h
        subst h
        exact hz
      · exact ih _ _ hH hz h
    · simp only [Option.some.injEq] at h
      subst h
      exact h0

theorem left_zero {c : Call K} {rule : ℤ → Box K → Out K} {c5 c6 : K} {o : Ans K} (hg : Good c.ndim (rule (keyf c.key c.ndim))) (h5 : 0 ≤ c5) (h6 : 0 ≤ c6) {j : ℕ}
    (hj : Sure (Verif.Dcuhre.core c rule c5 c6) j) (h : Left c rule c5 c6 o) : (∀ k, 1 ≤ k → k ≤ o.nsub → (o.heap k).err j = 0) ∧ o.abserr j = 0 := by
  have key : ∀ {o : Ans K}, Left c rule c5 c6 o → ∀ k, 1 ≤ k → k ≤ o.nsub → (o.heap k).err j = 0 := by
    intro o h
    induction h with
    | fresh hs hd =>
      rename_i c' fuel mem o
      obtain ⟨p, r, hc, hl, rfl⟩ := Verif.Dcuhre.dcuhre_some hd
      have hp := Verif.Dcuhre.dchhre_passed hc
      have hk : p.keyf = keyf c.key c.ndim := by rw [hp.keyf, hs.key, hs.ndim]
      have hj' : Sure (args c' p rule c5 c6) j := by
        obtain ⟨q1, q2⟩ := hj
        refine ⟨fun b => ?_, fun b i i1 i2 => ?_⟩
        · show (rule p.keyf b).err j = 0
          rw [hk]; exact q1 b
        · show (rule p.keyf b).val j = _
          have := q2 b i i1 (by show i ≤ c.ndim; rw [← hs.ndim]; exact i2)
          simp only [Verif.Dcuhre.core, args] at this ⊢
          rw [hk]; exact this
      refine loop_zero (Verif.Dcuhre.good_args hs hp hg) h5 h6 hj' fuel _ _ (Verif.Dcuhre.heap_start _ mem) ?_ hl
      rw [Verif.Dcuhre.start_eq]
      intro k k1 k2
      obtain rfl : k = 1 := le_antisymm k2 k1
      dsimp only
      rw [Verif.Adapt.put_self]
      exact hj'.err _
    | again ho hs hd ih =>
      rename_i c' fuel o res abserr neval o'
      obtain ⟨p, r, hc, hl, rfl⟩ := Verif.Dcuhre.restart_some hd
      have hp := Verif.Dcuhre.dchhre_passed hc
      have hk : p.keyf = keyf c.key c.ndim := by rw [hp.keyf, hs.key, hs.ndim]
      have hj' : Sure (args c' p rule c5 c6) j := by
        obtain ⟨q1, q2⟩ := hj
        refine ⟨fun b => ?_, fun b i i1 i2 => ?_⟩
        · show (rule p.keyf b).err j = 0
          rw [hk]; exact q1 b
        · show (rule p.keyf b).val j = _
          have := q2 b i i1 (by show i ≤ c.ndim; rw [← hs.ndim]; exact i2)
          simp only [Verif.Dcuhre.core, args] at this ⊢
          rw [hk]; exact this
      exact loop_zero (Verif.Dcuhre.good_args hs hp hg) h5 h6 hj' fuel _ _ ((Verif.Dcuhre.heap_core hs hp).2 (Verif.Dcuhre.left_heap hg h5 h6 ho).1) ih hl
  refine ⟨key h, ?_⟩
  rw [(Verif.Dcuhre.left_heap hg h5 h6 h).2.2.2 j]
  exact sum_eq_zero fun k hk => key h k (mem_Icc.1 hk).1 (mem_Icc.1 hk).2

/-- Without errors the loop ends as soon as there are enough regions. -/
theorem loop_sure {g : Args K} (hg : Good g.ndim g.rule) (h5 : 0 ≤ g.c5) (h6 : 0 ≤ g.c6) (hj : ∀ j, Sure g j) (hm : g.minsub ≤ g.maxsub) (he : 0 ≤ g.epsabs ∨ 0 ≤ g.epsrel) : ∀ (fuel : ℕ) (s : St K) (r : ℕ × St K),
    Heap g s.heap s.n → Totals s → (∀ k, 1 ≤ k → k ≤ s.n → ∀ j, (s.heap k).err j = 0) → (s.n : ℤ) < g.minsub → loop g fuel s = some r → r.1 = 0 := by
  intro fuel
  induction fuel with
  | zero => intro s r _ _ _ _ h; simp [loop] at h
  | succ fuel ih =>
    intro s r hs hT h0 hlt h
    rw [loop, if_pos (by omega)] at h
    obtain ⟨hH, hT', hn, -⟩ := Verif.Dcuhre.split_spec hg h5 h6 hs
    have hz : ∀ k, 1 ≤ k → k ≤ (split g s).n → ∀ j, ((split g s).heap k).err j = 0 := by
      intro k k1 k2 j
      exact split_zero hg hs (hj j) (fun k k1 k2 => h0 k k1 k2 j) k k1 k2
    have ha : accurate g (split g s) g.numfun 1 = true := by
      rw [Verif.Dcuhre.accurate_eq]
      intro i _ _
      have : (split g s).abserr i = 0 := by
        rw [(hT' hT).err i]
        exact sum_eq_zero fun k hk => hz k (mem_Icc.1 hk).1 (mem_Icc.1 hk).2 i
      rw [this]
      rcases he with he | he
      · exact Or.inr he
      · exact Or.inl (mul_nonneg he (abs_nonneg _))
    dsimp only at h
    split_ifs at h with c2
    · exact ih _ _ hH (hT' hT) hz c2 h
    · simp only [Option.some.injEq] at h
      rw [← h]

/-- `MINSUB` of `DCHHRE`. -/
theorem minsub_le {c : Call K} {p : Verif.Dcuhre.Plan} (h : dchhre c = .inr p) {m : ℤ} (hm : c.minpts ≤ p.num * (2 * m - 1)) : 2 ≤ p.minsub ∧ p.minsub ≤ max 2 m ∧ (0 ≤ c.epsabs ∨ 0 ≤ c.epsrel) := by
  have hp := Verif.Dcuhre.dchhre_passed h
  have step : ∀ {P : Prop} [Decidable P] {i : ℕ} {z : ℕ ⊕ Verif.Dcuhre.Plan}, (if P then Sum.inl i else z) = .inr p → ¬ P ∧ z = .inr p := by
    intro P _ i z hz
    by_cases hP : P
    · rw [if_pos hP] at hz; cases hz
    · rw [if_neg hP] at hz; exact ⟨hP, hz⟩
  unfold dchhre at h
  obtain ⟨g1, h⟩ := step h
  obtain ⟨g2, h⟩ := step h
  obtain ⟨g3, h⟩ := step h
  obtain ⟨g4, h⟩ := step h
  dsimp only at h
  obtain ⟨g5, h⟩ := step h
  obtain ⟨g6, h⟩ := step h
  obtain ⟨g7, h⟩ := step h
  obtain ⟨g8, h⟩ := step h
  obtain ⟨g9, h⟩ := step h
  obtain ⟨g10, h⟩ := step h
  obtain ⟨g11, h⟩ := step h
  simp only [Sum.inr.injEq] at h
  have hn : p.num = (ruleLen (keyf c.key c.ndim) c.ndim).1 := by rw [← h]
  have hms : p.minsub = max 2 (if (c.minpts - p.num).tmod (2 * p.num) ≠ 0 then (c.minpts - p.num).tdiv (2 * p.num) + 1 + 1 else (c.minpts - p.num).tdiv (2 * p.num) + 1) := by rw [hn, ← h]
  have hpos := hp.num
  rw [hms]
  refine ⟨le_max_left _ _, ?_, by by_contra hh; push Not at hh; exact g9 hh⟩
  refine max_le (le_max_left _ _) ?_
  by_cases hle : c.minpts ≤ p.num
  · refine le_trans ?_ (le_max_left _ _)
    have : (c.minpts - p.num).tdiv (2 * p.num) ≤ 0 := by
      have h1 : (-(c.minpts - p.num)).tdiv (2 * p.num) = -(c.minpts - p.num).tdiv (2 * p.num) := Int.neg_tdiv _ _
      have h2 : 0 ≤ (-(c.minpts - p.num)).tdiv (2 * p.num) := Int.tdiv_nonneg (by omega) (by omega)
      omega
    split_ifs <;> omega
  · refine le_trans ?_ (le_max_right _ _)
    rw [Int.tdiv_eq_ediv_of_nonneg (by omega), Int.tmod_eq_emod_of_nonneg (by omega)]
    have k2 := Int.mul_ediv_add_emod (c.minpts - p.num) (2 * p.num)
    have k3 := Int.emod_nonneg (c.minpts - p.num) (show 2 * p.num ≠ 0 by omega)
    generalize (c.minpts - p.num) / (2 * p.num) = q at *
    generalize (c.minpts - p.num) % (2 * p.num) = r at *
    split_ifs with hr
    · have : 0 < r := by omega
      by_contra hq
      push Not at hq
      have : 2 * p.num * (m - 1) ≤ 2 * p.num * q := by nlinarith
      nlinarith
    · by_contra hq
      push Not at hq
      have : 2 * p.num * m ≤ 2 * p.num * q := by nlinarith
      nlinarith

end zero

theorem sure_core {c : Call ℝ} {l0 : ℝ} {p : ℕ → MvPolynomial (Fin c.ndim) ℝ} {fuel numfun : ℕ} {lx : Box ℝ → ℕ → ℕ} {c5 c6 : ℝ} {j : ℕ} (hp : (p j).totalDegree ≤ sure (keyf c.key c.ndim))
    (h : ∀ b j, ((p j).totalDegree ≤ degree (keyf c.key c.ndim) → (basic fuel l0 c.ndim numfun (polys p) lx (keyf c.key c.ndim) b).val j = boxInt (p j) (fun i => b.center (i + 1)) (fun i => b.width (i + 1))) ∧
        ((p j).totalDegree ≤ sure (keyf c.key c.ndim) → (basic fuel l0 c.ndim numfun (polys p) lx (keyf c.key c.ndim) b).err j = 0)) :
    Sure (Verif.Dcuhre.core c (basic fuel l0 c.ndim numfun (polys p) lx) c5 c6) j := by
  refine ⟨fun b => (h b j).2 hp, fun b i i1 i2 => ?_⟩
  have hd := hp.trans (sure_le _)
  have hv : ∀ b, ((Verif.Dcuhre.core c (basic fuel l0 c.ndim numfun (polys p) lx) c5 c6).rule b).val j = boxInt (p j) (fun i => b.center (i + 1)) (fun i => b.width (i + 1)) := fun b => (h b j).1 hd
  rw [hv, hv, hv]
  exact Verif.SymRl.boxInt_halves (p j) b i1 i2

/-! ## C104 -/

/-- C104.  In every dimension the basic rule for `KEY = 4` (`KEY = 3`) gives the integral over a box for polynomials of degree up to seven (nine), and the error zero for polynomials of degree up to one (three). -/
theorem C104_rule {key : ℤ} (hk : key = 3 ∨ key = 4) {n : ℕ} (hn : 2 ≤ n) {l0 : ℝ} (hl : Lit l0) : ∃ N, ∀ fuel ≥ N, ∀ (numfun : ℕ) (p : ℕ → MvPolynomial (Fin n) ℝ) (lx : ℕ → ℕ) (a b : Fin n → ℝ), a ≤ b →
    ∃ r, drlhre fuel (tab key n l0) numfun (polys p) lx (List.ofFn fun i => (a i + b i) / 2) (List.ofFn fun i => (b i - a i) / 2) = some r ∧
      ∀ j, ((p j).totalDegree ≤ degree key → r.out.val j = ∫ x in Set.Icc a b, MvPolynomial.eval x (p j)) ∧ ((p j).totalDegree ≤ sure key → r.out.err j = 0) := by
  obtain ⟨N, hN⟩ := drlhre_poly hk hn hl
  refine ⟨N, fun fuel hf numfun p lx a b hab => ?_⟩
  obtain ⟨r, r1, r2⟩ := hN fuel hf numfun p lx (fun i => (a i + b i) / 2) (fun i => (b i - a i) / 2)
  refine ⟨r, r1, fun j => ⟨fun hp => ?_, (r2 j).2⟩⟩
  rw [(r2 j).1 hp, ← Verif.SymRl.boxInt_eq (p j) hab]
  congr 1 <;> funext i <;> ring

/-- C104.  After a run of `DCUHRE` and any number of restarts, with `KEY` 4 (3), or with `KEY` 0 in a dimension where this means 3, a component of the integrand that is a polynomial of degree up to seven (nine) has its integral, with
the sign for reversed limits, as `RESULT`, however the box has been divided. -/
theorem C104_result (c : Call ℝ) (hk : keyf c.key c.ndim = 3 ∨ keyf c.key c.ndim = 4) (hn : 2 ≤ c.ndim) {l0 : ℝ} (hl : Lit l0) {c5 c6 : ℝ} (h5 : 0 ≤ c5) (h6 : 0 ≤ c6) : ∃ N, ∀ fuel ≥ N, ∀ (p : ℕ → MvPolynomial (Fin c.ndim) ℝ)
    (lx : Box ℝ → ℕ → ℕ) (o : Ans ℝ), Left c (basic fuel l0 c.ndim c.numfun.toNat (polys p) lx) c5 c6 o → ∀ j, (p j).totalDegree ≤ degree (keyf c.key c.ndim) →
      o.res j = (sign c.ndim c.a c.b : ℤ) * ∫ x in Set.Icc ((fun i : Fin c.ndim => c.a (i + 1)) ⊓ fun i => c.b (i + 1)) ((fun i : Fin c.ndim => c.a (i + 1)) ⊔ fun i => c.b (i + 1)), MvPolynomial.eval x (p j) := by
  obtain ⟨N, hN⟩ := basic_poly hk hn hl
  refine ⟨N, fun fuel hf p lx o ho j hp => ?_⟩
  obtain ⟨g1, g2⟩ := hN fuel hf c.numfun.toNat p lx
  rw [(Verif.Dcuhre.C102_sums g1 h5 h6 ho j).1]
  congr 1
  have hv : ∀ k, (basic fuel l0 c.ndim c.numfun.toNat (polys p) lx (keyf c.key c.ndim) (o.heap k).box).val j = boxInt (p j) (fun i => (o.heap k).box.center (i + 1)) (fun i => (o.heap k).box.width (i + 1)) := fun k => (g2 _ j).1 hp
  simp only [hv]
  rw [Verif.Dcuhre.C102_additive g1 h5 h6 ho (fun b => boxInt (p j) (fun i => b.center (i + 1)) (fun i => b.width (i + 1))) fun b i i1 i2 _ => Verif.SymRl.boxInt_halves (p j) b i1 i2]
  exact boxInt_min (p j) (fun i => c.a (i + 1)) fun i => c.b (i + 1)

/-- C104.  For polynomials of degree up to one (three), `ABSERR` is zero after a run and any number of restarts; and `IFAIL` is 0 after a run
exactly if some number of divisions meets both `MINPTS` and `MAXPTS`. -/
theorem C104_sure (c : Call ℝ) (hk : keyf c.key c.ndim = 3 ∨ keyf c.key c.ndim = 4) (hn : 2 ≤ c.ndim) {l0 : ℝ} (hl : Lit l0) {c5 c6 : ℝ} (h5 : 0 ≤ c5) (h6 : 0 ≤ c6) : ∃ N, ∀ fuel ≥ N, ∀ (p : ℕ → MvPolynomial (Fin c.ndim) ℝ)
    (lx : Box ℝ → ℕ → ℕ),
      (∀ (o : Ans ℝ), Left c (basic fuel l0 c.ndim c.numfun.toNat (polys p) lx) c5 c6 o → ∀ j, (p j).totalDegree ≤ sure (keyf c.key c.ndim) → o.abserr j = 0) ∧
      ((∀ j, (p j).totalDegree ≤ sure (keyf c.key c.ndim)) → ∀ fuel' mem o, dcuhre fuel' c (basic fuel l0 c.ndim c.numfun.toNat (polys p) lx) c5 c6 mem = some (.inr o) →
        (o.ifail = 0 ↔ ∃ m : ℤ, c.minpts ≤ (ruleLen (keyf c.key c.ndim) c.ndim).1 * (2 * m - 1) ∧ (ruleLen (keyf c.key c.ndim) c.ndim).1 * (2 * m - 1) ≤ c.maxpts)) := by
  obtain ⟨N, hN⟩ := basic_poly hk hn hl
  refine ⟨N, fun fuel hf p lx => ?_⟩
  obtain ⟨g1, g2⟩ := hN fuel hf c.numfun.toNat p lx
  refine ⟨fun o ho j hp => (left_zero g1 h5 h6 (sure_core hp g2) ho).2, ?_⟩
  intro hp fuel' mem o ho
  obtain ⟨-, t2, -, t4⟩ := Verif.Dcuhre.C102_tolerance_partial g1 h5 h6 ho
  obtain ⟨q, r, hc, hlp, rfl⟩ := Verif.Dcuhre.dcuhre_some ho
  have hq := Verif.Dcuhre.dchhre_passed hc
  have hnum : (ruleLen (keyf c.key c.ndim) c.ndim).1 = q.num := by rw [← hq.keyf, ← hq.eq]
  rw [hnum]
  refine ⟨fun h0 => ⟨r.2.n, ?_⟩, ?_⟩
  · obtain ⟨-, -, q3, q4, -⟩ := Verif.Dcuhre.loop_spec (Verif.Dcuhre.good_args (Verif.Dcuhre.same_self c) hq g1) h5 h6 _ _ _ (Verif.Dcuhre.heap_start _ mem) hlp
    rw [Verif.Dcuhre.start_eq] at q3 q4
    have hne : (r.2.neval : ℤ) = q.num * (2 * r.2.n - 1) := by
      have hnn : ((q.num.toNat : ℕ) : ℤ) = q.num := Int.toNat_of_nonneg hq.num.le
      rw [q4, ← hnn]
      have h1 : 1 ≤ r.2.n := q3
      show ((q.num.toNat + 2 * q.num.toNat * (r.2.n - 1) : ℕ) : ℤ) = _
      push_cast [h1]
      ring
    rw [← hne]
    exact ⟨(t2 h0).2, t4⟩
  rintro ⟨m, m1, m2⟩
  obtain ⟨e0, e1, e2⟩ := minsub_le hc m1
  have hpos := hq.num
  have hms : q.minsub ≤ q.maxsub := by
    refine e1.trans (max_le hq.max2 ?_)
    rw [hq.maxsub, Int.tdiv_eq_ediv_of_nonneg (by have := hq.three; omega)]
    have : m - 1 ≤ (c.maxpts - q.num) / (2 * q.num) := by
      rw [Int.le_ediv_iff_mul_le (by omega)]
      linarith
    omega
  have hs := Verif.Dcuhre.same_self c
  have hsure : ∀ j, Sure (args c q (basic fuel l0 c.ndim c.numfun.toNat (polys p) lx) c5 c6) j := by
    intro j
    obtain ⟨s1, s2⟩ := sure_core (c5 := c5) (c6 := c6) (hp j) g2
    have hkq : (args c q (basic fuel l0 c.ndim c.numfun.toNat (polys p) lx) c5 c6).rule = (Verif.Dcuhre.core c (basic fuel l0 c.ndim c.numfun.toNat (polys p) lx) c5 c6).rule := by
      simp only [args, Verif.Dcuhre.core, hq.keyf]
    exact ⟨by rw [hkq]; exact s1, by rw [hkq]; exact s2⟩
  have hst := Verif.Dcuhre.start_eq (args c q (basic fuel l0 c.ndim c.numfun.toNat (polys p) lx) c5 c6) mem
  refine loop_sure (Verif.Dcuhre.good_args hs hq g1) h5 h6 hsure hms e2 fuel' _ _ (Verif.Dcuhre.heap_start _ mem) (Verif.Dcuhre.totals_start _ mem) ?_ ?_ hlp
  · rw [hst]
    intro k k1 k2 j
    obtain rfl : k = 1 := le_antisymm k2 k1
    dsimp only
    rw [Verif.Adapt.put_self]
    exact (hsure j).err _
  · rw [hst]
    show ((1 : ℕ) : ℤ) < q.minsub
    omega

/-! ## The hypotheses are met -/

/-- A call with `KEY` 4, in three dimensions, with one pair of limits reversed, whose checks pass, and with a number of divisions as in `C104_sure`. -/
noncomputable def callR : Call ℝ := ⟨3, 2, fun j => if j = 2 then 3 else 0, fun j => if j = 2 then 1 else 2, 100, 1000, 0, 1 / 10, 4, 5000, 0⟩

theorem callR_plan : ∃ p, dchhre callR = .inr p := by
  rw [Verif.Dcuhre.C102_checks]
  have hr : (ruleLen (keyf callR.key callR.ndim) callR.ndim).1 = 39 := by
    show (ruleLen (keyf 4 3) 3).1 = 39
    decide +kernel
  rw [hr]
  refine ⟨by simp [callR], by simp [callR], by simp [callR], by simp [callR], by simp [callR], fun j _ _ => ?_, by simp [callR], by simp [callR], by simp [callR], by simp [callR], by simp [callR]⟩
  simp only [callR]
  split_ifs <;> norm_num

/-- Runs exist for this call (`C104_result`, `C104_sure`): the integrals of `x² y³ z²` and of `x + 1`. -/
example : ∃ N, ∀ fuel ≥ N, ∃ o, Left callR (basic fuel lam0 3 2 (polys fun j => if j = 1 then MvPolynomial.X 0 ^ 2 * MvPolynomial.X 1 ^ 3 * MvPolynomial.X 2 ^ 2 else MvPolynomial.X (0 : Fin 3) + 1) fun _ _ => 0) (1 / 2) (1 / 4) o ∧
    (keyf callR.key callR.ndim = 3 ∨ keyf callR.key callR.ndim = 4) := by
  have hk : keyf callR.key callR.ndim = 4 := rfl
  obtain ⟨N, hN⟩ := basic_poly (key := 4) (Or.inr rfl) (n := 3) (by norm_num) (Or.inl rfl : Lit lam0)
  refine ⟨N, fun fuel hf => ?_⟩
  obtain ⟨g1, -⟩ := hN fuel hf 2 (fun j => if j = 1 then MvPolynomial.X 0 ^ 2 * MvPolynomial.X 1 ^ 3 * MvPolynomial.X 2 ^ 2 else MvPolynomial.X (0 : Fin 3) + 1) (fun _ _ => 0)
  obtain ⟨o, ho⟩ := Verif.Dcuhre.C102_ends callR (basic fuel lam0 3 2 (polys _) fun _ _ => 0) (c5 := 1 / 2) (c6 := 1 / 4) (fun _ => ⟨0, 0, fun _ => 0, fun _ => 0, ⟨fun _ => 0, fun _ => 0⟩⟩) (by rw [hk]; exact g1) (by norm_num) (by norm_num)
    (fuel := 1000) (by simp [callR]) (by norm_num)
  obtain ⟨p, hp⟩ := callR_plan
  rcases o with i | o
  · exfalso
    unfold dcuhre at ho
    rw [hp] at ho
    simp at ho
  · exact ⟨o, .fresh (Verif.Dcuhre.same_self _) ho, Or.inr hk⟩

/-- The number of divisions in `C104_sure`: three regions take 195 evaluations. -/
example : ∃ m : ℤ, callR.minpts ≤ (ruleLen (keyf callR.key callR.ndim) callR.ndim).1 * (2 * m - 1) ∧ (ruleLen (keyf callR.key callR.ndim) callR.ndim).1 * (2 * m - 1) ≤ callR.maxpts := by
  have hr : (ruleLen (keyf callR.key callR.ndim) callR.ndim).1 = 39 := by
    show (ruleLen (keyf 4 3) 3).1 = 39
    decide +kernel
  rw [hr]
  exact ⟨3, by simp [callR], by simp [callR]⟩

/-- The degrees of two polynomials that are in the range of `C104_result` and of `C104_sure`. -/
example : (MvPolynomial.X 0 ^ 2 * MvPolynomial.X 1 ^ 3 * MvPolynomial.X 2 ^ 2 : MvPolynomial (Fin 3) ℝ).totalDegree ≤ degree 4 ∧ (MvPolynomial.X 0 + 1 : MvPolynomial (Fin 3) ℝ).totalDegree ≤ sure 4 := by
  constructor
  · refine (MvPolynomial.totalDegree_mul _ _).trans ((add_le_add_left (MvPolynomial.totalDegree_mul _ _) _).trans ?_)
    simp [MvPolynomial.totalDegree_X_pow, degree]
  · refine (MvPolynomial.totalDegree_add _ _).trans ?_
    simp [sure, MvPolynomial.totalDegree_X]

end Verif.Drl
