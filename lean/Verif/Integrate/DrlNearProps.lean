import Verif.Integrate.DrlNear
import Verif.Integrate.DrlExactProps

/-!
# The tabulated rules of the vector integrator DCUHRE (C105)

Definitions from other files that are part of statements: `big p R` (the sum of the sizes of the terms of `p` where every coordinate has the size `R`), `polys` (an integrand whose components are polynomials), `basic` (the basic rules as
`DCUHRE` calls them), `tab` (the tables of a rule), `drlhre` and `dcuhre` (the models), `Left` (what a run and any number of restarts leave), `sign` (minus one for an odd number of reversed limits), `ruleLen` (the number of points of a
rule).
-/

set_option linter.unusedSectionVars false

namespace Verif.Drl

open Finset
open Verif.Adapt (put Box halves)
open Verif.Dcuhre (Out ruleLen keyf Good Call Rg Ans Args St Left Same sign dcuhre dcuhreRestart dchhre args loop split accurate finish Heap Totals Passed From New core)
open Verif.SymRl (boxInt)

/-! ## Specification -/

/-- The degree of the tabulated rule for `KEY`, and that of its null rules. -/
def degreeT (key : ℤ) : ℕ := if key = 1 then 13 else 11

def sureT (key : ℤ) : ℕ := if key = 1 then 7 else 5

/-! ## Helper lemmas: the rule -/

theorem valid_T {key : ℤ} {n : ℕ} (hk : key = 1 ∧ n = 2 ∨ key = 2 ∧ n = 3) : Valid key n := by
  rcases hk with ⟨rfl, rfl⟩ | ⟨rfl, rfl⟩
  · exact ⟨by norm_num, by norm_num, by simp, by simp⟩
  · exact ⟨by norm_num, by norm_num, by simp, by simp⟩

theorem tables {key : ℤ} {n : ℕ} (hk : key = 1 ∧ n = 2 ∨ key = 2 ∧ n = 3) (l0 : ℝ) : ∃ (q : Tab ℚ) (d d' : ℕ), Casts (tab key n l0) q ∧ Computed q n d d' ∧ degreeT key = 2 * d + 1 ∧ sureT key = 2 * d' + 1 := by
  rcases hk with ⟨rfl, rfl⟩ | ⟨rfl, rfl⟩
  · exact ⟨d132, 6, 3, casts132, computed132, rfl, rfl⟩
  · exact ⟨d113, 5, 2, casts113, computed113, rfl, rfl⟩

theorem scales_cast {t : Tab ℝ} {q : Tab ℚ} (hc : Casts t q) (k i : ℕ) : scales t k i = ((scales q k i : ℚ) : ℝ) := by
  unfold scales
  rw [hc.w, hc.w, apply_ite (Rat.cast : ℚ → ℝ)]
  simp

theorem norms_cast {t : Tab ℝ} {q : Tab ℚ} (hc : Casts t q) (n k i : ℕ) : norms t n k i = ((norms q n k i : ℚ) : ℝ) := by
  unfold norms
  push_cast
  rw [hc.wtleng]
  congr 1
  rw [List.map_map]
  congr 1
  refine List.map_congr_left fun j _ => ?_
  simp only [Function.comp]
  rw [hc.rulpts, hc.w, hc.w, scales_cast hc]
  push_cast
  rfl

theorem search_le {t : Tab ℝ} {q : Tab ℚ} (hc : Casts t q) {n d d' : ℕ} (hq : Computed q n d d') {k : ℕ} (hk : k ∈ [1, 2, 3]) {a b δ : ℝ} (ha : |a| ≤ δ) (hb : |b| ≤ δ) : search t n k a b ≤ 47 * δ := by
  have hδ : 0 ≤ δ := (abs_nonneg a).trans ha
  unfold search
  have : ∀ (l : List ℕ) (z : ℝ), z ≤ 47 * δ → (∀ i ∈ l, i ∈ List.range q.wtleng) → l.foldl (fun s i => max s (|b + scales t k (i + 1) * a| * norms t n k (i + 1))) z ≤ 47 * δ := by
    intro l
    induction l with
    | nil => intro z hz _; exact hz
    | cons x l ih =>
      intro z hz hl
      refine ih _ (max_le hz ?_) fun i hi => hl i (List.mem_cons_of_mem _ hi)
      obtain ⟨h1, h2⟩ := hq.size k hk x (hl x List.mem_cons_self)
      have h1' : (0 : ℝ) ≤ norms t n k (x + 1) := by rw [norms_cast hc]; exact_mod_cast h1
      have h2' : (1 + |scales t k (x + 1)|) * norms t n k (x + 1) ≤ 47 := by rw [norms_cast hc, scales_cast hc]; exact_mod_cast h2
      have h3 : |b + scales t k (x + 1) * a| ≤ (1 + |scales t k (x + 1)|) * δ := by
        refine (abs_add_le _ _).trans ?_
        rw [abs_mul, add_mul, one_mul]
        exact add_le_add hb (mul_le_mul_of_nonneg_left ha (abs_nonneg _))
      calc _ ≤ (1 + |scales t k (x + 1)|) * δ * norms t n k (x + 1) := mul_le_mul_of_nonneg_right h3 h1'
        _ = (1 + |scales t k (x + 1)|) * norms t n k (x + 1) * δ := by ring
        _ ≤ 47 * δ := mul_le_mul_of_nonneg_right h2' hδ
  rw [hc.wtleng]
  exact this _ _ (by positivity) fun i hi => hi

theorem error_le {t : Tab ℝ} {q : Tab ℚ} (hc : Casts t q) {n d d' : ℕ} (hq : Computed q n d d') {a b c e δ : ℝ} (ha : |a| ≤ δ) (hb : |b| ≤ δ) (hcc : |c| ≤ δ) (he : |e| ≤ δ) : error t n a b c e ≤ 235 * δ := by
  have hδ : 0 ≤ δ := (abs_nonneg a).trans ha
  obtain ⟨c1, c2, c3, c4⟩ := hq.coef
  have c1' : (0 : ℝ) ≤ t.errcof 3 := by rw [hc.errcof]; exact_mod_cast c1
  have c2' : t.errcof 3 ≤ 5 := by rw [hc.errcof]; exact_mod_cast c2
  have c3' : (0 : ℝ) ≤ t.errcof 4 := by rw [hc.errcof]; exact_mod_cast c3
  have c4' : t.errcof 4 ≤ 5 := by rw [hc.errcof]; exact_mod_cast c4
  have s1 := search_le hc hq (k := 1) (by decide) ha hb
  have s2 := search_le hc hq (k := 2) (by decide) hb hcc
  have s3 := search_le hc hq (k := 3) (by decide) hcc he
  unfold error
  simp only
  split_ifs
  · calc _ ≤ 5 * (47 * δ) := mul_le_mul c2' s1 (search_nonneg _ _ _ _ _) (by norm_num)
      _ = _ := by ring
  · calc _ ≤ 5 * (47 * δ) := mul_le_mul c4' (max_le (max_le s1 s2) s3) ((search_nonneg t n 1 a b).trans ((le_max_left _ _).trans (le_max_left _ _))) (by norm_num)
      _ = _ := by ring

/-- The rule for polynomials. -/
theorem drlhre_near {key : ℤ} {n : ℕ} (hk : key = 1 ∧ n = 2 ∨ key = 2 ∧ n = 3) {l0 : ℝ} (hl : Lit l0) : ∃ N, ∀ fuel ≥ N, ∀ (numfun : ℕ) (p : ℕ → MvPolynomial (Fin n) ℝ) (lx : ℕ → ℕ) (c h : Fin n → ℝ), (∀ i, 0 ≤ h i) →
    ∃ r, drlhre fuel (tab key n l0) numfun (polys p) lx (List.ofFn c) (List.ofFn h) = some r ∧
      ∀ j, ((p j).totalDegree ≤ degreeT key → |r.out.val j - boxInt (p j) c h| ≤ 3 / 10 ^ 15 * (∏ i, h i) * big (p j) fun i => |c i| + h i) ∧
        ((p j).totalDegree ≤ sureT key → r.out.err j ≤ 235 * (3 / 10 ^ 15) * (∏ i, h i) * big (p j) fun i => |c i| + h i) := by
  obtain ⟨q, d, d', hc, hq, e1, e2⟩ := tables hk l0
  have ht := fit_tab (valid_T hk) hl
  obtain ⟨N, hN⟩ := drlhre_spec (tab key n l0) ht
  refine ⟨N, fun fuel hf numfun p lx c h hh => ?_⟩
  obtain ⟨r, L, r1, -, -, -, r5, r6, -⟩ := hN fuel hf numfun (polys p) lx (List.ofFn c) (List.ofFn h) (by simp) (by simp)
  have habs : (fun i => |c i| + |h i|) = fun i => |c i| + h i := by funext i; rw [abs_of_nonneg (hh i)]
  have hv : |(List.ofFn h).prod| = ∏ i, h i := by rw [List.prod_ofFn, abs_of_nonneg (prod_nonneg fun i _ => hh i)]
  have hv' : (List.ofFn h).prod = ∏ i, h i := List.prod_ofFn
  refine ⟨r, r1, fun j => ⟨fun hp => ?_, fun hp => ?_⟩⟩
  · have := total_near ht (near_of hc ht (by norm_num) hq.rule) (p j) (by rw [← e1]; exact hp) c h
    rw [hv, habs] at this
    rw [r5]
    push_cast at this
    rw [one_mul] at this
    refine this.trans (le_of_eq ?_)
    ring
  · rw [r6]
    by_cases h0 : (∏ i, h i) = 0
    · rw [hv', h0]; simp
    · have hpos : 0 < ∏ i, h i := lt_of_le_of_ne (prod_nonneg fun i _ => hh i) (Ne.symm h0)
      have z : ∀ {k}, k ∈ [2, 3, 4, 5] → |total (tab key n l0) k (fun y => polys p (pt (List.ofFn c) (List.ofFn h) y) j)| ≤ 3 / 10 ^ 15 * big (p j) fun i => |c i| + h i := by
        intro k hk'
        have := total_near ht (near_of hc ht (by norm_num) (hq.null k hk')) (p j) (by rw [← e2]; exact hp) c h
        rw [hv, habs] at this
        push_cast at this
        rw [zero_mul, sub_zero, abs_mul, hv, mul_assoc] at this
        exact le_of_mul_le_mul_left this hpos
      have := error_le hc hq (z (k := 2) (by decide)) (z (k := 3) (by decide)) (z (k := 4) (by decide)) (z (k := 5) (by decide))
      rw [hv']
      calc _ ≤ (∏ i, h i) * (235 * (3 / 10 ^ 15 * big (p j) fun i => |c i| + h i)) := mul_le_mul_of_nonneg_left this hpos.le
        _ = _ := by ring

/-- The product of the half widths of a box. -/
noncomputable def vol (n : ℕ) (b : Box ℝ) : ℝ := ∏ i : Fin n, b.width (i + 1)

/-- The box is where the coordinates have sizes up to `R`. -/
def Within (n : ℕ) (R : Fin n → ℝ) (b : Box ℝ) : Prop := ∀ i : Fin n, |b.center (i + 1)| + b.width (i + 1) ≤ R i

/-- The rule as the integrator calls it. -/
theorem basic_near {key : ℤ} {n : ℕ} (hk : key = 1 ∧ n = 2 ∨ key = 2 ∧ n = 3) {l0 : ℝ} (hl : Lit l0) : ∃ N, ∀ fuel ≥ N, ∀ (numfun : ℕ) (p : ℕ → MvPolynomial (Fin n) ℝ) (lx : Box ℝ → ℕ → ℕ),
    Good n (basic fuel l0 n numfun (polys p) lx key) ∧
      ∀ (b : Box ℝ) j (R : Fin n → ℝ), (∀ i, 1 ≤ i → i ≤ n → 0 ≤ b.width i) → Within n R b →
        ((p j).totalDegree ≤ degreeT key → |(basic fuel l0 n numfun (polys p) lx key b).val j - boxInt (p j) (fun i => b.center (i + 1)) (fun i => b.width (i + 1))| ≤ 3 / 10 ^ 15 * vol n b * big (p j) R) ∧
        ((p j).totalDegree ≤ sureT key → (basic fuel l0 n numfun (polys p) lx key b).err j ≤ 235 * (3 / 10 ^ 15) * vol n b * big (p j) R) := by
  obtain ⟨N, hN⟩ := drlhre_near hk hl
  obtain ⟨N', hN'⟩ := C103_good (valid_T hk) hl
  refine ⟨max N N', fun fuel hf numfun p lx => ⟨fun b hb => hN' fuel (le_trans (le_max_right _ _) hf) numfun (polys p) (lx b) b hb, fun b j R hb hR => ?_⟩⟩
  have hw : ∀ i : Fin n, 0 ≤ b.width (i + 1) := fun i => hb _ (by omega) (by omega)
  obtain ⟨r, r1, r2⟩ := hN fuel (le_trans (le_max_left _ _) hf) numfun p (lx b) (fun i => b.center (i + 1)) (fun i => b.width (i + 1)) hw
  have e : basic fuel l0 n numfun (polys p) lx key b = r.out := by
    unfold basic rule vec
    rw [Verif.SymRl.range_map_ofFn n fun i => b.center (i + 1), Verif.SymRl.range_map_ofFn n fun i => b.width (i + 1), r1]
  have hbig : big (p j) (fun i => |b.center (i + 1)| + b.width (i + 1)) ≤ big (p j) R := big_mono _ (fun i => add_nonneg (abs_nonneg _) (hw i)) hR
  have hvol : 0 ≤ vol n b := prod_nonneg fun i _ => hw i
  rw [e]
  exact ⟨fun hp => ((r2 j).1 hp).trans (mul_le_mul_of_nonneg_left hbig (mul_nonneg (by norm_num) hvol)), fun hp => ((r2 j).2 hp).trans (mul_le_mul_of_nonneg_left hbig (mul_nonneg (by norm_num) hvol))⟩

/-! ## Helper lemmas: the regions -/

theorem boxInt_one {n : ℕ} (c h : Fin n → ℝ) : boxInt 1 c h = 2 ^ n * ∏ i, h i := by
  unfold boxInt
  rw [show (1 : MvPolynomial (Fin n) ℝ) = MvPolynomial.C 1 from rfl, MvPolynomial.support_C, if_neg one_ne_zero, sum_singleton]
  simp only [MvPolynomial.coeff_zero_C, Finsupp.coe_zero, Pi.zero_apply, pow_zero, one_mul]
  rw [prod_congr rfl fun i _ => (show ∫ x in (c i - h i)..(c i + h i), (1 : ℝ) = 2 * h i by rw [intervalIntegral.integral_const]; simp; ring), prod_mul_distrib]
  simp

theorem vol_halves {n : ℕ} (b : Box ℝ) {i : ℕ} (h1 : 1 ≤ i) (h2 : i ≤ n) : vol n b = vol n (halves b i).1 + vol n (halves b i).2 := by
  have := Verif.SymRl.boxInt_halves (1 : MvPolynomial (Fin n) ℝ) b h1 h2
  rw [boxInt_one, boxInt_one, boxInt_one, ← mul_add] at this
  exact mul_left_cancel₀ (by positivity) this

theorem vol_same (n : ℕ) (b : Box ℝ) (i : ℕ) : vol n (halves b i).1 = vol n (halves b i).2 := rfl

theorem within_halves {n : ℕ} {R : Fin n → ℝ} {b : Box ℝ} (hb : Within n R b) (hw : ∀ i, 1 ≤ i → i ≤ n → 0 ≤ b.width i) (d : ℕ) : Within n R (halves b d).1 ∧ Within n R (halves b d).2 := by
  constructor <;> intro i <;> have h1 := hb i <;> have h2 := hw (i + 1) (by omega) (by omega) <;> simp only [halves, put] <;> split_ifs with hd
  · have := abs_sub (b.center (i + 1)) (b.width (i + 1) / 2)
    rw [← hd]
    rw [abs_of_nonneg (show 0 ≤ b.width (i + 1) / 2 by linarith)] at this
    linarith
  · exact h1
  · have := abs_add_le (b.center (i + 1)) (b.width (i + 1) / 2)
    rw [← hd]
    rw [abs_of_nonneg (show 0 ≤ b.width (i + 1) / 2 by linarith)] at this
    linarith
  · exact h1

/-- A statement about regions that goes from a region to its halves. -/
def Kept (g : Args ℝ) (P : Rg ℝ → Prop) : Prop := ∀ top L R : Rg ℝ, From g top → P top → New g top L R → P L ∧ P R

theorem split_kept {g : Args ℝ} {P : Rg ℝ → Prop} (hP : Kept g P) {s : St ℝ} (hs : Heap g s.heap s.n) (h0 : ∀ k, 1 ≤ k → k ≤ s.n → P (s.heap k)) : ∀ k, 1 ≤ k → k ≤ (split g s).n → P ((split g s).heap k) := by
  obtain ⟨L, R, h', N, hh, e⟩ := Verif.Dcuhre.split_eq g s hs.n1
  obtain ⟨p1, p2⟩ := hP _ L R (hs.recs 1 le_rfl hs.n1) (h0 1 le_rfl hs.n1) N
  rw [e]
  exact Verif.Dcuhre.split_all hs.n1 hh (fun k k1 k2 => h0 k (by omega) k2) p1 p2

theorem loop_kept {g : Args ℝ} (hg : Good g.ndim g.rule) (h5 : 0 ≤ g.c5) (h6 : 0 ≤ g.c6) {P : Rg ℝ → Prop} (hP : Kept g P) : ∀ (fuel : ℕ) (s : St ℝ) (r : ℕ × St ℝ), Heap g s.heap s.n →
    (∀ k, 1 ≤ k → k ≤ s.n → P (s.heap k)) → loop g fuel s = some r → ∀ k, 1 ≤ k → k ≤ r.2.n → P (r.2.heap k) := by
  intro fuel
  induction fuel with
  | zero => intro s r _ _ h; simp [loop] at h
  | succ fuel ih =>
    intro s r hs h0 h
    rw [loop] at h
    split_ifs at h with c1
    · have hH := (Verif.Dcuhre.split_spec hg h5 h6 hs).1
      have hz := split_kept hP hs h0
      dsimp only at h
      split_ifs at h with c2 c3
      · exact ih _ _ hH hz h
      · simp only [Option.some.injEq] at h
        subst h
        exact hz
      · exact ih _ _ hH hz h
    · simp only [Option.some.injEq] at h
      subst h
      exact h0

/-- If what is kept implies the accuracy, the loop ends as soon as there are enough regions. -/
theorem loop_accurate {g : Args ℝ} (hg : Good g.ndim g.rule) (h5 : 0 ≤ g.c5) (h6 : 0 ≤ g.c6) {P : Rg ℝ → Prop} (hP : Kept g P) (hm : g.minsub ≤ g.maxsub)
    (ha : ∀ s : St ℝ, Heap g s.heap s.n → Totals s → (∀ k, 1 ≤ k → k ≤ s.n → P (s.heap k)) → accurate g s g.numfun 1 = true) : ∀ (fuel : ℕ) (s : St ℝ) (r : ℕ × St ℝ),
    Heap g s.heap s.n → Totals s → (∀ k, 1 ≤ k → k ≤ s.n → P (s.heap k)) → (s.n : ℤ) < g.minsub → loop g fuel s = some r → r.1 = 0 := by
  intro fuel
  induction fuel with
  | zero => intro s r _ _ _ _ h; simp [loop] at h
  | succ fuel ih =>
    intro s r hs hT h0 hlt h
    rw [loop, if_pos (by omega)] at h
    obtain ⟨hH, hT', -⟩ := Verif.Dcuhre.split_spec hg h5 h6 hs
    have hz := split_kept hP hs h0
    dsimp only at h
    rw [ha _ hH (hT' hT) hz] at h
    split_ifs at h with c2
    · exact ih _ _ hH (hT' hT) hz c2 h
    · simp only [Option.some.injEq] at h
      rw [← h]
    · exact absurd rfl ‹_›

theorem kept_core {c c' : Call ℝ} (hs : Same c c') {p : Verif.Dcuhre.Plan} (hp : Passed c' p) {rule : ℤ → Box ℝ → Out ℝ} {c5 c6 : ℝ} {P : Rg ℝ → Prop} (h : Kept (core c rule c5 c6) P) : Kept (args c' p rule c5 c6) P := by
  have hk : p.keyf = keyf c.key c.ndim := by rw [hp.keyf, hs.key, hs.ndim]
  have hr : (args c' p rule c5 c6).rule = (core c rule c5 c6).rule := by simp only [args, core, hk]
  have hn : (args c' p rule c5 c6).numfun = (core c rule c5 c6).numfun := by simp only [args, core, hs.numfun]
  have hd : (args c' p rule c5 c6).ndim = (core c rule c5 c6).ndim := hs.ndim
  intro top L R ⟨a1, a2, a3, a4⟩ ht ⟨b1, b2, b3, b4, b5, b6, b7, b8, b9, b10⟩
  rw [hr] at a1 a2 a3 b3 b4 b5 b6 b7 b8
  rw [hd] at a4
  rw [hn] at b9 b10
  exact h top L R ⟨a1, a2, a3, a4⟩ ht ⟨b1, b2, b3, b4, b5, b6, b7, b8, b9, b10⟩

theorem left_kept {c : Call ℝ} {rule : ℤ → Box ℝ → Out ℝ} {c5 c6 : ℝ} {o : Ans ℝ} (hg : Good c.ndim (rule (keyf c.key c.ndim))) (h5 : 0 ≤ c5) (h6 : 0 ≤ c6) {P : Rg ℝ → Prop} (hP : Kept (core c rule c5 c6) P)
    (h0 : ∀ x : Rg ℝ, x.box = ⟨fun j => (c.a j + c.b j) / 2, fun j => |c.b j - c.a j| / 2⟩ → x.err = (rule (keyf c.key c.ndim) x.box).err → P x) (h : Left c rule c5 c6 o) : ∀ k, 1 ≤ k → k ≤ o.nsub → P (o.heap k) := by
  induction h with
  | fresh hs hd =>
    rename_i c' fuel mem o
    obtain ⟨p, r, hc, hl, rfl⟩ := Verif.Dcuhre.dcuhre_some hd
    have hp := Verif.Dcuhre.dchhre_passed hc
    refine loop_kept (Verif.Dcuhre.good_args hs hp hg) h5 h6 (kept_core hs hp hP) fuel _ _ (Verif.Dcuhre.heap_start _ mem) ?_ hl
    rw [Verif.Dcuhre.start_eq]
    intro k k1 k2
    obtain rfl : k = 1 := le_antisymm k2 k1
    dsimp only
    rw [Verif.Adapt.put_self]
    have hk : p.keyf = keyf c.key c.ndim := by rw [hp.keyf, hs.key, hs.ndim]
    refine h0 _ ?_ ?_
    · simp only [Verif.Dcuhre.whole, args, hs.a, hs.b]
    · simp only [args, hk]
  | again ho hs hd ih =>
    rename_i c' fuel o res abserr neval o'
    obtain ⟨p, r, hc, hl, rfl⟩ := Verif.Dcuhre.restart_some hd
    have hp := Verif.Dcuhre.dchhre_passed hc
    exact loop_kept (Verif.Dcuhre.good_args hs hp hg) h5 h6 (kept_core hs hp hP) fuel _ _ ((Verif.Dcuhre.heap_core hs hp).2 (Verif.Dcuhre.left_heap hg h5 h6 ho).1) ih hl

/-- The sizes of the coordinates in the box of a call. -/
noncomputable def reach (c : Call ℝ) (i : Fin c.ndim) : ℝ := max |c.a (i + 1)| |c.b (i + 1)|

theorem within_whole (c : Call ℝ) : Within c.ndim (reach c) ⟨fun j => (c.a j + c.b j) / 2, fun j => |c.b j - c.a j| / 2⟩ := by
  intro i
  unfold reach
  dsimp only
  generalize c.a (i + 1) = a
  generalize c.b (i + 1) = b
  have h1 := le_max_left |a| |b|
  have h2 := le_max_right |a| |b|
  have h3 := neg_abs_le a
  have h4 := le_abs_self a
  have h5 := neg_abs_le b
  have h6 := le_abs_self b
  rw [abs_div, abs_two]
  rcases abs_cases (a + b) with ⟨q, -⟩ | ⟨q, -⟩ <;> rcases abs_cases (b - a) with ⟨q', -⟩ | ⟨q', -⟩ <;> rw [q, q'] <;> linarith

/-- The adjustment of an error. -/
theorem adjust_le {g : Args ℝ} (h5 : 0 ≤ g.c5) {old v₁ v₂ e₁ e₂ e : ℝ} (h1 : 0 ≤ e₁) (h2 : 0 ≤ e₂) (he : e = e₁ ∨ e = e₂) : Verif.Dcuhre.adjust g old v₁ v₂ e₁ e₂ e ≤ e + (g.c5 + g.c6) * |old - (v₁ + v₂)| := by
  unfold Verif.Dcuhre.adjust
  dsimp only
  have ha := abs_nonneg (old - (v₁ + v₂))
  split_ifs with hp
  · have : e * (1 + g.c5 * |old - (v₁ + v₂)| / (e₁ + e₂)) = e + e / (e₁ + e₂) * (g.c5 * |old - (v₁ + v₂)|) := by ring
    rw [this]
    have h3 : e / (e₁ + e₂) ≤ 1 := by
      rw [div_le_one hp]
      rcases he with rfl | rfl <;> linarith
    have := mul_le_mul_of_nonneg_right h3 (mul_nonneg h5 ha)
    linarith
  · have := mul_nonneg h5 ha
    linarith

/-- The bounds for the errors of regions are kept. -/
theorem kept_near {c : Call ℝ} {rule : ℤ → Box ℝ → Out ℝ} {c5 c6 : ℝ} (hg : Good c.ndim (rule (keyf c.key c.ndim))) (h5 : 0 ≤ c5) (h56 : c5 + c6 ≤ 3 / 4) {p : MvPolynomial (Fin c.ndim) ℝ} {R : Fin c.ndim → ℝ} {j : ℕ}
    {ε : ℝ}
    (hr : ∀ b : Box ℝ, (∀ i, 1 ≤ i → i ≤ c.ndim → 0 ≤ b.width i) → Within c.ndim R b → |(rule (keyf c.key c.ndim) b).val j - boxInt p (fun i => b.center (i + 1)) (fun i => b.width (i + 1))| ≤ ε * vol c.ndim b * big p R ∧
      (rule (keyf c.key c.ndim) b).err j ≤ 235 * ε * vol c.ndim b * big p R) :
    Kept (core c rule c5 c6) fun x => Within c.ndim R x.box ∧ x.err j ≤ 238 * ε * vol c.ndim x.box * big p R := by
  intro top L R' F ⟨t1, t2⟩ N
  obtain ⟨w1, w2⟩ := within_halves t1 F.width top.dir
  obtain ⟨x1, x2⟩ := Verif.Adapt.halves_width (n := c.ndim) (i := top.dir) F.width
  have gt := (hg _ F.width).2
  have hdir : top.dir = (rule (keyf c.key c.ndim) top.box).dir := F.dir
  rw [← hdir] at gt
  have hv := vol_halves top.box gt.1 gt.2
  have hv' := vol_same c.ndim top.box top.dir
  have hb := Verif.SymRl.boxInt_halves p top.box gt.1 gt.2
  rw [← N.boxL] at w1 x1 hv hv' hb
  rw [← N.boxR] at w2 x2 hv hv' hb
  obtain ⟨q1, -⟩ := hr _ F.width t1
  obtain ⟨q2, q3⟩ := hr _ x1 w1
  obtain ⟨q4, q5⟩ := hr _ x2 w2
  have gl := (hg _ x1).1 j
  have gr := (hg _ x2).1 j
  have vT : top.val j = (rule (keyf c.key c.ndim) top.box).val j := by rw [F.val]; rfl
  have vL : L.val j = (rule (keyf c.key c.ndim) L.box).val j := by rw [N.valL]; rfl
  have vR : R'.val j = (rule (keyf c.key c.ndim) R'.box).val j := by rw [N.valR]; rfl
  have hest : |top.val j - (R'.val j + L.val j)| ≤ 4 * ε * vol c.ndim L.box * big p R := by
    rw [vT, vL, vR]
    rw [abs_le] at *
    rw [hv, ← hv'] at q1
    rw [← hv'] at q4
    rw [hb] at q1
    constructor <;> linarith [q1.1, q1.2, q2.1, q2.2, q4.1, q4.2]
  have key : (c5 + c6) * |top.val j - (R'.val j + L.val j)| ≤ 3 * ε * vol c.ndim L.box * big p R := by
    calc _ ≤ 3 / 4 * (4 * ε * vol c.ndim L.box * big p R) := mul_le_mul h56 hest (abs_nonneg _) (by norm_num)
      _ = _ := by ring
  refine ⟨⟨w1, ?_⟩, ⟨w2, ?_⟩⟩
  · rw [N.errL]
    refine (adjust_le (g := core c rule c5 c6) h5 gr gl (Or.inr rfl)).trans ?_
    have k' : ((core c rule c5 c6).c5 + (core c rule c5 c6).c6) * |top.val j - (R'.val j + L.val j)| ≤ 3 * ε * vol c.ndim L.box * big p R := key
    have q3' : ((core c rule c5 c6).rule L.box).err j ≤ 235 * ε * vol c.ndim L.box * big p R := q3
    linarith
  · rw [N.errR]
    refine (adjust_le (g := core c rule c5 c6) h5 gr gl (Or.inl rfl)).trans ?_
    have k' : ((core c rule c5 c6).c5 + (core c rule c5 c6).c6) * |top.val j - (R'.val j + L.val j)| ≤ 3 * ε * vol c.ndim R'.box * big p R := by rw [← hv']; exact key
    have q5' : ((core c rule c5 c6).rule R'.box).err j ≤ 235 * ε * vol c.ndim R'.box * big p R := q5
    linarith

theorem reach_nonneg (c : Call ℝ) (i : Fin c.ndim) : 0 ≤ reach c i := (abs_nonneg _).trans (le_max_left _ _)

theorem sureT_le (key : ℤ) : sureT key ≤ degreeT key := by
  unfold sureT degreeT; split_ifs <;> omega

/-! ## C105 -/

/-- C105.  In two (three) dimensions the basic rule for `KEY = 1` (`KEY = 2`) differs from the integral over a box of a polynomial of degree up to thirteen (eleven) by at most `3 * 10⁻¹⁵` times the product of the half widths and a bound
for the size of the polynomial in the box; for degrees up to seven (five) the error estimate is at most `10⁻¹²` times these numbers. -/
theorem C105_rule {key : ℤ} {n : ℕ} (hk : key = 1 ∧ n = 2 ∨ key = 2 ∧ n = 3) {l0 : ℝ} (hl : Lit l0) : ∃ N, ∀ fuel ≥ N, ∀ (numfun : ℕ) (p : ℕ → MvPolynomial (Fin n) ℝ) (lx : ℕ → ℕ) (a b : Fin n → ℝ), a ≤ b →
    ∃ r, drlhre fuel (tab key n l0) numfun (polys p) lx (List.ofFn fun i => (a i + b i) / 2) (List.ofFn fun i => (b i - a i) / 2) = some r ∧
      ∀ j, ((p j).totalDegree ≤ degreeT key → |r.out.val j - ∫ x in Set.Icc a b, MvPolynomial.eval x (p j)| ≤ 3 / 10 ^ 15 * (∏ i, (b i - a i) / 2) * big (p j) fun i => max |a i| |b i|) ∧
        ((p j).totalDegree ≤ sureT key → r.out.err j ≤ 1 / 10 ^ 12 * (∏ i, (b i - a i) / 2) * big (p j) fun i => max |a i| |b i|) := by
  obtain ⟨N, hN⟩ := drlhre_near hk hl
  refine ⟨N, fun fuel hf numfun p lx a b hab => ?_⟩
  have hw : ∀ i, 0 ≤ (b i - a i) / 2 := fun i => by have := hab i; simp only at this; linarith
  obtain ⟨r, r1, r2⟩ := hN fuel hf numfun p lx (fun i => (a i + b i) / 2) (fun i => (b i - a i) / 2) hw
  have hv : 0 ≤ ∏ i, (b i - a i) / 2 := prod_nonneg fun i _ => hw i
  have hbig : ∀ j, big (p j) (fun i => |(a i + b i) / 2| + (b i - a i) / 2) ≤ big (p j) fun i => max |a i| |b i| := by
    refine fun j => big_mono _ (fun i => add_nonneg (abs_nonneg _) (hw i)) fun i => ?_
    have h1 := le_max_left |a i| |b i|
    have h2 := le_max_right |a i| |b i|
    have h3 := neg_abs_le (a i)
    have h4 := le_abs_self (b i)
    rw [abs_div, abs_two]
    rcases abs_cases (a i + b i) with ⟨q, -⟩ | ⟨q, -⟩ <;> rw [q] <;> linarith
  have hnn : ∀ j, 0 ≤ big (p j) fun i => max |a i| |b i| := fun j => big_nonneg _ fun i => (abs_nonneg _).trans (le_max_left _ _)
  refine ⟨r, r1, fun j => ⟨fun hp => ?_, fun hp => ?_⟩⟩
  · have hi : boxInt (p j) (fun i => (a i + b i) / 2) (fun i => (b i - a i) / 2) = ∫ x in Set.Icc a b, MvPolynomial.eval x (p j) := by
      rw [← Verif.SymRl.boxInt_eq (p j) hab]
      congr 1 <;> funext i <;> ring
    rw [← hi]
    exact ((r2 j).1 hp).trans (mul_le_mul_of_nonneg_left (hbig j) (mul_nonneg (by norm_num) hv))
  · refine ((r2 j).2 hp).trans ((mul_le_mul_of_nonneg_left (hbig j) (mul_nonneg (by norm_num) hv)).trans (mul_le_mul_of_nonneg_right (mul_le_mul_of_nonneg_right (by norm_num) hv) (hnn j)))

/-- C105.  After a run of `DCUHRE` and any number of restarts, `RESULT` differs from the integral, with the sign for reversed limits, by no more than that for the whole box, however the box has been divided; and for the lower degrees
`ABSERR` is at most `10⁻¹²` times these numbers. -/
theorem C105_result (c : Call ℝ) (hk : keyf c.key c.ndim = 1 ∧ c.ndim = 2 ∨ keyf c.key c.ndim = 2 ∧ c.ndim = 3) {l0 : ℝ} (hl : Lit l0) {c5 c6 : ℝ} (h5 : 0 ≤ c5) (h6 : 0 ≤ c6) (h56 : c5 + c6 ≤ 3 / 4) : ∃ N, ∀ fuel ≥ N,
    ∀ (p : ℕ → MvPolynomial (Fin c.ndim) ℝ) (lx : Box ℝ → ℕ → ℕ) (o : Ans ℝ), Left c (basic fuel l0 c.ndim c.numfun.toNat (polys p) lx) c5 c6 o → ∀ j,
      ((p j).totalDegree ≤ degreeT (keyf c.key c.ndim) →
        |o.res j - (sign c.ndim c.a c.b : ℤ) * ∫ x in Set.Icc ((fun i : Fin c.ndim => c.a (i + 1)) ⊓ fun i => c.b (i + 1)) ((fun i : Fin c.ndim => c.a (i + 1)) ⊔ fun i => c.b (i + 1)), MvPolynomial.eval x (p j)| ≤
          3 / 10 ^ 15 * (∏ i : Fin c.ndim, |c.b (i + 1) - c.a (i + 1)| / 2) * big (p j) fun i : Fin c.ndim => max |c.a (i + 1)| |c.b (i + 1)|) ∧
      ((p j).totalDegree ≤ sureT (keyf c.key c.ndim) → o.abserr j ≤ 1 / 10 ^ 12 * (∏ i : Fin c.ndim, |c.b (i + 1) - c.a (i + 1)| / 2) * big (p j) fun i : Fin c.ndim => max |c.a (i + 1)| |c.b (i + 1)|) := by
  obtain ⟨N, hN⟩ := basic_near hk hl
  refine ⟨N, fun fuel hf p lx o ho j => ?_⟩
  obtain ⟨g1, g2⟩ := hN fuel hf c.numfun.toNat p lx
  obtain ⟨l1, -, -, l4⟩ := Verif.Dcuhre.left_heap g1 h5 h6 ho
  have hvsum : ∑ k ∈ Icc 1 o.nsub, vol c.ndim (o.heap k).box = ∏ i : Fin c.ndim, |c.b (i + 1) - c.a (i + 1)| / 2 := by
    rw [Verif.Dcuhre.C102_additive g1 h5 h6 ho (fun b => vol c.ndim b) fun b i i1 i2 _ => vol_halves b i1 i2]
    rfl
  have hwid : ∀ k, 1 ≤ k → k ≤ o.nsub → ∀ i, 1 ≤ i → i ≤ c.ndim → 0 ≤ (o.heap k).box.width i := fun k k1 k2 => (l1.recs k k1 k2).width
  have hM := big_nonneg (p j) (reach_nonneg c)
  constructor
  · intro hp
    have hin : ∀ k, 1 ≤ k → k ≤ o.nsub → Within c.ndim (reach c) (o.heap k).box := by
      refine left_kept g1 h5 h6 (P := fun x => Within c.ndim (reach c) x.box) ?_ (fun x hx _ => by rw [hx]; exact within_whole c) ho
      intro top L R F t1 N
      dsimp only
      rw [N.boxL, N.boxR]
      exact within_halves t1 F.width top.dir
    rw [(Verif.Dcuhre.C102_sums g1 h5 h6 ho j).1, ← boxInt_min]
    have hadd := Verif.Dcuhre.C102_additive g1 h5 h6 ho (fun b => boxInt (p j) (fun i => b.center (i + 1)) (fun i => b.width (i + 1))) fun b i i1 i2 _ => Verif.SymRl.boxInt_halves (p j) b i1 i2
    dsimp only at hadd
    rw [← hadd, ← mul_sub, ← sum_sub_distrib, abs_mul]
    have hs : |((sign c.ndim c.a c.b : ℤ) : ℝ)| = 1 := by
      rcases Verif.Dcuhre.sign_cases c.ndim c.a c.b with q | q <;> rw [q] <;> simp
    rw [hs, one_mul]
    refine (abs_sum_le_sum_abs _ _).trans ?_
    rw [← hvsum, mul_sum, sum_mul]
    refine sum_le_sum fun k hk' => ?_
    rw [mem_Icc] at hk'
    exact (g2 _ j (reach c) (hwid k hk'.1 hk'.2) (hin k hk'.1 hk'.2)).1 hp
  · intro hp
    have hkept := left_kept g1 h5 h6 (kept_near g1 h5 h56 (j := j) (ε := 3 / 10 ^ 15) fun b hb hR => ⟨(g2 b j (reach c) hb hR).1 (hp.trans (sureT_le _)), (g2 b j (reach c) hb hR).2 hp⟩)
      (fun x hx he => by
        have hw : ∀ i, 1 ≤ i → i ≤ c.ndim → 0 ≤ x.box.width i := fun i _ _ => by rw [hx]; exact div_nonneg (abs_nonneg _) (by norm_num)
        have hR : Within c.ndim (reach c) x.box := by rw [hx]; exact within_whole c
        refine ⟨hR, ?_⟩
        rw [he]
        refine ((g2 x.box j (reach c) hw hR).2 hp).trans ?_
        have hv : 0 ≤ vol c.ndim x.box := prod_nonneg fun i _ => hw _ (by omega) (by omega)
        exact mul_le_mul_of_nonneg_right (mul_le_mul_of_nonneg_right (by norm_num) hv) hM) ho
    rw [l4 j, ← hvsum, mul_sum, sum_mul]
    refine sum_le_sum fun k hk' => ?_
    rw [mem_Icc] at hk'
    refine (hkept k hk'.1 hk'.2).2.trans ?_
    have hv : 0 ≤ vol c.ndim (o.heap k).box := prod_nonneg fun i _ => hwid k hk'.1 hk'.2 _ (by omega) (by omega)
    exact mul_le_mul_of_nonneg_right (mul_le_mul_of_nonneg_right (by norm_num) hv) hM

/-- C105.  If the components have the lower degrees, and `EPSABS` is at least `10⁻¹²` times these numbers for each, then `IFAIL` is 0 after a run exactly if some number of divisions meets both `MINPTS` and `MAXPTS`. -/
theorem C105_ifail (c : Call ℝ) (hk : keyf c.key c.ndim = 1 ∧ c.ndim = 2 ∨ keyf c.key c.ndim = 2 ∧ c.ndim = 3) {l0 : ℝ} (hl : Lit l0) {c5 c6 : ℝ} (h5 : 0 ≤ c5) (h6 : 0 ≤ c6) (h56 : c5 + c6 ≤ 3 / 4) : ∃ N, ∀ fuel ≥ N,
    ∀ (p : ℕ → MvPolynomial (Fin c.ndim) ℝ) (lx : Box ℝ → ℕ → ℕ), (∀ j : ℕ, 1 ≤ j → (j : ℤ) ≤ c.numfun → (p j).totalDegree ≤ sureT (keyf c.key c.ndim) ∧
      1 / 10 ^ 12 * (∏ i : Fin c.ndim, |c.b (i + 1) - c.a (i + 1)| / 2) * big (p j) (fun i : Fin c.ndim => max |c.a (i + 1)| |c.b (i + 1)|) ≤ c.epsabs) →
    ∀ fuel' mem o, dcuhre fuel' c (basic fuel l0 c.ndim c.numfun.toNat (polys p) lx) c5 c6 mem = some (.inr o) →
      (o.ifail = 0 ↔ ∃ m : ℤ, c.minpts ≤ (ruleLen (keyf c.key c.ndim) c.ndim).1 * (2 * m - 1) ∧ (ruleLen (keyf c.key c.ndim) c.ndim).1 * (2 * m - 1) ≤ c.maxpts) := by
  obtain ⟨N, hN⟩ := basic_near hk hl
  refine ⟨N, fun fuel hf p lx hp fuel' mem o ho => ?_⟩
  obtain ⟨g1, g2⟩ := hN fuel hf c.numfun.toNat p lx
  obtain ⟨-, t2, -, t4⟩ := Verif.Dcuhre.C102_tolerance_partial g1 h5 h6 ho
  obtain ⟨q, r, hc, hlp, rfl⟩ := Verif.Dcuhre.dcuhre_some ho
  have hq := Verif.Dcuhre.dchhre_passed hc
  have hnum : (ruleLen (keyf c.key c.ndim) c.ndim).1 = q.num := by rw [← hq.keyf, ← hq.eq]
  rw [hnum]
  have hs := Verif.Dcuhre.same_self c
  have hga := Verif.Dcuhre.good_args (c5 := c5) (c6 := c6) hs hq g1
  refine ⟨fun h0 => ⟨r.2.n, ?_⟩, ?_⟩
  · obtain ⟨-, -, q3, q4, -⟩ := Verif.Dcuhre.loop_spec hga h5 h6 _ _ _ (Verif.Dcuhre.heap_start _ mem) hlp
    rw [Verif.Dcuhre.start_eq] at q3 q4
    have hne : (r.2.neval : ℤ) = q.num * (2 * r.2.n - 1) := by
      have hnn : ((q.num.toNat : ℕ) : ℤ) = q.num := Int.toNat_of_nonneg hq.num.le
      rw [q4, ← hnn]
      have h1 : 1 ≤ r.2.n := q3
      show ((q.num.toNat + 2 * q.num.toNat * (r.2.n - 1) : ℕ) : ℤ) = _
      push_cast [h1]
      ring
    rw [← hne]
    exact ⟨(t2 h0).2, t4⟩
  rintro ⟨m, m1, m2⟩
  obtain ⟨e0, e1, -⟩ := minsub_le hc m1
  have hpos := hq.num
  have hms : q.minsub ≤ q.maxsub := by
    refine e1.trans (max_le hq.max2 ?_)
    rw [hq.maxsub, Int.tdiv_eq_ediv_of_nonneg (by have := hq.three; omega)]
    have : m - 1 ≤ (c.maxpts - q.num) / (2 * q.num) := by
      rw [Int.le_ediv_iff_mul_le (by omega)]
      linarith
    omega
  let P : Rg ℝ → Prop := fun x => ∀ j : ℕ, 1 ≤ j → (j : ℤ) ≤ c.numfun → Within c.ndim (reach c) x.box ∧ x.err j ≤ 238 * (3 / 10 ^ 15) * vol c.ndim x.box * big (p j) (reach c)
  have hP : Kept (core c (basic fuel l0 c.ndim c.numfun.toNat (polys p) lx) c5 c6) P := by
    intro top L R F ht New
    have key := fun j j1 j2 => kept_near g1 h5 h56 (j := j) (p := p j) (R := reach c) (ε := 3 / 10 ^ 15)
      (fun b hb hR => ⟨(g2 b j (reach c) hb hR).1 ((hp j j1 j2).1.trans (sureT_le _)), (g2 b j (reach c) hb hR).2 (hp j j1 j2).1⟩) top L R F (ht j j1 j2) New
    exact ⟨fun j j1 j2 => (key j j1 j2).1, fun j j1 j2 => (key j j1 j2).2⟩
  have hst := Verif.Dcuhre.start_eq (args c q (basic fuel l0 c.ndim c.numfun.toNat (polys p) lx) c5 c6) mem
  refine loop_accurate hga h5 h6 (kept_core hs hq hP) hms ?_ fuel' _ _ (Verif.Dcuhre.heap_start _ mem) (Verif.Dcuhre.totals_start _ mem) ?_ ?_ hlp
  · intro s hH hT hall
    rw [Verif.Dcuhre.accurate_eq]
    intro j j1 j2
    have j2' : (j : ℤ) ≤ c.numfun := by have : j < 1 + c.numfun.toNat := j2; omega
    right
    refine le_trans ?_ (hp j j1 j2').2
    rw [hT.err j]
    have hvsum : ∑ k ∈ Icc 1 s.n, vol c.ndim (s.heap k).box = ∏ i : Fin c.ndim, |c.b (i + 1) - c.a (i + 1)| / 2 := by
      have := hH.tileK (fun b => vol c.ndim b) fun b i i1 i2 _ => vol_halves b i1 i2
      rw [this]
      rfl
    rw [← hvsum, mul_sum, sum_mul]
    refine sum_le_sum fun k hk' => ?_
    rw [mem_Icc] at hk'
    refine (hall k hk'.1 hk'.2 j j1 j2').2.trans ?_
    have hw : ∀ i, 1 ≤ i → i ≤ c.ndim → 0 ≤ (s.heap k).box.width i := (hH.recs k hk'.1 hk'.2).width
    have hv : 0 ≤ vol c.ndim (s.heap k).box := prod_nonneg fun i _ => hw _ (by omega) (by omega)
    exact mul_le_mul_of_nonneg_right (mul_le_mul_of_nonneg_right (by norm_num) hv) (big_nonneg (p j) (reach_nonneg c))
  · rw [hst]
    intro k k1 k2 j j1 j2
    obtain rfl : k = 1 := le_antisymm k2 k1
    dsimp only
    rw [Verif.Adapt.put_self]
    have hR := within_whole c
    refine ⟨hR, ?_⟩
    have hw : ∀ i, 1 ≤ i → i ≤ c.ndim → 0 ≤ (fun j => |c.b j - c.a j| / 2) i := fun i _ _ => div_nonneg (abs_nonneg _) (by norm_num)
    have := (g2 ⟨fun j => (c.a j + c.b j) / 2, fun j => |c.b j - c.a j| / 2⟩ j (reach c) hw hR).2 (hp j j1 j2).1
    have hv : 0 ≤ vol c.ndim ⟨fun j => (c.a j + c.b j) / 2, fun j => |c.b j - c.a j| / 2⟩ := prod_nonneg fun i _ => hw _ (by omega) (by omega)
    simp only [args, hq.keyf, Verif.Dcuhre.whole]
    refine this.trans ?_
    exact mul_le_mul_of_nonneg_right (mul_le_mul_of_nonneg_right (by norm_num) hv) (big_nonneg (p j) (reach_nonneg c))
  · rw [hst]
    show ((1 : ℕ) : ℤ) < q.minsub
    omega

/-! ## The hypotheses are met -/

/-- A call with `KEY` 1, in two dimensions, with one pair of limits reversed, whose checks pass. -/
noncomputable def callT : Call ℝ := ⟨2, 1, fun j => if j = 2 then 3 else 0, fun j => if j = 2 then 1 else 2, 100, 1000, 1 / 10 ^ 6, 0, 1, 5000, 0⟩

theorem callT_plan : ∃ p, dchhre callT = .inr p := by
  rw [Verif.Dcuhre.C102_checks]
  have hr : (ruleLen (keyf callT.key callT.ndim) callT.ndim).1 = 65 := by
    show (ruleLen (keyf 1 2) 2).1 = 65
    decide +kernel
  rw [hr]
  refine ⟨by simp [callT], by simp [callT], by simp [callT], by simp [callT], by simp [callT], fun j _ _ => ?_, by simp [callT], by simp [callT], by simp [callT], by simp [callT], by simp [callT]⟩
  simp only [callT]
  split_ifs <;> norm_num

/-- Runs exist for this call, with the integrand `x y³` (`C105_result`). -/
example : ∃ N, ∀ fuel ≥ N, ∃ o, Left callT (basic fuel lam0 2 1 (polys fun _ => MvPolynomial.X 0 * MvPolynomial.X (1 : Fin 2) ^ 3) fun _ _ => 0) (1 / 2) (1 / 4) o ∧ keyf callT.key callT.ndim = 1 ∧ callT.ndim = 2 := by
  have hk : keyf callT.key callT.ndim = 1 := rfl
  obtain ⟨N, hN⟩ := basic_near (key := 1) (Or.inl ⟨rfl, rfl⟩) (n := 2) (Or.inl rfl : Lit lam0)
  refine ⟨N, fun fuel hf => ?_⟩
  obtain ⟨g1, -⟩ := hN fuel hf 1 (fun _ => MvPolynomial.X 0 * MvPolynomial.X (1 : Fin 2) ^ 3) (fun _ _ => 0)
  obtain ⟨o, ho⟩ := Verif.Dcuhre.C102_ends callT (basic fuel lam0 2 1 (polys _) fun _ _ => 0) (c5 := 1 / 2) (c6 := 1 / 4) (fun _ => ⟨0, 0, fun _ => 0, fun _ => 0, ⟨fun _ => 0, fun _ => 0⟩⟩) (by rw [hk]; exact g1) (by norm_num) (by norm_num)
    (fuel := 1000) (by simp [callT]) (by norm_num)
  obtain ⟨p, hp⟩ := callT_plan
  rcases o with i | o
  · exfalso
    unfold dcuhre at ho
    rw [hp] at ho
    simp at ho
  · exact ⟨o, .fresh (Verif.Dcuhre.same_self _) ho, hk, rfl⟩

/-- The accuracy asked for in `C105_ifail`: for the integrand `x` in this call, the bound is 2e-12. -/
example : (MvPolynomial.X 0 : MvPolynomial (Fin 2) ℝ).totalDegree ≤ sureT 1 ∧
    1 / 10 ^ 12 * (∏ i : Fin 2, |callT.b (i + 1) - callT.a (i + 1)| / 2) * big (MvPolynomial.X 0) (fun i : Fin 2 => max |callT.a (i + 1)| |callT.b (i + 1)|) ≤ callT.epsabs := by
  refine ⟨by simp [MvPolynomial.totalDegree_X, sureT], ?_⟩
  have : big (MvPolynomial.X 0) (fun i : Fin 2 => max |callT.a (i + 1)| |callT.b (i + 1)|) = 2 := by
    unfold big
    rw [MvPolynomial.support_X]
    simp [Fin.prod_univ_two, callT]
  rw [this]
  simp only [Fin.prod_univ_two, callT]
  norm_num

end Verif.Drl
