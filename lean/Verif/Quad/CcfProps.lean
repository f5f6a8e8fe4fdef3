import Verif.Quad.CcLemmas
import Verif.Quad.FejerLemmas

/-!
# C139 - C141: Clenshaw-Curtis and Fejer rules
-/

set_option linter.unusedSectionVars false

namespace Verif.Quad

open Real Finset

/-! ## Specification -/

/-- The interval that a pair of limits asks for: [-1, 1] if both are left out, none if one is. -/
def limitsOf : Option ℝ → Option ℝ → Option (ℝ × ℝ)
  | none, none => some (-1, 1)
  | some l, some u => some (l, u)
  | _, _ => none

/-- The interval after a history of requests: that of the last request that gave none or both of the limits. -/
def lastLimits (start : ℝ × ℝ) (cs : List (Option ℝ × Option ℝ)) : ℝ × ℝ :=
  cs.foldl (fun i c => (limitsOf c.1 c.2).getD i) start

/-! ## Lemmas -/

theorem sumProd_map (N : ℕ) (a b : ℕ → ℝ) :
    sumProd ((List.range N).map a) ((List.range N).map b) = .ok (∑ k ∈ range N, a k * b k) := by
  unfold sumProd
  rw [if_pos (by simp)]
  congr 1
  rw [Finset.sum, ← Multiset.sum_coe]
  congr 1
  rw [List.zipWith_map, List.zipWith_self]
  rfl

/-- The rule of a class on [-1, 1]: number of nodes, nodes and weights. -/
noncomputable def ruleOf : Kind → ℕ → ℕ × (ℕ → ℝ) × (ℕ → ℝ)
  | .cc, n => (n + 1, ccNode n, ccWt n)
  | .f1, n => (n + 1, f1Node (n + 1), f1Wt (n + 1))

/-- Orders for which there is a rule. -/
def Kind.least : Kind → ℕ
  | .cc => 2
  | .f1 => 0

/-- What holds of an object at any time. -/
structure Fit (k : Kind) (n : ℕ) (r : Rule) : Prop where
  kind : r.kind = k
  npts : r.npts = n + 1
  base : r.base = (List.range (n + 1)).map (ruleOf k n).2.1
  wbase : r.wbase = (List.range (n + 1)).map (ruleOf k n).2.2

/-- What holds of an object with a range. -/
structure Ranged (k : Kind) (n : ℕ) (i : ℝ × ℝ) (r : Rule) : Prop extends Fit k n r where
  l : r.l = i.1
  u : r.u = i.2
  nodes : r.nodes = (List.range (n + 1)).map fun j => 0.5 * (i.2 - i.1) * (ruleOf k n).2.1 j + 0.5 * (i.1 + i.2)
  wts : r.wts = (List.range (n + 1)).map fun j => 0.5 * (i.2 - i.1) * (ruleOf k n).2.2 j

theorem ruleOf_exact {k : Kind} {n : ℕ} (hk : k.least ≤ n) (p : Polynomial ℝ) (hp : p.natDegree ≤ n) :
    ∑ j ∈ range (n + 1), (ruleOf k n).2.2 j * p.eval ((ruleOf k n).2.1 j) = ∫ x in (-1 : ℝ)..1, p.eval x := by
  cases k with
  | cc => exact cc_exact hk p hp
  | f1 => exact f1_exact rfl p hp

theorem ruleOf_exact_on {k : Kind} {n : ℕ} (hk : k.least ≤ n) (p : Polynomial ℝ) (hp : p.natDegree ≤ n) (l u : ℝ) :
    ∑ j ∈ range (n + 1), 0.5 * (u - l) * (ruleOf k n).2.2 j * p.eval (0.5 * (u - l) * (ruleOf k n).2.1 j + 0.5 * (l + u)) = ∫ x in l..u, p.eval x := by
  rw [integral_poly_scale]
  have hq : (p.comp (Polynomial.C (0.5 * (u - l)) * Polynomial.X + Polynomial.C (0.5 * (l + u)))).natDegree ≤ n := by
    refine Polynomial.natDegree_comp_le.trans ?_
    have : (Polynomial.C (0.5 * (u - l)) * Polynomial.X + Polynomial.C (0.5 * (l + u))).natDegree ≤ 1 := Polynomial.natDegree_linear_le
    calc p.natDegree * _ ≤ p.natDegree * 1 := Nat.mul_le_mul_left _ this
      _ ≤ n := by omega
  have := ruleOf_exact hk _ hq
  simp only [Polynomial.eval_comp, Polynomial.eval_add, Polynomial.eval_mul, Polynomial.eval_C, Polynomial.eval_X] at this
  rw [← this, mul_sum]
  exact sum_congr rfl fun j _ => by ring

theorem set_ends {l u : ℝ} {n : ℕ} (hn : 0 < n) (g : ℕ → ℝ) (h0 : g 0 = l) (h1 : g n = u) :
    (((List.range (n + 1)).map g).set 0 l).set (((List.range (n + 1)).map g).length - 1) u = (List.range (n + 1)).map g := by
  apply List.ext_getElem (by simp)
  intro i hi _
  simp only [List.length_set, List.length_map, List.length_range, List.getElem_set, Nat.add_sub_cancel, List.getElem_map, List.getElem_range]
  split_ifs with h2 h3
  · rw [← h2, h1]
  · rw [← h3, h0]
  · rfl

theorem setRange_ranged {k : Kind} {n : ℕ} (hk : k.least ≤ n) {r : Rule} (h : Fit k n r) {l u : Option ℝ} {i : ℝ × ℝ} (hi : limitsOf l u = some i) :
    ∃ r', r.setRange l u = (r', none) ∧ Ranged k n i r' := by
  obtain ⟨hkd, hnp, hb, hw⟩ := h
  match l, u, hi with
  | none, none, hi =>
    have : i = (-1, 1) := by simpa [limitsOf] using hi.symm
    subst this
    refine ⟨_, rfl, ⟨hkd, hnp, hb, hw⟩, rfl, rfl, ?_, ?_⟩
    · simp only [hb]
      refine List.map_congr_left fun j _ => ?_
      norm_num
    · simp only [hw]
      refine List.map_congr_left fun j _ => ?_
      norm_num
  | some l, some u, hi =>
    have : i = (l, u) := by simpa [limitsOf] using hi.symm
    subst this
    refine ⟨_, rfl, ⟨hkd, hnp, hb, hw⟩, rfl, rfl, ?_, ?_⟩
    · simp only [hb, hkd, List.map_map]
      cases k with
      | f1 => rfl
      | cc =>
        have hn : 2 ≤ n := hk
        refine set_ends (by omega) _ ?_ ?_
        · simp only [Function.comp, ruleOf]; rw [ccNode_zero (by omega)]; ring
        · simp only [Function.comp, ruleOf]; rw [ccNode_last]; ring
    · simp only [hw, List.map_map]; rfl

theorem make_ranged {k : Kind} {order : ℤ} (hk : (k.least : ℤ) ≤ order) {l u : Option ℝ} {i : ℝ × ℝ} (hi : limitsOf l u = some i) :
    ∃ r, Rule.make k order l u = .ok r ∧ Ranged k order.toNat i r := by
  have ho : 0 ≤ order := le_trans (by positivity) hk
  have hk' : k.least ≤ order.toNat := by omega
  have key : ∃ nd, k.rule order = .ok nd ∧
      nd.1 = (List.range (order.toNat + 1)).map (ruleOf k order.toNat).2.1 ∧ nd.2 = (List.range (order.toNat + 1)).map (ruleOf k order.toNat).2.2 := by
    cases k with
    | cc =>
      have : (2 : ℤ) ≤ order := hk
      simp only [Kind.rule, ccrule]
      rw [if_neg (by omega), if_neg (by omega)]
      exact ⟨_, rfl, rfl, rfl⟩
    | f1 =>
      simp only [Kind.rule, f1rule]
      rw [if_neg (by omega)]
      exact ⟨_, rfl, rfl, rfl⟩
  obtain ⟨nd, h1, h2, h3⟩ := key
  have hf : Fit k order.toNat ⟨k, order + 1, nd.1, nd.2, 0, 0, [], []⟩ := ⟨rfl, by simp [ho], h2, h3⟩
  obtain ⟨r, hr, hR⟩ := setRange_ranged hk' hf hi
  refine ⟨r, ?_, hR⟩
  unfold Rule.make
  rw [h1]
  obtain ⟨a, b⟩ := nd
  simp only [hr]

theorem quad_ranged {k : Kind} {n : ℕ} (hk : k.least ≤ n) {i : ℝ × ℝ} {r : Rule} (h : Ranged k n i r) (p : Polynomial ℝ) (hp : p.natDegree ≤ n) :
    r.quad (.fn fun x => p.eval x) none none = .ok (∫ x in i.1..i.2, p.eval x) := by
  unfold Rule.quad
  simp only [h.nodes, h.wts, List.map_map]
  rw [sumProd_map]
  congr 1
  exact ruleOf_exact_on hk p hp i.1 i.2

theorem quad_limits {k : Kind} {n : ℕ} (hk : k.least ≤ n) {r : Rule} (h : Fit k n r) (p : Polynomial ℝ) (hp : p.natDegree ≤ n) (l u : ℝ) :
    r.quad (.fn fun x => p.eval x) (some l) (some u) = .ok (∫ x in l..u, p.eval x) := by
  unfold Rule.quad
  simp only [h.base, h.wbase, List.map_map]
  rw [sumProd_map]
  congr 1
  exact ruleOf_exact_on hk p hp l u

theorem nodes_sorted {k : Kind} {n : ℕ} {i : ℝ × ℝ} (hi : i.1 < i.2) {r : Rule} (h : Ranged k n i r) : r.nodes.Pairwise (· < ·) := by
  rw [h.nodes, List.pairwise_map]
  have : ∀ a b, a < b → b < n + 1 → (ruleOf k n).2.1 a < (ruleOf k n).2.1 b := by
    intro a b hab hb
    cases k with
    | cc => exact ccNode_lt hab (by omega)
    | f1 => exact f1Node_lt hab hb
  refine List.Pairwise.imp_of_mem ?_ List.pairwise_lt_range
  intro a b _ hb hab
  have := this a b hab (List.mem_range.1 hb)
  have : 0 < 0.5 * (i.2 - i.1) := by norm_num; linarith
  nlinarith

theorem wts_pos {k : Kind} {n : ℕ} (hk : k.least ≤ n) {i : ℝ × ℝ} (hi : i.1 < i.2) {r : Rule} (h : Ranged k n i r) : ∀ w ∈ r.wts, 0 < w := by
  intro w hw
  rw [h.wts] at hw
  obtain ⟨j, hj, rfl⟩ := List.mem_map.1 hw
  have hj' := List.mem_range.1 hj
  have : 0 < (ruleOf k n).2.2 j := by
    cases k with
    | cc => exact ccWt_pos hk (by omega)
    | f1 => exact f1Wt_pos (by omega) j
  have : 0 < 0.5 * (i.2 - i.1) := by norm_num; linarith
  positivity

/-! ## C139 -/

/-- **C139 (part).** A Clenshaw-Curtis rule of order two or more, over the interval asked for: order + 1 nodes from one limit to the other, positive weights, and the exact integral of every polynomial up to the order.  Missing: the orders 0 and 1, see `C139_violated_low`. -/
theorem C139_exact_partial (order : ℤ) (ho : 2 ≤ order) (l u : Option ℝ) (a b : ℝ) (hl : limitsOf l u = some (a, b)) :
    ∃ r, Rule.make .cc order l u = .ok r ∧ r.l = a ∧ r.u = b ∧ r.npts = order + 1 ∧
      (r.nodes.length : ℤ) = order + 1 ∧ (r.wts.length : ℤ) = order + 1 ∧
      r.nodes.head? = some a ∧ r.nodes.getLast? = some b ∧
      (a < b → r.nodes.Pairwise (· < ·) ∧ ∀ w ∈ r.wts, 0 < w) ∧
      ∀ p : Polynomial ℝ, (p.natDegree : ℤ) ≤ order →
        r.quad (.fn fun x => p.eval x) none none = .ok (∫ x in a..b, p.eval x) ∧
        r.quad (.vals (r.nodes.map fun x => p.eval x)) none none = .ok (∫ x in a..b, p.eval x) := by
  obtain ⟨r, hr, h⟩ := make_ranged (k := .cc) ho hl
  have hn : 2 ≤ order.toNat := by omega
  refine ⟨r, hr, h.l, h.u, by rw [h.npts]; simp; omega, by rw [h.nodes]; simp; omega, by rw [h.wts]; simp; omega, ?_, ?_,
    fun hab => ⟨nodes_sorted hab h, wts_pos hn hab h⟩, fun p hp => ?_⟩
  · rw [h.nodes, List.range_succ_eq_map]
    simp only [List.map_cons, List.head?_cons, ruleOf]
    rw [ccNode_zero (by omega)]
    congr 1; ring
  · rw [h.nodes, List.range_succ]
    simp only [List.map_append, List.map_cons, List.map_nil, List.getLast?_append, List.getLast?_singleton, ruleOf, Option.some_or]
    rw [ccNode_last]
    congr 1; ring
  · have := quad_ranged hn h p (by omega)
    exact ⟨this, this⟩

/-- An order and limits of the kind required, and an integral. -/
example : ∃ r, Rule.make .cc 3 (some 2) (some 10) = .ok r ∧ r.quad (.fn fun x => 3 * x ^ 2) none none = .ok 992 := by
  obtain ⟨r, hr, _, _, _, _, _, _, _, _, h⟩ := C139_exact_partial 3 (by norm_num) (some 2) (some 10) 2 10 rfl
  refine ⟨r, hr, ?_⟩
  have := (h (Polynomial.C 3 * Polynomial.X ^ 2) (by
    have : (Polynomial.C (3 : ℝ) * Polynomial.X ^ 2).natDegree ≤ 2 := Polynomial.natDegree_C_mul_X_pow_le 3 2
    omega)).1
  simp only [Polynomial.eval_mul, Polynomial.eval_C, Polynomial.eval_pow, Polynomial.eval_X] at this
  rw [this]
  congr 1
  rw [intervalIntegral.integral_const_mul, integral_pow]; norm_num

/-- The trapezoidal rule, order 1, and the rule of order 0 cannot be had: the constructor raises `IndexError`. -/
theorem C139_violated_low (l u : Option ℝ) :
    Rule.make .cc 1 l u = .error .index ∧ Rule.make .cc 0 l u = .error .index := by
  constructor <;> simp [Rule.make, Kind.rule, ccrule]

/-! ## C140 -/

/-- **C140.** Fejer's first rule of any order, over the interval asked for: order + 1 nodes inside the interval, positive weights, and the exact integral of every polynomial up to the order. -/
theorem C140_exact (order : ℤ) (ho : 0 ≤ order) (l u : Option ℝ) (a b : ℝ) (hl : limitsOf l u = some (a, b)) :
    ∃ r, Rule.make .f1 order l u = .ok r ∧ r.l = a ∧ r.u = b ∧ r.npts = order + 1 ∧
      (r.nodes.length : ℤ) = order + 1 ∧ (r.wts.length : ℤ) = order + 1 ∧
      (a < b → (∀ x ∈ r.nodes, a < x ∧ x < b) ∧ r.nodes.Pairwise (· < ·) ∧ ∀ w ∈ r.wts, 0 < w) ∧
      ∀ p : Polynomial ℝ, (p.natDegree : ℤ) ≤ order →
        r.quad (.fn fun x => p.eval x) none none = .ok (∫ x in a..b, p.eval x) ∧
        r.quad (.vals (r.nodes.map fun x => p.eval x)) none none = .ok (∫ x in a..b, p.eval x) := by
  obtain ⟨r, hr, h⟩ := make_ranged (k := .f1) (order := order) (by simpa [Kind.least] using ho) hl
  have hn : Kind.least .f1 ≤ order.toNat := Nat.zero_le _
  refine ⟨r, hr, h.l, h.u, by rw [h.npts]; simp; omega, by rw [h.nodes]; simp; omega, by rw [h.wts]; simp; omega,
    fun hab => ⟨?_, nodes_sorted hab h, wts_pos hn hab h⟩, fun p hp => ?_⟩
  · intro x hx
    rw [h.nodes] at hx
    obtain ⟨j, hj, rfl⟩ := List.mem_map.1 hx
    obtain ⟨h1, h2⟩ := f1Node_inside (N := order.toNat + 1) (k := j) (List.mem_range.1 hj)
    simp only [ruleOf]
    norm_num
    constructor <;> nlinarith
  · have := quad_ranged hn h p (by omega)
    exact ⟨this, this⟩

/-- The midpoint rule. -/
example : ∃ r, Rule.make .f1 0 (some 1) (some 5) = .ok r ∧ r.quad (.fn fun _ => 7) none none = .ok 28 := by
  obtain ⟨r, hr, _, _, _, _, _, _, h⟩ := C140_exact 0 (by norm_num) (some 1) (some 5) 1 5 rfl
  refine ⟨r, hr, ?_⟩
  have := (h (Polynomial.C 7) (by simp)).1
  simp only [Polynomial.eval_C] at this
  rw [this]
  congr 1
  rw [intervalIntegral.integral_const]; norm_num

/-! ## C141 -/

theorem ranges_ranged {k : Kind} {n : ℕ} (hk : k.least ≤ n) (cs : List (Option ℝ × Option ℝ)) :
    ∀ {i : ℝ × ℝ} {r : Rule}, Ranged k n i r → Ranged k n (lastLimits i cs) (r.ranges cs) := by
  induction cs with
  | nil => intro i r h; exact h
  | cons c cs ih =>
    intro i r h
    obtain ⟨l, u⟩ := c
    have : ∃ j, Ranged k n j (r.setRange l u).1 ∧ j = (limitsOf l u).getD i := by
      cases hl : limitsOf l u with
      | some j =>
        obtain ⟨r', hr', h'⟩ := setRange_ranged hk h.toFit hl
        exact ⟨j, by rw [hr']; exact h', rfl⟩
      | none =>
        refine ⟨i, ?_, rfl⟩
        match l, u, hl with
        | none, some _, _ => exact h
        | some _, none, _ => exact h
    obtain ⟨j, hj, rfl⟩ := this
    exact ih hj

/-- **C141.** Whatever ranges have been set on a rule before, `quad` integrates over the last one that was accepted, or over the limits it is given, without changing the rule; a single limit is refused with `ValueError` by `set_range`, which then leaves the rule as it was, and with `TypeError` by `quad`. -/
theorem C141_range (k : Kind) (order : ℤ) (ho : (match k with | .cc => 2 | .f1 => 0) ≤ order) (l u : Option ℝ) (a b : ℝ)
    (hl : limitsOf l u = some (a, b)) (cs : List (Option ℝ × Option ℝ)) :
    ∃ r, Rule.make k order l u = .ok r ∧
      ((r.ranges cs).l, (r.ranges cs).u) = lastLimits (a, b) cs ∧
      (∀ p : Polynomial ℝ, (p.natDegree : ℤ) ≤ order →
        (r.ranges cs).quad (.fn fun x => p.eval x) none none = .ok (∫ x in (lastLimits (a, b) cs).1..(lastLimits (a, b) cs).2, p.eval x) ∧
        ∀ c d, (r.ranges cs).quad (.fn fun x => p.eval x) (some c) (some d) = .ok (∫ x in c..d, p.eval x)) ∧
      ∀ c f, (r.ranges cs).setRange (some c) none = raise .value (r.ranges cs) ∧ (r.ranges cs).setRange none (some c) = raise .value (r.ranges cs) ∧
        (r.ranges cs).quad f (some c) none = .error .type ∧ (r.ranges cs).quad f none (some c) = .error .type := by
  have ho' : (k.least : ℤ) ≤ order := by cases k <;> simpa [Kind.least] using ho
  obtain ⟨r, hr, h⟩ := make_ranged ho' hl
  have hk : k.least ≤ order.toNat := by omega
  have h' := ranges_ranged hk cs h
  refine ⟨r, hr, by rw [h'.l, h'.u], fun p hp => ⟨quad_ranged hk h' p (by omega), fun c d => quad_limits hk h'.toFit p (by omega) c d⟩,
    fun c f => ⟨rfl, rfl, rfl, rfl⟩⟩

/-- A history with a refused request: the rule ends up on [0, 2]. -/
example : lastLimits (-1, 1) [(some 3, some 4), (some 0, some 2), (none, some 7)] = (0, 2) := rfl

end Verif.Quad
