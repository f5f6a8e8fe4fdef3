import Verif.Quad.MapProps
import Verif.Quad.CcfProps

/-!
# C144: composite rules
-/

set_option linter.unusedSectionVars false

namespace Verif.Quad

open Real Set

/-! ## Specification -/

/-- The rule an argument of `CompositeQuad` describes. -/
def Describes : Piece → Q → Prop
  | .obj q, r => q = r ∧ q.WF
  | .tup a, r => Q.make a = .ok r

/-- Each rule begins where the one before ends. -/
def Contiguous : List Q → Prop
  | p :: q :: r => p.u = q.l ∧ Contiguous (q :: r)
  | _ => True

/-! ## Lemmas -/

theorem collect_obj (last : Option Q) (q : Q) (r : List Piece) : collect last (.obj q :: r) =
    if ∃ p ∈ last, p.u ≠ q.l then .error .value else
      match collect (some q) r with
      | .ok l => .ok (q :: l)
      | .error e => .error e := by
  cases last with
  | none => cases h : collect (some q) r <;> simp [collect, h]
  | some p => cases h : collect (some q) r <;> simp [collect, h]

theorem collect_spec : ∀ (ps : List Piece) (last : Option Q) (rs : List Q), collect last ps = .ok rs → (∀ q, .obj q ∈ ps → q.WF) →
    List.Forall₂ Describes ps rs
  | [], _, rs, h, _ => by
    simp only [collect] at h; cases h; exact .nil
  | .obj q :: ps, last, rs, h, hw => by
    rw [collect_obj] at h
    split_ifs at h with hc
    cases hr : collect (some q) ps with
    | error e => rw [hr] at h; cases h
    | ok l =>
      rw [hr] at h; cases h
      exact .cons ⟨rfl, hw q (by simp)⟩ (collect_spec ps _ l hr fun q hq => hw q (by simp [hq]))
  | .tup a :: ps, last, rs, h, hw => by
    rw [collect] at h
    cases hq : Q.make a with
    | error e => rw [hq] at h; cases h
    | ok q =>
      rw [hq] at h
      simp only [] at h
      cases hr : collect (some q) ps with
      | error e => rw [hr] at h; cases h
      | ok l =>
        rw [hr] at h; cases h
        exact .cons hq (collect_spec ps _ l hr fun q hq => hw q (by simp [hq]))

theorem describes_wf {ps : List Piece} {rs : List Q} (h : List.Forall₂ Describes ps rs) : ∀ q ∈ rs, q.WF := by
  induction h with
  | nil => simp
  | @cons p q ps rs hpq _ ih =>
    intro r hr
    rcases List.mem_cons.1 hr with rfl | hr
    · cases p with
      | obj p => exact hpq.1 ▸ hpq.2
      | tup a => exact make_wf hpq
    · exact ih r hr

/-- Objects are checked for contiguity. -/
theorem collect_contiguous : ∀ (qs : List Q) (last : Option Q) (rs : List Q), collect last (qs.map .obj) = .ok rs →
    rs = qs ∧ Contiguous qs ∧ ∀ p ∈ last, ∀ q ∈ qs.head?, p.u = q.l
  | [], _, rs, h => by
    simp only [List.map_nil, collect] at h; cases h
    exact ⟨rfl, trivial, by simp⟩
  | q :: qs, last, rs, h => by
    rw [List.map_cons, collect_obj] at h
    split_ifs at h with hc
    cases hr : collect (some q) (qs.map .obj) with
    | error e => rw [hr] at h; cases h
    | ok l =>
      rw [hr] at h; cases h
      obtain ⟨h1, h2, h3⟩ := collect_contiguous qs _ l hr
      refine ⟨by rw [h1], ?_, ?_⟩
      · cases qs with
        | nil => trivial
        | cons q' qs => exact ⟨h3 q rfl q' rfl, h2⟩
      · intro p hp q' hq'
        cases hp
        have : q = q' := by simpa using hq'
        subst this
        simpa using hc

/-- Where the values for each rule begin. -/
theorem distinct_spec : ∀ (rs : List Q) (prev : Q) (pre : List ℝ), pre ≠ [] → pre.getLast? = prev.nodes.getLast? → (∀ q ∈ rs, q.WF) →
    (distinct prev pre.length rs).2.1.length = rs.length ∧
    (distinct prev pre.length rs).2.2 = (pre ++ (distinct prev pre.length rs).1).length ∧
    ∀ e ∈ List.zip rs (distinct prev pre.length rs).2.1, ((pre ++ (distinct prev pre.length rs).1).drop e.2).take e.1.npts = e.1.nodes
  | [], prev, pre, _, _, _ => by simp [distinct]
  | q :: rs, prev, pre, hp, hl, hw => by
    have hq := (hw q (by simp)).1
    have hqlast : q.nodes.getLast? ≠ none := by simpa using hq
    rw [distinct]
    split_ifs with hc
    · have hlen : pre.length + q.npts = (pre ++ q.nodes).length := by simp [Q.npts]
      obtain ⟨h1, h2, h3⟩ := distinct_spec rs q (pre ++ q.nodes) (by simp [hp]) (by
        rw [List.getLast?_append]
        cases h : q.nodes.getLast? with
        | none => exact absurd h hqlast
        | some x => rfl) fun q hq => hw q (by simp [hq])
      simp only [hlen]
      refine ⟨by rw [List.length_cons, List.length_cons, h1], by rw [h2]; simp, ?_⟩
      intro e he
      rw [List.zip_cons_cons] at he
      rcases List.mem_cons.1 he with rfl | he
      · simp [Q.npts]
      · rw [← List.append_assoc]; exact h3 e he
    · push Not at hc
      obtain ⟨x, t, hx⟩ := List.exists_cons_of_ne_nil hq
      obtain ⟨pre0, y, rfl⟩ : ∃ pre0 y, pre = pre0 ++ [y] := ⟨pre.dropLast, pre.getLast hp, (List.dropLast_append_getLast hp).symm⟩
      have hxy : y = x := by
        rw [← hl, hx] at hc
        simpa using hc
      subst hxy
      have hlen : (pre0 ++ [y]).length + (q.npts - 1) = ((pre0 ++ [y]) ++ q.nodes.tail).length := by
        simp [Q.npts, hx]; omega
      obtain ⟨h1, h2, h3⟩ := distinct_spec rs q ((pre0 ++ [y]) ++ q.nodes.tail) (by simp) (by
        rw [hx]
        simp [List.getLast?_append, List.getLast?_cons]
        ) fun q hq => hw q (by simp [hq])
      simp only [hlen]
      refine ⟨by rw [List.length_cons, List.length_cons, h1], by rw [h2]; simp, ?_⟩
      intro e he
      rw [List.zip_cons_cons] at he
      rcases List.mem_cons.1 he with rfl | he
      · simp only [List.length_append, List.length_singleton, Nat.add_sub_cancel]
        rw [List.append_assoc, List.drop_left' rfl, hx]
        simp [Q.npts, hx]
      · rw [← List.append_assoc]; exact h3 e he

theorem addUp_spec (iv : List ℝ) (f : ℝ → ℝ) : ∀ (es : List (Q × ℕ)) (acc : ℝ), (∀ e ∈ es, e.1.WF ∧ (iv.drop e.2).take e.1.npts = e.1.nodes.map f) →
    addUp iv es acc = .ok (acc + (es.map fun e => e.1.sum f).sum)
  | [], acc, _ => by simp [addUp]
  | (q, s) :: es, acc, h => by
    obtain ⟨hw, he⟩ := h (q, s) (by simp)
    rw [addUp]
    simp only [] at he hw
    rw [he]
    have : q.quad (.vals (q.nodes.map f)) = .ok (q.sum f) := by
      have := quad_fn hw f
      unfold Q.quad at this ⊢
      simp only [] at this ⊢
      rw [if_pos (by simp [Q.npts]), this]
    rw [this]
    simp only []
    rw [addUp_spec iv f es _ fun e he => h e (by simp [he])]
    simp [add_assoc]

theorem zip_fst_sum (f : ℝ → ℝ) : ∀ (rs : List Q) (ss : List ℕ), rs.length = ss.length → ((List.zip rs ss).map fun e => e.1.sum f) = rs.map fun q => q.sum f
  | [], _, _ => by simp
  | _ :: _, [], h => by simp at h
  | q :: rs, s :: ss, h => by
    simp only [List.zip_cons_cons, List.map_cons]
    rw [zip_fst_sum f rs ss (by simpa using h)]

theorem make_spec {ps : List Piece} {c : Comp} (hc : Comp.make ps = .ok c) (hw : ∀ q, .obj q ∈ ps → q.WF) :
    List.Forall₂ Describes ps c.rules ∧ c.rules ≠ [] ∧ c.factor = none ∧ c.npts = c.nodes.length ∧ c.starts.length = c.rules.length ∧
      ∀ e ∈ List.zip c.rules c.starts, (c.nodes.drop e.2).take e.1.npts = e.1.nodes := by
  unfold Comp.make at hc
  cases hr : collect none ps with
  | error e => rw [hr] at hc; cases hc
  | ok rs =>
    rw [hr] at hc
    have hd := collect_spec ps none rs hr hw
    have hwf := describes_wf hd
    cases rs with
    | nil => cases hc
    | cons q r =>
      simp only [Except.ok.injEq] at hc
      subst hc
      obtain ⟨h1, h2, h3⟩ := distinct_spec r q q.nodes (hwf q (by simp)).1 rfl fun q hq => hwf q (by simp [hq])
      refine ⟨hd, by simp, rfl, h2, ?_, ?_⟩
      · simpa [Q.npts] using h1
      · intro e he
        simp only [List.zip_cons_cons] at he
        rcases List.mem_cons.1 he with rfl | he
        · simp [Q.npts]
        · exact h3 e he

theorem comp_quad {ps : List Piece} {c : Comp} (hc : Comp.make ps = .ok c) (hw : ∀ q, .obj q ∈ ps → q.WF) (f : ℝ → ℝ) :
    c.quad f = .ok (c.rules.map fun q => q.sum f).sum := by
  obtain ⟨hd, _, hf, _, hs, he⟩ := make_spec hc hw
  have hwf := describes_wf hd
  unfold Comp.quad
  rw [hf]
  simp only []
  rw [addUp_spec _ f]
  · rw [zip_fst_sum f _ _ hs.symm, zero_add]
  · intro e hem
    refine ⟨hwf e.1 (List.of_mem_zip hem).1, ?_⟩
    rw [← List.map_drop, ← List.map_take, he e hem]

theorem sum_pieces {f : ℝ → ℝ} (hf : Continuous f) : ∀ (q : Q) (rs : List Q), Contiguous (q :: rs) → (∀ p ∈ q :: rs, p.sum f = ∫ x in p.l..p.u, f x) →
    ((q :: rs).map fun q => q.sum f).sum = ∫ x in q.l..((q :: rs).getLast (by simp)).u, f x
  | q, [], _, h => by simp [h q (by simp)]
  | q, p :: rs, hc, h => by
    have := sum_pieces hf p rs hc.2 fun r hr => h r (by simp [hr])
    rw [List.map_cons, List.sum_cons, this, h q (by simp), List.getLast_cons (List.cons_ne_nil _ _), ← hc.1]
    exact intervalIntegral.integral_add_adjacent_intervals (hf.intervalIntegrable _ _) (hf.intervalIntegrable _ _)

/-! ## C144 -/

/-- **C144 (part).** A composite rule evaluates the integrand once at each of its nodes, and returns the sum of what its rules give; for contiguous rules that are exact for the integrand that is the integral over all of the interval.  Rules given as objects have to be contiguous.  Missing: that other rules have to be contiguous as well, see `C144_violated_tuples`, factors, see `C144_violated_factor`, and changes to the rules, see `C144_violated_alias`. -/
theorem C144_composite_partial (ps : List Piece) (hw : ∀ q, .obj q ∈ ps → q.WF) :
    (∀ c, Comp.make ps = .ok c → ∃ rs, List.Forall₂ Describes ps rs ∧
      (∀ f, c.quad f = .ok (rs.map fun q => q.sum f).sum ∧ ∀ g k, ((c.setFactor g).resetFactor k).quad f = c.quad f) ∧
      c.npts = c.nodes.length ∧ (∀ q ∈ rs, q.nodes <:+: c.nodes) ∧
      ∀ a b, rs.head? = some a → rs.getLast? = some b → Contiguous rs → ∀ f, Continuous f → (∀ q ∈ rs, q.sum f = ∫ x in q.l..q.u, f x) →
        c.quad f = .ok (∫ x in a.l..b.u, f x)) ∧
    ∀ qs : List Q, qs ≠ [] → ps = qs.map .obj → ((∃ c, Comp.make ps = .ok c) ↔ Contiguous qs) ∧ (¬Contiguous qs → Comp.make ps = .error .value) := by
  constructor
  · intro c hc
    obtain ⟨hd, hne, hf, hn, hs, he⟩ := make_spec hc hw
    refine ⟨c.rules, hd, fun f => ⟨comp_quad hc hw f, fun g k => ?_⟩, hn, fun q hq => ?_, ?_⟩
    · have : (c.setFactor g).resetFactor k = c := by
        obtain ⟨r, s, n, nd, fa⟩ := c
        simp only [] at hf
        subst hf; rfl
      rw [this]
    · obtain ⟨i, hi, rfl⟩ := List.mem_iff_getElem.1 hq
      have hi' : i < c.starts.length := by omega
      have := he (c.rules[i], c.starts[i]) (by
        rw [List.mem_iff_getElem]
        exact ⟨i, by simp; omega, by simp⟩)
      simp only [] at this
      rw [← this]
      exact (List.take_prefix _ _).isInfix.trans (List.drop_suffix _ _).isInfix
    · intro a b ha hb hcon f hfc hex
      rw [comp_quad hc hw f]
      congr 1
      obtain ⟨r, s, n, nd, fa⟩ := c
      simp only [] at hne ha hb hcon hex ⊢
      cases r with
      | nil => exact absurd rfl hne
      | cons q r =>
        have h1 : q = a := by simpa using ha
        have h2 : (q :: r).getLast (by simp) = b := by
          rw [List.getLast?_eq_getLast_of_ne_nil (by simp)] at hb
          exact Option.some.inj hb
        rw [sum_pieces hfc q r hcon hex, h2, h1]
  · rintro qs hqs rfl
    have key : Contiguous qs → collect none (qs.map .obj) = .ok qs := by
      have gen : ∀ (qs : List Q) (last : Option Q), Contiguous qs → (∀ p ∈ last, ∀ q ∈ qs.head?, p.u = q.l) → collect last (qs.map .obj) = .ok qs := by
        intro qs
        induction qs with
        | nil => intro last _ _; rfl
        | cons q qs ih =>
          intro last h1 h2
          rw [List.map_cons, collect_obj, if_neg]
          · rw [ih (some q)]
            · cases qs with
              | nil => trivial
              | cons p qs => exact h1.2
            · intro p hp r hr
              cases hp
              cases qs with
              | nil => simp at hr
              | cons r' qs =>
                have : r' = r := by simpa using hr
                subst this; exact h1.1
          · cases last with
            | none => simp
            | some p => simpa using h2 p rfl q rfl
      exact fun h => gen qs none h (by simp)
    refine ⟨⟨?_, fun h => ?_⟩, fun h => ?_⟩
    · rintro ⟨c, hc⟩
      unfold Comp.make at hc
      cases hr : collect none (qs.map .obj) with
      | error e => rw [hr] at hc; cases hc
      | ok rs => exact (collect_contiguous qs none rs hr).2.1
    · unfold Comp.make
      rw [key h]
      cases qs with
      | nil => exact absurd rfl hqs
      | cons q qs => exact ⟨_, rfl⟩
    · have herr : ∀ (qs : List Q) (last : Option Q), (∃ rs, collect last (qs.map .obj) = .ok rs) ∨ collect last (qs.map .obj) = .error .value := by
        intro qs
        induction qs with
        | nil => intro last; exact Or.inl ⟨[], rfl⟩
        | cons q qs ih =>
          intro last
          rw [List.map_cons, collect_obj]
          split_ifs
          · exact Or.inr rfl
          · rcases ih (some q) with ⟨rs, h⟩ | h
            · rw [h]; exact Or.inl ⟨_, rfl⟩
            · rw [h]; exact Or.inr rfl
      unfold Comp.make
      rcases herr qs none with ⟨rs, hr⟩ | hr
      · exact absurd (collect_contiguous qs none rs hr).2.1 h
      · rw [hr]

/-- Two trapezoidal rules, on [0, 1] and on [1, 3]. -/
noncomputable def trap01 : Q := ⟨true, 0, 1, [0, 1], [1 / 2, 1 / 2]⟩
noncomputable def trap13 : Q := ⟨true, 1, 3, [1, 3], [1, 1]⟩

/-- They are contiguous and exact for x, and share a node. -/
example : ∃ c, Comp.make [.obj trap01, .obj trap13] = .ok c ∧ c.quad (fun x => x) = .ok (∫ x in (0 : ℝ)..3, x) ∧ c.nodes = [0, 1, 3] := by
  have hw : ∀ q, Piece.obj q ∈ [Piece.obj trap01, Piece.obj trap13] → q.WF := by
    intro q hq
    simp only [List.mem_cons, Piece.obj.injEq, List.not_mem_nil, or_false] at hq
    rcases hq with rfl | rfl <;> simp [Q.WF, trap01, trap13]
  obtain ⟨h1, h2⟩ := C144_composite_partial [.obj trap01, .obj trap13] hw
  have hcon : Contiguous [trap01, trap13] := ⟨rfl, trivial⟩
  obtain ⟨c, hc⟩ := (h2 [trap01, trap13] (by simp) rfl).1.2 hcon
  refine ⟨c, hc, ?_, ?_⟩
  · obtain ⟨rs, hd, _, _, _, hq⟩ := h1 c hc
    have : rs = [trap01, trap13] := by
      cases hd with
      | cons a b =>
        cases b with
        | cons b d =>
          cases d
          rw [a.1, b.1]
    subst this
    refine hq trap01 trap13 rfl rfl hcon _ continuous_id fun q hq => ?_
    simp only [List.mem_cons, List.not_mem_nil, or_false] at hq
    rcases hq with rfl | rfl
    · simp [Q.sum, trap01]
    · simp [Q.sum, trap13]; norm_num
  · have : collect none [.obj trap01, .obj trap13] = .ok [trap01, trap13] := by
      simp [collect, trap01, trap13]
    unfold Comp.make at hc
    rw [this] at hc
    injection hc with hc
    rw [← hc]
    simp [distinct, trap01, trap13, Q.npts]

/-- Tuples are accepted although there is a gap between them: the result is not the integral over any interval that contains both. -/
theorem C144_violated_tuples : ∃ c, Comp.make [.tup (.two [0, 1] [1 / 2, 1 / 2]), .tup (.two [2, 3] [1 / 2, 1 / 2])] = .ok c ∧
    ¬Contiguous c.rules ∧ c.quad (fun _ => 1) = .ok 2 ∧ ∫ _ in (0 : ℝ)..3, (1 : ℝ) = 3 := by
  have h1 : Q.make (.two [0, 1] [1 / 2, 1 / 2]) = .ok ⟨true, 0, 1, [0, 1], [1 / 2, 1 / 2]⟩ := by simp [Q.make]
  have h2 : Q.make (.two [2, 3] [1 / 2, 1 / 2]) = .ok ⟨true, 2, 3, [2, 3], [1 / 2, 1 / 2]⟩ := by simp [Q.make]
  have hc : collect none [.tup (.two [0, 1] [1 / 2, 1 / 2]), .tup (.two [2, 3] [1 / 2, 1 / 2])] =
      .ok [⟨true, 0, 1, [0, 1], [1 / 2, 1 / 2]⟩, ⟨true, 2, 3, [2, 3], [1 / 2, 1 / 2]⟩] := by
    simp only [collect, h1, h2]
  refine ⟨_, by unfold Comp.make; rw [hc], ?_, ?_, by simp⟩
  · simp [Contiguous]
  · rw [comp_quad (ps := [.tup (.two [0, 1] [1 / 2, 1 / 2]), .tup (.two [2, 3] [1 / 2, 1 / 2])]) (by unfold Comp.make; rw [hc]) (by simp)]
    simp [Q.sum]; norm_num

/-- Once a factor is set, every quadrature raises `TypeError`. -/
theorem C144_violated_factor (c : Comp) (g f : ℝ → ℝ) : (c.setFactor g).quad f = .error .type := rfl

/-- A composite rule of one Fejer rule on [0, 1], whose owner then sets its range to [0, 2]: the integral of x is neither that over the one nor that over the other. -/
theorem C144_violated_alias : ∃ r c, Rule.make .f1 0 (some 0) (some 1) = .ok r ∧ Comp.make [.obj r.asQ] = .ok c ∧
    c.quad (fun x => x) = .ok (∫ x in (0 : ℝ)..1, x) ∧
    (c.alter 0 (r.setRange (some 0) (some 2)).1.asQ).quad (fun x => x) = .ok 1 ∧
    ∫ x in (0 : ℝ)..1, x = 1 / 2 ∧ ∫ x in (0 : ℝ)..2, x = 2 := by
  obtain ⟨r, hr, hR⟩ := make_ranged (k := .f1) (order := 0) (by simp [Kind.least]) (l := some 0) (u := some 1) (i := (0, 1)) rfl
  obtain ⟨r', hr', hR'⟩ := setRange_ranged (k := .f1) (n := 0) (by simp [Kind.least]) hR.toFit (l := some 0) (u := some 2) (i := (0, 2)) rfl
  have hw1 : f1Wt 1 0 = 2 := by rw [f1Wt_eq (by norm_num)]; norm_num
  have hn1 : f1Node 1 0 = 0 := by
    unfold f1Node
    rw [show π * (((1 - 0 : ℕ) : ℝ) - 0.5) / ((1 : ℕ) : ℝ) = π / 2 by norm_num; ring, cos_pi_div_two]
  have e1 : r.asQ = ⟨true, 0, 1, [1 / 2], [1]⟩ := by
    unfold Rule.asQ
    rw [hR.l, hR.u, hR.nodes, hR.wts]
    simp [ruleOf, hw1, hn1]; norm_num
  have e2 : (r.setRange (some 0) (some 2)).1.asQ = ⟨true, 0, 2, [1], [2]⟩ := by
    rw [hr']
    unfold Rule.asQ
    rw [hR'.l, hR'.u, hR'.nodes, hR'.wts]
    simp [ruleOf, hw1, hn1]
    norm_num
  have hc : Comp.make [.obj r.asQ] = .ok ⟨[r.asQ], [0], 1, [1 / 2], none⟩ := by
    rw [e1]; simp [Comp.make, collect, distinct, Q.npts]
  refine ⟨r, _, hr, hc, ?_, ?_, by norm_num, by norm_num⟩
  · rw [comp_quad hc (by simp [e1, Q.WF])]
    simp [e1, Q.sum]
  · rw [e2]
    simp [Comp.alter, Comp.quad, addUp, Q.quad, Q.npts, sumProd]

end Verif.Quad
