import Verif.Integrate.DcuhreLemmas

/-!
# The vector integrator DCUHRE (C102)

Definitions from the lemmas that are part of statements: `Good` (what is asked of the basic rule: errors that are not negative, and an axis that exists), `halves` (the two halves of a box), `Box.Mem` (a point is in a box).  The rule of
`Drlhre` meets `Good`.
-/

set_option linter.unusedSectionVars false
set_option linter.unusedSimpArgs false

namespace Verif.Dcuhre

open Finset
open Verif.Adapt (put Box put_self put_ne halves)

variable {K : Type*} [Field K] [LinearOrder K] [IsStrictOrderedRing K]

/-! ## Specification -/

/-- The two calls are about the same integral with the same rule; accuracies, limits and the length of the work array may differ. -/
structure Same (c c' : Call K) : Prop where
  ndim : c'.ndim = c.ndim
  numfun : c'.numfun = c.numfun
  a : c'.a = c.a
  b : c'.b = c.b
  key : c'.key = c.key

/-- What is left by a run, or by a run and any number of restarts with whatever values for `RESULT`, `ABSERR` and `NEVAL`. -/
inductive Left (c : Call K) (rule : ℤ → Box K → Out K) (c5 c6 : K) : Ans K → Prop
  | fresh {c' fuel mem o} : Same c c' → dcuhre fuel c' rule c5 c6 mem = some (.inr o) → Left c rule c5 c6 o
  | again {c' fuel o res abserr neval o'} : Left c rule c5 c6 o → Same c c' → dcuhreRestart fuel c' rule c5 c6 o.heap o.nsub res abserr neval = some (.inr o') → Left c rule c5 c6 o'

/-- The states of the loop. -/
inductive Reach (g : Args K) (mem : ℕ → Rg K) : St K → Prop
  | start : Reach g mem (start g mem)
  | split {s} : Reach g mem s → (s.n : ℤ) + 1 ≤ g.maxsub → Reach g mem (split g s)

/-- The sign of an integral over the box with limits `a` and `b`. -/
def sign (n : ℕ) (a b : ℕ → K) : ℤ := ∏ k ∈ Icc 1 n, if b k < a k then -1 else 1

/-! ## Helper lemmas -/

theorem sign_cases (n : ℕ) (a b : ℕ → K) : sign n a b = 1 ∨ sign n a b = -1 := by
  unfold sign
  refine Finset.prod_induction _ (fun z : ℤ => z = 1 ∨ z = -1) ?_ (Or.inl rfl) ?_
  · rintro x y (rfl | rfl) (rfl | rfl) <;> simp
  · intro k _
    split_ifs <;> simp

theorem dcuhre_some {fuel : ℕ} {c : Call K} {rule : ℤ → Box K → Out K} {c5 c6 : K} {mem : ℕ → Rg K} {o : Ans K} (h : dcuhre fuel c rule c5 c6 mem = some (.inr o)) :
    ∃ p r, dchhre c = .inr p ∧ loop (args c p rule c5 c6) fuel (start (args c p rule c5 c6) mem) = some r ∧ o = finish (args c p rule c5 c6) r.1 r.2 := by
  unfold dcuhre at h
  rcases hc : dchhre c with i | p
  · rw [hc] at h; simp at h
  · rw [hc] at h
    dsimp only [dadhre] at h
    rcases hl : loop (args c p rule c5 c6) fuel (start (args c p rule c5 c6) mem) with _ | r
    · rw [hl] at h; simp at h
    · rw [hl] at h
      simp only [Option.map_some, Option.some.injEq, Sum.inr.injEq] at h
      exact ⟨p, r, rfl, hl, h.symm⟩

theorem restart_some {fuel : ℕ} {c : Call K} {rule : ℤ → Box K → Out K} {c5 c6 : K} {mem : ℕ → Rg K} {nsub : ℕ} {res abserr : ℕ → K} {neval : ℕ} {o : Ans K}
    (h : dcuhreRestart fuel c rule c5 c6 mem nsub res abserr neval = some (.inr o)) :
    ∃ p r, dchhre c = .inr p ∧ loop (args c p rule c5 c6) fuel ⟨mem, nsub, res, abserr, neval⟩ = some r ∧ o = finish (args c p rule c5 c6) r.1 r.2 := by
  unfold dcuhreRestart at h
  rcases hc : dchhre c with i | p
  · rw [hc] at h; simp at h
  · rw [hc] at h
    dsimp only [dadhreRestart] at h
    rcases hl : loop (args c p rule c5 c6) fuel ⟨mem, nsub, res, abserr, neval⟩ with _ | r
    · rw [hl] at h; simp at h
    · rw [hl] at h
      simp only [Option.map_some, Option.some.injEq, Sum.inr.injEq] at h
      exact ⟨p, r, rfl, hl, h.symm⟩

theorem heap_same {g g' : Args K} (h1 : g'.ndim = g.ndim) (h2 : g'.numfun = g.numfun) (h3 : g'.a = g.a) (h4 : g'.b = g.b) (h5 : g'.rule = g.rule) {h : ℕ → Rg K} {n : ℕ} (hh : Heap g h n) : Heap g' h n := by
  have hw : whole g' = whole g := by unfold whole; rw [h3, h4]
  refine ⟨hh.n1, fun k k1 k2 => ?_, fun hn k k1 k2 => by rw [h2]; exact hh.great hn k k1 k2, hh.ord, fun F hF => ?_, fun F hF => ?_⟩
  · obtain ⟨a, b, c, d⟩ := hh.recs k k1 k2
    exact ⟨by rw [h5]; exact a, by rw [h5]; exact b, by rw [h5]; exact c, by rw [h1]; exact d⟩
  · rw [hw]; rw [h1] at hF; exact hh.tile F hF
  · rw [hw]; rw [h1] at hF; exact hh.tileK F hF

/-- The arguments without what may change at a restart. -/
def core (c : Call K) (rule : ℤ → Box K → Out K) (c5 c6 : K) : Args K := ⟨c.ndim, c.numfun.toNat, c.a, c.b, 0, 0, 0, 0, 0, rule (keyf c.key c.ndim), c5, c6⟩

theorem heap_core {c c' : Call K} (hs : Same c c') {p : Plan} (hp : Passed c' p) {rule : ℤ → Box K → Out K} {c5 c6 : K} {h : ℕ → Rg K} {n : ℕ} :
    (Heap (args c' p rule c5 c6) h n → Heap (core c rule c5 c6) h n) ∧ (Heap (core c rule c5 c6) h n → Heap (args c' p rule c5 c6) h n) := by
  have hk : p.keyf = keyf c.key c.ndim := by rw [hp.keyf, hs.key, hs.ndim]
  constructor
  · refine heap_same hs.ndim.symm ?_ hs.a.symm hs.b.symm ?_
    · simp only [core, args, hs.numfun]
    · simp only [core, args, hk]
  · refine heap_same hs.ndim ?_ hs.a hs.b ?_
    · simp only [core, args, hs.numfun]
    · simp only [core, args, hk]

theorem finish_spec {g : Args K} {i : ℕ} {s : St K} : (finish g i s).nsub = s.n ∧ (finish g i s).heap = s.heap ∧ (∀ j, (finish g i s).res j = (sign g.ndim g.a g.b : ℤ) * ∑ k ∈ Icc 1 s.n, (s.heap k).val j) ∧
    ∀ j, (finish g i s).abserr j = ∑ k ∈ Icc 1 s.n, (s.heap k).err j := by
  refine ⟨rfl, rfl, fun j => ?_, fun j => ?_⟩
  · unfold finish
    dsimp only
    rw [total_one, intsgn_one, mul_comm]
    rfl
  · unfold finish
    dsimp only
    rw [total_one]

theorem same_self (c : Call K) : Same c c := ⟨rfl, rfl, rfl, rfl, rfl⟩

theorem good_args {c c' : Call K} (hs : Same c c') {p : Plan} (hp : Passed c' p) {rule : ℤ → Box K → Out K} {c5 c6 : K} (hg : Good c.ndim (rule (keyf c.key c.ndim))) :
    Good (args c' p rule c5 c6).ndim (args c' p rule c5 c6).rule := by
  show Good c'.ndim (rule p.keyf)
  rw [hp.keyf, hs.key, hs.ndim]
  exact hg

theorem left_heap {c : Call K} {rule : ℤ → Box K → Out K} {c5 c6 : K} {o : Ans K} (hg : Good c.ndim (rule (keyf c.key c.ndim))) (h5 : 0 ≤ c5) (h6 : 0 ≤ c6) (h : Left c rule c5 c6 o) :
    Heap (core c rule c5 c6) o.heap o.nsub ∧ 2 ≤ o.nsub ∧ (∀ j, o.res j = (sign c.ndim c.a c.b : ℤ) * ∑ k ∈ Icc 1 o.nsub, (o.heap k).val j) ∧ ∀ j, o.abserr j = ∑ k ∈ Icc 1 o.nsub, (o.heap k).err j := by
  induction h with
  | fresh hs hd =>
    rename_i c' fuel mem o
    obtain ⟨p, r, hc, hl, rfl⟩ := dcuhre_some hd
    have hp := dchhre_passed hc
    obtain ⟨q1, -, -, -, -, q6, -, -⟩ := loop_spec (good_args hs hp hg) h5 h6 _ _ _ (heap_start _ mem) hl
    obtain ⟨e1, e2, e3, e4⟩ := finish_spec (g := args c' p rule c5 c6) (i := r.1) (s := r.2)
    rw [e1, e2]
    refine ⟨(heap_core hs hp).1 q1, ?_, ?_, e4⟩
    · rw [start_eq] at q6
      exact q6 (by have := hp.max2; show ((1 : ℕ) : ℤ) + 1 ≤ p.maxsub; omega)
    · intro j
      rw [e3 j]
      show ((sign c'.ndim c'.a c'.b : ℤ) : K) * _ = _
      rw [hs.ndim, hs.a, hs.b]
  | again ho hs hd ih =>
    rename_i c' fuel o res abserr neval o'
    obtain ⟨i1, i2, -, -⟩ := ih
    obtain ⟨p, r, hc, hl, rfl⟩ := restart_some hd
    have hp := dchhre_passed hc
    obtain ⟨q1, -, q3, -⟩ := loop_spec (good_args hs hp hg) h5 h6 _ _ _ (show Heap _ _ _ from (heap_core hs hp).2 i1) hl
    obtain ⟨e1, e2, e3, e4⟩ := finish_spec (g := args c' p rule c5 c6) (i := r.1) (s := r.2)
    rw [e1, e2]
    refine ⟨(heap_core hs hp).1 q1, le_trans i2 q3, ?_, e4⟩
    intro j
    rw [e3 j]
    show ((sign c'.ndim c'.a c'.b : ℤ) : K) * _ = _
    rw [hs.ndim, hs.a, hs.b]

theorem reach_heap {g : Args K} {mem : ℕ → Rg K} (hg : Good g.ndim g.rule) (h5 : 0 ≤ g.c5) (h6 : 0 ≤ g.c6) {s : St K} (h : Reach g mem s) : Heap g s.heap s.n := by
  induction h with
  | start => exact heap_start g mem
  | split _ _ ih => exact (split_spec hg h5 h6 ih).1

/-! ## C102 -/

/-- C102.  The integrator ends, whatever the integrands are, and after at most `MAXSUB - 1` divisions, where `MAXSUB` is at most half of `MAXPTS`. -/
theorem C102_ends (c : Call K) (rule : ℤ → Box K → Out K) {c5 c6 : K} (mem : ℕ → Rg K) (hg : Good c.ndim (rule (keyf c.key c.ndim))) (h5 : 0 ≤ c5) (h6 : 0 ≤ c6) {fuel : ℕ} (hf : c.maxpts < 2 * fuel) (h0 : 0 < fuel) :
    ∃ o, dcuhre fuel c rule c5 c6 mem = some o := by
  unfold dcuhre
  rcases hc : dchhre c with i | p
  · exact ⟨_, rfl⟩
  · have hp := dchhre_passed hc
    obtain ⟨r, hr⟩ := loop_ends (g := args c p rule c5 c6) (good_args (same_self c) hp hg) h5 h6 fuel (start (args c p rule c5 c6) mem) (heap_start _ _) (by
      rw [start_eq]
      show p.maxsub.toNat - 1 < fuel
      have h1 := hp.maxs
      have h2 := hp.max2
      have h3 := hp.num
      have : 2 * p.maxsub - 1 ≤ c.maxpts := by nlinarith
      omega)
    dsimp only [dadhre]
    rw [hr]
    exact ⟨_, rfl⟩

/-- C102.  After a run and any number of restarts, every point of the box is in exactly one of the regions; the limits may be reversed. -/
theorem C102_partition {c : Call K} {rule : ℤ → Box K → Out K} {c5 c6 : K} {o : Ans K} (hg : Good c.ndim (rule (keyf c.key c.ndim))) (h5 : 0 ≤ c5) (h6 : 0 ≤ c6) (h : Left c rule c5 c6 o) {x : ℕ → K}
    (hx : ∀ j, 1 ≤ j → j ≤ c.ndim → min (c.a j) (c.b j) ≤ x j ∧ x j < max (c.a j) (c.b j)) :
    ∃ k, (1 ≤ k ∧ k ≤ o.nsub) ∧ (o.heap k).box.Mem c.ndim x ∧ ∀ k', 1 ≤ k' → k' ≤ o.nsub → (o.heap k').box.Mem c.ndim x → k' = k := tile_mem (left_heap hg h5 h6 h).1 hx

/-- C102.  After a run and any number of restarts, a quantity that for every box is the sum of those of its halves, such as an integral, is the sum of those of the regions. -/
theorem C102_additive {c : Call K} {rule : ℤ → Box K → Out K} {c5 c6 : K} {o : Ans K} (hg : Good c.ndim (rule (keyf c.key c.ndim))) (h5 : 0 ≤ c5) (h6 : 0 ≤ c6) (h : Left c rule c5 c6 o) (F : Box K → K)
    (hF : ∀ (b : Box K) i, 1 ≤ i → i ≤ c.ndim → (∀ j, 1 ≤ j → j ≤ c.ndim → 0 ≤ b.width j) → F b = F (halves b i).1 + F (halves b i).2) :
    ∑ k ∈ Icc 1 o.nsub, F (o.heap k).box = F ⟨fun j => (c.a j + c.b j) / 2, fun j => |c.b j - c.a j| / 2⟩ := (left_heap hg h5 h6 h).1.tileK F hF

/-- C102.  After a run and any number of restarts, `RESULT` is the sum of what the rule gives for the regions, with the sign for reversed limits; `ABSERR` is the sum of the errors kept for the regions, none of which is smaller than what
the rule gives. -/
theorem C102_sums {c : Call K} {rule : ℤ → Box K → Out K} {c5 c6 : K} {o : Ans K} (hg : Good c.ndim (rule (keyf c.key c.ndim))) (h5 : 0 ≤ c5) (h6 : 0 ≤ c6) (h : Left c rule c5 c6 o) (j : ℕ) :
    o.res j = (sign c.ndim c.a c.b : ℤ) * ∑ k ∈ Icc 1 o.nsub, (rule (keyf c.key c.ndim) (o.heap k).box).val j ∧ o.abserr j = ∑ k ∈ Icc 1 o.nsub, (o.heap k).err j ∧
    ∑ k ∈ Icc 1 o.nsub, (rule (keyf c.key c.ndim) (o.heap k).box).err j ≤ o.abserr j ∧ ∀ k, 1 ≤ k → k ≤ o.nsub → (rule (keyf c.key c.ndim) (o.heap k).box).err j ≤ (o.heap k).err j := by
  obtain ⟨h1, -, h3, h4⟩ := left_heap hg h5 h6 h
  refine ⟨?_, h4 j, ?_, fun k k1 k2 => (h1.recs k k1 k2).err j⟩
  · rw [h3 j]
    congr 1
    refine sum_congr rfl fun k hk => ?_
    rw [mem_Icc] at hk
    rw [(h1.recs k hk.1 hk.2).val]
    rfl
  · rw [h4 j]
    refine sum_le_sum fun k hk => ?_
    rw [mem_Icc] at hk
    exact (h1.recs k hk.1 hk.2).err j

/-- C102.  In every state of the loop no component of an error of a region is larger than all those of the first region; and a division replaces that region by its halves along an axis, and no other. -/
theorem C102_largest {g : Args K} {mem : ℕ → Rg K} (hg : Good g.ndim g.rule) (h5 : 0 ≤ g.c5) (h6 : 0 ≤ g.c6) {s : St K} (h : Reach g mem s) :
    (∀ k j, 1 ≤ k → k ≤ s.n → 1 ≤ j → j ≤ g.numfun → ∃ i, 1 ≤ i ∧ i ≤ g.numfun ∧ (s.heap k).err j ≤ (s.heap 1).err i) ∧
    (split g s).n = s.n + 1 ∧ ∃ d, 1 ≤ d ∧ d ≤ g.ndim ∧ ∀ f : Box K → ℕ,
      (∑ k ∈ Icc 1 (s.n + 1), f ((split g s).heap k).box) + f (s.heap 1).box = (∑ k ∈ Icc 1 s.n, f (s.heap k).box) + f (halves (s.heap 1).box d).1 + f (halves (s.heap 1).box d).2 := by
  have hh := reach_heap hg h5 h6 h
  refine ⟨fun k j k1 k2 j1 j2 => ?_, ?_⟩
  · by_cases hk : k = 1
    · subst hk; exact ⟨j, j1, j2, le_rfl⟩
    · have hm := ord_max hh.ord k k1 k2
      have hgr := hh.great (by omega)
      rw [hgr k k1 k2, hgr 1 le_rfl (by omega)] at hm
      have hj := (greatest_spec (s.heap k).err g.numfun 1 0).2.1 j j1 (by omega)
      rcases (greatest_spec (s.heap 1).err g.numfun 1 0).2.2 with q | ⟨i, i1, i2, q⟩
      · refine ⟨j, j1, j2, ?_⟩
        rw [q] at hm
        have f1 := hh.recs 1 le_rfl (by omega)
        exact (hj.trans hm).trans (((hg _ f1.width).1 j).trans (f1.err j))
      · exact ⟨i, i1, by omega, by rw [← q]; exact hj.trans hm⟩
  · obtain ⟨L, R, h', N, hh', e⟩ := split_eq g s hh.n1
    have f1 := hh.recs 1 le_rfl hh.n1
    have gt := hg _ f1.width
    rw [← f1.dir] at gt
    rw [e]
    refine ⟨rfl, (s.heap 1).dir, gt.2.1, gt.2.2, fun f => ?_⟩
    rw [← N.boxL, ← N.boxR]
    exact split_sum hh.n1 hh' (fun x => f x.box) L R

/-- C102.  `IFAIL` is 0 or 1.  If it is 0, then every component of `ABSERR` is at most `EPSABS`, or at most `EPSREL` times the size of that of `RESULT`, and there are at least `MINPTS` evaluations.  If it is 1, there is no room for
another division: the evaluations of one more would exceed `MAXPTS`.  There are never more than `MAXPTS` evaluations.
Missing: restarts (see `C102_restart_partial`) and the least number of evaluations if `IFAIL` is 1
(`C102_violated_minpts`). -/
theorem C102_tolerance_partial {c : Call K} {rule : ℤ → Box K → Out K} {c5 c6 : K} (hg : Good c.ndim (rule (keyf c.key c.ndim))) (h5 : 0 ≤ c5) (h6 : 0 ≤ c6) {fuel : ℕ} {mem : ℕ → Rg K} {o : Ans K}
    (h : dcuhre fuel c rule c5 c6 mem = some (.inr o)) :
    (o.ifail = 0 ∨ o.ifail = 1) ∧ (o.ifail = 0 → (∀ j : ℕ, 1 ≤ j → (j : ℤ) ≤ c.numfun → o.abserr j ≤ c.epsabs ∨ o.abserr j ≤ c.epsrel * |o.res j|) ∧ c.minpts ≤ o.neval) ∧
    (o.ifail = 1 → c.maxpts < o.neval + 2 * (ruleLen (keyf c.key c.ndim) c.ndim).1) ∧ (o.neval : ℤ) ≤ c.maxpts := by
  obtain ⟨p, r, hc, hl, rfl⟩ := dcuhre_some h
  have hp := dchhre_passed hc
  obtain ⟨q1, q2, q3, q4, q5, q6, -, q8⟩ := loop_spec (good_args (same_self c) hp hg) h5 h6 _ _ _ (heap_start _ mem) hl
  have qt := q2 (totals_start _ _)
  obtain ⟨e1, e2, e3, e4⟩ := finish_spec (g := args c p rule c5 c6) (i := r.1) (s := r.2)
  rw [start_eq] at q3 q4 q5
  have hnum : (((args c p rule c5 c6).num : ℕ) : ℤ) = p.num := Int.toNat_of_nonneg hp.num.le
  have hne : (r.2.neval : ℤ) = p.num * (2 * r.2.n - 1) := by
    rw [q4, ← hnum]
    have h1 : 1 ≤ r.2.n := q3
    show (((args c p rule c5 c6).num + 2 * (args c p rule c5 c6).num * (r.2.n - 1) : ℕ) : ℤ) = _
    push_cast [h1]
    ring
  have hmx : (r.2.n : ℤ) ≤ p.maxsub := q5 (by have := hp.max2; show ((1 : ℕ) : ℤ) ≤ p.maxsub; omega)
  have hrl : (ruleLen (keyf c.key c.ndim) c.ndim).1 = p.num := by rw [← hp.keyf, ← hp.eq]
  have hres : ∀ j, |(finish (args c p rule c5 c6) r.1 r.2).res j| = |r.2.res j| := fun j => by
    rw [e3 j, qt.val j, abs_mul]
    have : |((sign (args c p rule c5 c6).ndim (args c p rule c5 c6).a (args c p rule c5 c6).b : ℤ) : K)| = 1 := by
      rcases sign_cases (args c p rule c5 c6).ndim (args c p rule c5 c6).a (args c p rule c5 c6).b with q | q <;> rw [q] <;> simp
    rw [this, one_mul]
  refine ⟨?_, ?_, ?_, ?_⟩
  · rcases q8 with q8 | q8
    · exact Or.inl q8.1
    · exact Or.inr q8.1
  · intro hi
    rcases q8 with ⟨-, hm, ha⟩ | ⟨q8, -⟩
    · refine ⟨fun j j1 j2 => ?_, ?_⟩
      · rw [accurate_eq] at ha
        rw [hres, e4, ← qt.err]
        exact (ha j j1 (by show j < 1 + c.numfun.toNat; omega)).symm
      · show c.minpts ≤ (r.2.neval : ℤ)
        rw [hne]
        refine hp.mins.trans ?_
        have h1 := hp.num
        have h2 : p.minsub ≤ r.2.n := hm
        nlinarith
    · have : r.1 = 0 := hi
      omega
  · intro hi
    have hi' : r.1 = 1 := hi
    rcases q8 with ⟨q8, -⟩ | ⟨-, q8⟩
    · omega
    · have h1 : p.maxsub ≤ r.2.n := by have : p.maxsub < r.2.n + 1 := q8; omega
      have h2 : (r.2.n : ℤ) = p.maxsub := le_antisymm hmx h1
      rw [hrl]
      show c.maxpts < (r.2.neval : ℤ) + 2 * p.num
      rw [hne, h2, hp.maxsub]
      have k1 : (c.maxpts - p.num).tdiv (2 * p.num) = (c.maxpts - p.num) / (2 * p.num) := Int.tdiv_eq_ediv_of_nonneg (by have := hp.three; have := hp.num; omega)
      have k2 := Int.mul_ediv_add_emod (c.maxpts - p.num) (2 * p.num)
      have k3 := Int.emod_lt_of_pos (c.maxpts - p.num) (show 0 < 2 * p.num by have := hp.num; omega)
      rw [k1]
      nlinarith
  · show (r.2.neval : ℤ) ≤ c.maxpts
    rw [hne]
    refine le_trans ?_ hp.maxs
    have := hp.num
    nlinarith

/-- C102.  A restart that is given `RESULT`, `ABSERR` and `NEVAL` as they were left, in a box with an even number of reversed limits: what `IFAIL` says, and the bounds on the evaluations, hold as well.
Missing: restarts from Python and with an odd number of reversed limits
(`C102_violated_python_restart`, `C102_violated_reversed_restart`). -/
theorem C102_restart_partial {c c' : Call K} {rule : ℤ → Box K → Out K} {c5 c6 : K} (hg : Good c.ndim (rule (keyf c.key c.ndim))) (h5 : 0 ≤ c5) (h6 : 0 ≤ c6) {o : Ans K} (hL : Left c rule c5 c6 o)
    (hn : (o.neval : ℤ) = (ruleLen (keyf c.key c.ndim) c.ndim).1 * (2 * o.nsub - 1)) (hs : Same c c') (hsg : sign c.ndim c.a c.b = 1) {fuel : ℕ} {o' : Ans K}
    (h : dcuhreRestart fuel c' rule c5 c6 o.heap o.nsub o.res o.abserr o.neval = some (.inr o')) :
    (o'.ifail = 0 ∨ o'.ifail = 1) ∧ (o'.ifail = 0 → (∀ j : ℕ, 1 ≤ j → (j : ℤ) ≤ c.numfun → o'.abserr j ≤ c'.epsabs ∨ o'.abserr j ≤ c'.epsrel * |o'.res j|) ∧ c'.minpts ≤ o'.neval) ∧
    (o'.neval : ℤ) = (ruleLen (keyf c.key c.ndim) c.ndim).1 * (2 * o'.nsub - 1) ∧ ((o.neval : ℤ) ≤ c'.maxpts → (o'.neval : ℤ) ≤ c'.maxpts) := by
  obtain ⟨l1, l2, l3, l4⟩ := left_heap hg h5 h6 hL
  obtain ⟨p, r, hc, hl, rfl⟩ := restart_some h
  have hp := dchhre_passed hc
  obtain ⟨q1, q2, q3, q4, q5, q6, -, q8⟩ := loop_spec (good_args hs hp hg) h5 h6 _ _ _ (show Heap _ _ _ from (heap_core hs hp).2 l1) hl
  have qt := q2 ⟨fun j => by show o.res j = _; rw [l3, hsg]; simp, l4⟩
  obtain ⟨e1, e2, e3, e4⟩ := finish_spec (g := args c' p rule c5 c6) (i := r.1) (s := r.2)
  have hnum : (((args c' p rule c5 c6).num : ℕ) : ℤ) = p.num := Int.toNat_of_nonneg hp.num.le
  have hrl : (ruleLen (keyf c.key c.ndim) c.ndim).1 = p.num := by rw [← hs.key, ← hs.ndim, ← hp.keyf, ← hp.eq]
  rw [hrl] at hn ⊢
  have hne : (r.2.neval : ℤ) = p.num * (2 * r.2.n - 1) := by
    have h1 : o.nsub ≤ r.2.n := q3
    have h2 : (r.2.neval : ℤ) = ((o.neval + 2 * (args c' p rule c5 c6).num * (r.2.n - o.nsub) : ℕ) : ℤ) := by rw [q4]
    rw [h2]
    push_cast [h1]
    rw [hnum, hn]
    ring
  refine ⟨?_, ?_, hne, ?_⟩
  · rcases q8 with q8 | q8
    · exact Or.inl q8.1
    · exact Or.inr q8.1
  · intro hi
    rcases q8 with ⟨-, hm, ha⟩ | ⟨q8, -⟩
    · refine ⟨fun j j1 j2 => ?_, ?_⟩
      · rw [accurate_eq] at ha
        have e3' : (finish (args c' p rule c5 c6) r.1 r.2).res j = r.2.res j := by
          rw [e3 j, qt.val j]
          show ((sign c'.ndim c'.a c'.b : ℤ) : K) * _ = _
          rw [hs.ndim, hs.a, hs.b, hsg]
          simp
        rw [e3', e4, ← qt.err]
        exact (ha j j1 (by show j < 1 + c'.numfun.toNat; rw [hs.numfun]; omega)).symm
      · show c'.minpts ≤ (r.2.neval : ℤ)
        rw [hne]
        refine hp.mins.trans ?_
        have h1 := hp.num
        have h2 : p.minsub ≤ r.2.n := hm
        nlinarith
    · have : r.1 = 0 := hi
      omega
  · intro hle
    show (r.2.neval : ℤ) ≤ c'.maxpts
    have hp0 := hp.num
    by_cases hb : (o.nsub : ℤ) ≤ p.maxsub
    · have h1 : (r.2.n : ℤ) ≤ p.maxsub := q5 hb
      rw [hne]
      refine le_trans ?_ hp.maxs
      nlinarith
    · exfalso
      rw [hn] at hle
      have k1 : (c'.maxpts - p.num).tdiv (2 * p.num) = (c'.maxpts - p.num) / (2 * p.num) := Int.tdiv_eq_ediv_of_nonneg (by have := hp.three; omega)
      have k2 := Int.mul_ediv_add_emod (c'.maxpts - p.num) (2 * p.num)
      have k3 := Int.emod_lt_of_pos (c'.maxpts - p.num) (show 0 < 2 * p.num by omega)
      have k4 := hp.maxsub
      rw [k1] at k4
      have : p.maxsub + 1 ≤ (o.nsub : ℤ) := by omega
      nlinarith

/-- C102.  If the checks pass, the parts of `WORK` that the integrator uses lie in the array, do not overlap, and do not contain its last cell, where the number of regions is kept. -/
theorem C102_work {c : Call K} {p : Plan} (h : dchhre c = .inr p) : (workParts c p).Pairwise (fun x y => x.1 + x.2 ≤ y.1) ∧ ∀ x ∈ workParts c p, 1 ≤ x.1 ∧ x.1 + x.2 ≤ c.nw := by
  have hp := dchhre_passed h
  have hf := hp.fun1
  have hw := hp.work
  have hd : (2 : ℤ) ≤ c.ndim := by exact_mod_cast hp.dim.1
  have h2 := hp.max2
  have hpos : 0 < 2 * (c.ndim : ℤ) + 2 * c.numfun + 2 := by omega
  have e1 : wrksub c = (c.nw - 1 - 17 * 1 * c.numfun) / (2 * c.ndim + 2 * c.numfun + 2) := Int.tdiv_eq_ediv_of_nonneg (by nlinarith)
  have e2 : p.maxsub ≤ wrksub c := by rw [e1, Int.le_ediv_iff_mul_le hpos]; linarith
  have e3 : wrksub c * (2 * c.ndim + 2 * c.numfun + 2) ≤ c.nw - 1 - 17 * 1 * c.numfun := by rw [e1]; exact Int.ediv_mul_le _ hpos.ne'
  have f1 : c.numfun * p.maxsub ≤ wrksub c * c.numfun := by nlinarith
  have f2 : (c.ndim : ℤ) * p.maxsub ≤ wrksub c * c.ndim := by nlinarith
  have f3 : 0 ≤ c.numfun * p.maxsub := by nlinarith
  have f4 : 0 ≤ (c.ndim : ℤ) * p.maxsub := by nlinarith
  have e4 : 2 * (wrksub c * c.ndim) + 2 * (wrksub c * c.numfun) + 2 * wrksub c ≤ c.nw - 1 - 17 * 1 * c.numfun := by linarith
  unfold workParts
  dsimp only
  generalize wrksub c * c.numfun = P at *
  generalize wrksub c * (c.ndim : ℤ) = Q at *
  generalize c.numfun * p.maxsub = P' at *
  generalize (c.ndim : ℤ) * p.maxsub = Q' at *
  constructor
  · simp only [List.pairwise_cons, List.mem_cons, List.not_mem_nil, or_false, forall_eq_or_imp, forall_eq]
    simp only [IsEmpty.forall_iff, implies_true, List.Pairwise.nil, and_true]
    refine ⟨⟨?_, ?_, ?_, ?_, ?_, ?_, ?_⟩, ⟨?_, ?_, ?_, ?_, ?_, ?_⟩, ⟨?_, ?_, ?_, ?_, ?_⟩, ⟨?_, ?_, ?_, ?_⟩, ⟨?_, ?_, ?_⟩, ⟨?_, ?_⟩, ?_⟩ <;> omega
  · simp only [List.mem_cons, List.not_mem_nil, or_false, forall_eq_or_imp, forall_eq]
    refine ⟨⟨?_, ?_⟩, ⟨?_, ?_⟩, ⟨?_, ?_⟩, ⟨?_, ?_⟩, ⟨?_, ?_⟩, ⟨?_, ?_⟩, ⟨?_, ?_⟩, ⟨?_, ?_⟩⟩ <;> omega

/-- C102.  If the checks pass, the parts of the array for the rule lie in that array and do not overlap. -/
theorem C102_work2 {c : Call K} {p : Plan} (h : dchhre c = .inr p) : (work2Parts c.ndim p.wtleng).Pairwise (fun x y => x.1 + x.2 ≤ y.1) ∧ ∀ x ∈ work2Parts c.ndim p.wtleng, 1 ≤ x.1 ∧ x.1 + x.2 ≤ lenw2 + 1 := by
  have hp := dchhre_passed h
  have h1 := hp.dim.2
  have h2 := hp.wt
  have h3 : p.wtleng * c.ndim ≤ 14 * 15 := Nat.mul_le_mul h2 h1
  have h4 : c.ndim * p.wtleng * (2 * 1) = 2 * (p.wtleng * c.ndim) := by ring
  have h5 : 2 * 1 * p.wtleng * c.ndim = 2 * (p.wtleng * c.ndim) := by ring
  unfold work2Parts lenw2
  dsimp only
  rw [h4, h5]
  generalize p.wtleng * c.ndim = P at *
  constructor
  · simp only [List.pairwise_cons, List.mem_cons, List.not_mem_nil, or_false, forall_eq_or_imp, forall_eq]
    simp only [IsEmpty.forall_iff, implies_true, List.Pairwise.nil, and_true]
    refine ⟨⟨?_, ?_, ?_, ?_, ?_, ?_, ?_⟩, ⟨?_, ?_, ?_, ?_, ?_, ?_⟩, ⟨?_, ?_, ?_, ?_, ?_⟩, ⟨?_, ?_, ?_, ?_⟩, ⟨?_, ?_, ?_⟩, ⟨?_, ?_⟩, ?_⟩ <;> omega
  · simp only [List.mem_cons, List.not_mem_nil, or_false, forall_eq_or_imp, forall_eq]
    refine ⟨⟨?_, ?_⟩, ⟨?_, ?_⟩, ⟨?_, ?_⟩, ⟨?_, ?_⟩, ⟨?_, ?_⟩, ⟨?_, ?_⟩, ⟨?_, ?_⟩, ⟨?_, ?_⟩⟩ <;> omega

/-- C102.  The checks pass exactly if the arguments are as documented. -/
theorem C102_checks (c : Call K) : (∃ p, dchhre c = .inr p) ↔ (0 ≤ c.key ∧ c.key ≤ 4) ∧ (2 ≤ c.ndim ∧ c.ndim ≤ 15) ∧ (c.key = 1 → c.ndim = 2) ∧ (c.key = 2 → c.ndim = 3) ∧ 1 ≤ c.numfun ∧
    (∀ j, 1 ≤ j → j ≤ c.ndim → c.a j ≠ c.b j) ∧ 3 * (ruleLen (keyf c.key c.ndim) c.ndim).1 ≤ c.maxpts ∧ c.minpts ≤ c.maxpts ∧ (0 ≤ c.epsabs ∨ 0 ≤ c.epsrel) ∧
    ((c.maxpts - (ruleLen (keyf c.key c.ndim) c.ndim).1) / (2 * (ruleLen (keyf c.key c.ndim) c.ndim).1) + 1) * (2 * c.ndim + 2 * c.numfun + 2) + 17 * c.numfun + 1 ≤ c.nw ∧ (c.restar = 0 ∨ c.restar = 1) := by
  have step : ∀ {P Q : Prop} [Decidable P] {i : ℕ} {z : ℕ ⊕ Plan}, ((∃ p, z = .inr p) ↔ Q) → ((∃ p, (if P then Sum.inl i else z) = .inr p) ↔ ¬ P ∧ Q) := by
    intro P Q _ i z hz
    by_cases hP : P
    · rw [if_pos hP]; simp [hP]
    · rw [if_neg hP, hz]; simp [hP]
  have key : (∃ p, dchhre c = .inr p) ↔ ¬ (c.key < 0 ∨ c.key > 4) ∧ ¬ (c.ndim < 2 ∨ c.ndim > 15) ∧ ¬ (c.key = 1 ∧ c.ndim ≠ 2) ∧ ¬ (c.key = 2 ∧ c.ndim ≠ 3) ∧ ¬ c.numfun < 1 ∧ ¬ flat c.a c.b c.ndim 1 = true ∧
      ¬ c.maxpts < 3 * (ruleLen (keyf c.key c.ndim) c.ndim).1 ∧ ¬ c.maxpts < c.minpts ∧ ¬ (c.epsabs < 0 ∧ c.epsrel < 0) ∧
      ¬ c.nw < ((c.maxpts - (ruleLen (keyf c.key c.ndim) c.ndim).1).tdiv (2 * (ruleLen (keyf c.key c.ndim) c.ndim).1) + 1) * (2 * c.ndim + 2 * c.numfun + 2) + 17 * 1 * c.numfun + 1 ∧
      ¬ (c.restar ≠ 0 ∧ c.restar ≠ 1) ∧ True := by
    unfold dchhre
    refine step (step (step (step (step (step (step (step (step (step (step ?_))))))))))
    simp
  rw [key]
  by_cases hn : 2 ≤ c.ndim
  · have h0 := ruleLen_pos (keyf c.key c.ndim) hn
    generalize (ruleLen (keyf c.key c.ndim) c.ndim).1 = N at *
    have hfl : ¬ flat c.a c.b c.ndim 1 = true ↔ ∀ j, 1 ≤ j → j ≤ c.ndim → c.a j ≠ c.b j := by
      rw [Bool.not_eq_true, flat_eq]
      constructor
      · intro h j j1 j2; exact h j j1 (by omega)
      · intro h j j1 j2; exact h j j1 (by omega)
    have heps : ¬ (c.epsabs < 0 ∧ c.epsrel < 0) ↔ 0 ≤ c.epsabs ∨ 0 ≤ c.epsrel := by
      rw [not_and_or, not_lt, not_lt]
    rw [hfl, heps]
    by_cases h3 : 3 * N ≤ c.maxpts
    · have k1 : (c.maxpts - N).tdiv (2 * N) = (c.maxpts - N) / (2 * N) := Int.tdiv_eq_ediv_of_nonneg (by omega)
      rw [k1]
      generalize ((c.maxpts - N) / (2 * N) + 1) * (2 * (c.ndim : ℤ) + 2 * c.numfun + 2) = Z
      constructor
      · rintro ⟨a1, a2, a3, a4, a5, a6, a7, a8, a9, a10, a11, -⟩
        exact ⟨by omega, by omega, by omega, by omega, by omega, a6, h3, by omega, a9, by omega, by omega⟩
      · rintro ⟨a1, a2, a3, a4, a5, a6, a7, a8, a9, a10, a11⟩
        exact ⟨by omega, by omega, by omega, by omega, by omega, a6, by omega, by omega, a9, by omega, by omega, trivial⟩
    · constructor
      · rintro ⟨a1, a2, a3, a4, a5, a6, a7, -⟩; omega
      · rintro ⟨a1, a2, a3, a4, a5, a6, a7, -⟩; omega
  · constructor
    · rintro ⟨a1, a2, -⟩; omega
    · rintro ⟨a1, a2, -⟩; omega

/-! ## Where C102 fails -/

/-- A rule for the witnesses: the value is the square of the area, and the error is 5 for halves of a square of width two and 2 for other boxes. -/
def rule₁ : ℤ → Box ℚ → Out ℚ := fun _ b => ⟨fun _ => 16 * (b.width 1 * b.width 2) ^ 2, fun _ => if b.width 1 = 1 / 2 ∧ b.width 2 = 1 then 5 else 2, 1⟩

/-- The witness rule meets the hypotheses of the theorems. -/
theorem rule₁_good (n : ℕ) (hn : 1 ≤ n) (i : ℤ) : Good n (rule₁ i) := by
  intro b _
  refine ⟨fun j => ?_, le_rfl, hn⟩
  unfold rule₁
  dsimp only
  split_ifs <;> norm_num

/-- A region for memory that is not set. -/
def rg₀ : Rg ℚ := ⟨0, 0, fun _ => 0, fun _ => 0, ⟨fun _ => 0, fun _ => 0⟩⟩

/-- A call for the box with limits -1 and 1, the first axis reversed if `rev`, with at most `maxpts` evaluations. -/
def call₁ (rev : Bool) (minpts maxpts restar : ℤ) (epsabs epsrel : ℚ) : Call ℚ :=
  ⟨2, 1, fun j => if rev ∧ j = 1 then 1 else -1, fun j => if rev ∧ j = 1 then -1 else 1, minpts, maxpts, epsabs, epsrel, 1, 1000, restar⟩

/-- What the witnesses are about: `IFAIL`, `NSUB`, `NEVAL`, `RESULT(1)` and `ABSERR(1)`. -/
def shown (o : Option (ℕ ⊕ Ans ℚ)) : Option (ℕ × ℕ × ℕ × ℚ × ℚ) :=
  match o with
  | some (.inr o) => some (o.ifail, o.nsub, o.neval, o.res 1, o.abserr 1)
  | _ => none

/-- The answer of a run, if there is one. -/
def answer (o : Option (ℕ ⊕ Ans ℚ)) : Ans ℚ :=
  match o with
  | some (.inr o) => o
  | _ => ⟨fun _ => 0, fun _ => 0, 0, 0, 0, fun _ => rg₀⟩

/-- C102, the part that fails.  A run ends with `IFAIL` 1, since its error 10 is above the tolerance 8; it is restarted from Python, and ends with `IFAIL` 0, though its error 9 is above the tolerance 6 (`EPSREL` is one and `RESULT` is 6; the running
total of the errors began at zero, so that it was -1). -/
theorem C102_violated_python_restart :
    let first := dcuhre 9 (call₁ false 0 200 0 0 1) rule₁ 0 0 (fun _ => rg₀)
    shown first = some (1, 2, 195, 8, 10) ∧ shown (pyRestart 9 (call₁ false 0 400 1 0 1) rule₁ 0 0 (answer first).heap (answer first).nsub (answer first).res) = some (0, 3, 130, 6, 9) := by
  decide +kernel

/-- C102, the part that fails.  The first limits are reversed, so that the sign is -1.  A run ends with `IFAIL` 1; it is restarted with all the values it left, and ends with `IFAIL` 0, though its error 9 is above the tolerance 6: `RESULT`
was passed on with its sign, while the values of the regions that are added to it are without it. -/
theorem C102_violated_reversed_restart :
    let first := dcuhre 9 (call₁ true 0 200 0 0 1) rule₁ 0 0 (fun _ => rg₀)
    shown first = some (1, 2, 195, -8, 10) ∧
    shown (dcuhreRestart 9 (call₁ true 0 400 1 0 1) rule₁ 0 0 (answer first).heap (answer first).nsub (answer first).res (answer first).abserr (answer first).neval) = some (0, 3, 325, -6, 9) := by
  decide +kernel

/-- C102, the part that fails.  With 196 for `MINPTS` and `MAXPTS` there are 195 evaluations, and `IFAIL` is 1 although the error, 10, is far below the tolerance. -/
theorem C102_violated_minpts : shown (dcuhre 9 (call₁ false 196 196 0 1000 1) rule₁ 0 0 (fun _ => rg₀)) = some (1, 2, 195, 8, 10) := by
  decide +kernel

/-! ## The hypotheses are met -/

theorem answer_eq {o : Option (ℕ ⊕ Ans ℚ)} (h : (shown o).isSome = true) : o = some (.inr (answer o)) := by
  rcases o with _ | (i | o)
  · simp [shown] at h
  · simp [shown] at h
  · rfl

/-- A run with several divisions that ends with `IFAIL` 0. -/
example : shown (dcuhre 9 (call₁ false 300 900 0 12 0) rule₁ 0 0 (fun _ => rg₀)) = some (0, 3, 325, 6, 9) := by
  decide +kernel

/-- A run that is restarted, with reversed limits (`C102_partition`, `C102_additive`, `C102_sums`), and the hypotheses on the rule. -/
example : (∃ o, Left (call₁ true 0 200 0 0 1) rule₁ 0 0 o ∧ o.nsub = 3) ∧ (∀ i, Good 2 (rule₁ i)) ∧ sign 2 (call₁ true 0 200 0 0 1).a (call₁ true 0 200 0 0 1).b = -1 := by
  refine ⟨⟨_, .again (c' := call₁ true 0 400 1 0 1) (fuel := 9) (o := answer (dcuhre 9 (call₁ true 0 200 0 0 1) rule₁ 0 0 (fun _ => rg₀))) (res := fun _ => 0) (abserr := fun _ => 0) (neval := 0)
    (.fresh (c' := call₁ true 0 200 0 0 1) (fuel := 9) (mem := fun _ => rg₀) ⟨rfl, rfl, rfl, rfl, rfl⟩ (answer_eq (by decide +kernel))) ⟨rfl, rfl, rfl, rfl, rfl⟩ (answer_eq (by decide +kernel)), by decide +kernel⟩,
    rule₁_good 2 (by norm_num), by decide +kernel⟩

/-- A restart as in `C102_restart_partial`. -/
example : let o := answer (dcuhre 9 (call₁ false 0 200 0 0 1) rule₁ 0 0 (fun _ => rg₀))
    Left (call₁ false 0 200 0 0 1) rule₁ 0 0 o ∧ (o.neval : ℤ) = (ruleLen (keyf 1 2) 2).1 * (2 * o.nsub - 1) ∧ Same (call₁ false 0 200 0 0 1) (call₁ false 0 900 1 8 0) ∧
    sign 2 (call₁ false 0 200 0 0 1).a (call₁ false 0 200 0 0 1).b = 1 ∧
    shown (dcuhreRestart 9 (call₁ false 0 900 1 8 0) rule₁ 0 0 o.heap o.nsub o.res o.abserr o.neval) = some (0, 4, 455, 4, 8) :=
  ⟨.fresh (c' := call₁ false 0 200 0 0 1) (fuel := 9) (mem := fun _ => rg₀) ⟨rfl, rfl, rfl, rfl, rfl⟩ (answer_eq (by decide +kernel)), by decide +kernel, ⟨rfl, rfl, rfl, rfl, rfl⟩, by decide +kernel, by decide +kernel⟩

/-- A state of the loop after a division, in which the first region is to be divided. -/
example : let g : Args ℚ := ⟨2, 1, fun _ => -1, fun _ => 1, 2, 9, 0, 0, 65, rule₁ 1, 1, 1⟩
    ∃ s, Reach g (fun _ => rg₀) s ∧ s.n = 2 :=
  ⟨_, .split .start (by decide +kernel), by decide +kernel⟩

/-- Calls that pass the checks (`C102_work`, `C102_work2`, `C102_checks`). -/
example : ∃ p, dchhre (call₁ true 0 200 0 0 1) = .inr p := by
  rw [C102_checks]
  refine ⟨by decide +kernel, by decide +kernel, by decide +kernel, by decide +kernel, by decide +kernel, ?_, by decide +kernel, by decide +kernel, by decide +kernel, by decide +kernel, by decide +kernel⟩
  intro j h1 h2
  simp only [call₁] at *
  by_cases hj : j = 1
  · subst hj; norm_num
  · simp only [hj]; norm_num

end Verif.Dcuhre
