import Verif.Pie.GridLemmas

/-!
# C06, C07, C08: evaluation on the grid of stepping parameters
-/

set_option linter.unusedSectionVars false
set_option linter.unusedSimpArgs false

namespace Verif.Pie
variable {K : Type} [Field K] [LinearOrder K]

theorem placed_read {c : Cfg K} {s0 s : Inf K} {l ns : List ℕ} (hr : Ready s0 l ns) {cs : List (ℕ × Dir)}
    (hp : Placed s0 s l cs) {j : ℕ} (hj : j ∈ l) :
    ∃ hd, s0.h j = some hd ∧
      s.read c j = hd.pt (((cs.map Prod.fst).map (fun p : ℕ => (p : ℤ))).getD (l.idxOf j) 0) := by
  induction hp generalizing ns with
  | nil => simp at hj
  | @cons i c l cs h1 h2 ih =>
    cases hr with
    | cons hr1 hr2 =>
      by_cases hij : i = j
      · subst hij
        obtain ⟨hd, hh, _⟩ := hr1
        refine ⟨hd, hh, ?_⟩
        have : s.h i = some (hd.at (c.1 : ℤ)) := by rw [h1.1, hh]; rfl
        simp [Inf.read, this]
      · rcases List.mem_cons.mp hj with rfl | hj
        · exact absurd rfl hij
        · obtain ⟨hd, hh, e⟩ := ih hr2 hj
          refine ⟨hd, hh, ?_⟩
          rw [e, List.idxOf_cons_ne _ hij]
          simp

theorem pt_eq_gridPoint {s : Inf K} {j : ℕ} {hd : Handler K} (hh : s.h j = some hd) (hp : hd.proper) (k : ℤ) :
    hd.pt k = s.gridPoint j k := by
  unfold Inf.gridPoint Handler.pt
  rw [hh]
  dsimp only
  unfold Handler.proper at hp
  cases hty : hd.stype <;> rw [hty] at hp
  simp [linPoint, hp.2]

/-- What the hypotheses of the grid theorems give. -/
theorem start_facts [IsStrictOrderedRing K] {s : Inf K} (hinv : Inv s)
    (hp : s.allProper) (h0 : s.atStart) :
    Ready s s.stepping s.dims ∧ Placed s s s.stepping (cellAt s.dims 0) ∧
    s.stepShape = s.dims.map (fun n : ℕ => (n : ℤ)) := by
  have hws : ∀ i ∈ s.stepping, ∃ hd, s.h i = some hd ∧ WS hd := by
    intro i hi
    obtain ⟨hd, hh, e1, e2, _⟩ := h0 i hi
    refine ⟨hd, hh, (hp i hi hd hh).ws ?_ e1 e2⟩
    rw [← status_eq_of_h hh]
    exact (hinv.mem_stepping i).mp hi
  have hr : Ready s s.stepping s.dims := ready_of_ws _ hws
  refine ⟨hr, placed_zero _ _ hr fun i hi => ?_, hr.shape⟩
  obtain ⟨hd, hh, e1, e2, e3⟩ := h0 i hi
  exact ⟨hd, hh, e1, e3⟩

theorem kept_atCell {c : Cfg K} {s t : Inf K} (hinv : Inv s) (hp : s.allProper)
    (hr : Ready s s.stepping s.dims) {r : ℕ} (hk : Kept c s t) (hpl : Placed s t s.stepping (cellAt s.dims r)) (j : ℕ)
    (hj : j ∉ s.varying) : t.read c j = s.atCell c (cellIx s.dims r) j := by
  unfold Inf.atCell
  by_cases hm : j ∈ s.stepping
  · rw [if_pos hm]
    obtain ⟨hd, hh, e⟩ := placed_read (c := c) hr hpl hm
    rw [e, pt_eq_gridPoint hh (hp j hm hd hh)]
    rfl
  · rw [if_neg hm]
    refine hk.read j ?_ ?_
    · rw [hinv.mem_varying] at hj; exact hj
    · rw [hinv.mem_stepping] at hm; exact hm

theorem find_trace {ns : List ℕ} (hns : ∀ n ∈ ns, 1 ≤ n) {r m : ℕ} (hrm : r + m = ns.prod) {new : List (List ℤ × K)}
    (hlen : new.length = m)
    (hnew : ∀ k (hk : k < new.reverse.length), (new.reverse[k]).1 = cellIx ns (r + k)) (k : ℕ) (hk : k < m) :
    ((new.find? fun p => decide (p.1 = cellIx ns (r + k))).map Prod.snd) =
      some (new.reverse[k]'(by simpa [hlen] using hk)).2 := by
  have hnd : ∀ p ∈ new, p.1 = cellIx ns (r + k) → p = new.reverse[k]'(by simpa [hlen] using hk) := by
    intro p hp e
    obtain ⟨k', hk', rfl⟩ := List.getElem_of_mem (List.mem_reverse.mpr hp)
    have h1 := hnew k' hk'
    rw [e] at h1
    have hk'' : k' < m := by simpa [hlen] using hk'
    have := cellIx_inj hns (by omega) (by omega) h1
    have : k = k' := by omega
    subst this; rfl
  have hmem : new.reverse[k]'(by simpa [hlen] using hk) ∈ new := List.mem_reverse.mp (List.getElem_mem _)
  cases hf : new.find? fun p => decide (p.1 = cellIx ns (r + k)) with
  | none =>
    rw [List.find?_eq_none] at hf
    exact absurd (by rw [hnew k (by simpa [hlen] using hk)]; simp) (hf _ hmem)
  | some p =>
    have h1 := List.find?_some hf
    have h2 := List.mem_of_find?_eq_some hf
    simp only [decide_eq_true_eq] at h1
    rw [hnd p h2 h1]
    rfl

theorem eval_score (e : GridEnv K) {t : Inf K} (ht : Inv t) (hv : t.varying = []) (n : ℕ) :
    (e.eval n t).2 = .ok (e.score (t.read e.cfg), []) := by
  have h1 := accessAll_ok e.cfg e.cfg.params ht
  have h2 := accessAll_calm e.cfg e.cfg.params ht
  unfold GridEnv.eval
  rw [if_neg (by simp [hv])]
  have : Inf.accessAll e.cfg e.cfg.params t = ((Inf.accessAll e.cfg e.cfg.params t).1, none) := Prod.ext rfl h1
  rw [this]
  dsimp only
  congr 3
  funext j
  refine h2.read j ?_
  rw [ne_eq, ← ht.mem_varying, hv]
  simp

/-- The state and results of a grid evaluation that starts at the start of the grid after `r` successful steps. -/
theorem doGrid_facts [IsStrictOrderedRing K] (e : GridEnv K) (vargrid : Bool) (s : Inf K) (hinv : Inv s)
    (hne : s.stepping ≠ []) (hp : s.allProper) (h0 : s.atStart) (r : ℕ) (hlt : r < s.gridSize) (fuel : ℕ)
    (hf : s.gridSize - r ≤ fuel) :
    ∃ s' g x, gridLoop e vargrid s.stepShape fuel 0 (s.nexts r) {} = some (s', g, x) ∧
      Consistent e.maximize (decide (s.varying ≠ [])) vargrid g ∧
      (x = none → Kept e.cfg s s' ∧ (∀ j ∈ s.stepping, s'.h j = s.h j ∧ s'.info j = some .next) ∧
        g.evals.length = s.gridSize - r ∧
        (∀ k (hk : k < g.evals.reverse.length), ∃ t v p, Kept e.cfg s t ∧
            Placed s t s.stepping (cellAt s.dims (r + k)) ∧ (e.eval k t).2 = .ok (v, p) ∧
            g.evals.reverse[k] = (cellIx s.dims (r + k), v))) ∧
      (x ≠ none → ∃ k t, Kept e.cfg s t ∧ (e.eval k t).2 = .error (x.getD .param)) := by
  obtain ⟨hr, hpl, hshape⟩ := start_facts hinv hp h0
  have hlt' : r < s.dims.prod := hlt
  obtain ⟨h1, h2, h3, _, _⟩ := nexts_placed hinv hne hr hpl r hlt'
  have hkept : Kept e.cfg s (s.nexts r) := (Kept.refl hinv).sameOff hinv h3 h2
  have hsize : s.gridSize = s.dims.prod := rfl
  obtain ⟨s', g, x, a1, a2, a3, a4⟩ := gridLoop_spec e vargrid hinv hr hne (s.gridSize - r) r (s.nexts r) {} 0 fuel
    (by omega) (by omega) hf hkept h1 (Consistent.empty _ _ _)
  refine ⟨s', g, x, by rw [hshape]; exact a1, a2, fun hx => ?_, fun hx => ?_⟩
  · obtain ⟨b1, b2, new, b3, b4, b5⟩ := a3 hx
    have hnew : g.evals = new := by rw [b3]; exact List.append_nil _
    subst hnew
    refine ⟨b1, fun j hj => ⟨?_, (b2 j hj).2⟩, b4, fun k hk => ?_⟩
    · rw [(b2 j hj).1]
      obtain ⟨hd, hh, e1, e2, _⟩ := h0 j hj
      rw [hh, Option.map_some]
      congr 1
      unfold Handler.rst
      rw [← e1, ← e2]
    · obtain ⟨t, v, p, c1, c2, c3, c4⟩ := b5 k hk
      exact ⟨t, v, p, c1, c2, by simpa using c3, c4⟩
  · obtain ⟨k, t, _, b2, b3⟩ := a4 hx
    exact ⟨k, t, b2, by simpa using b3⟩

theorem shape_nonneg [IsStrictOrderedRing K] {s : Inf K} (hinv : Inv s) (hp : s.allProper) (h0 : s.atStart) :
    ¬ ∃ n ∈ s.stepShape, n < 0 := by
  obtain ⟨_, _, hshape⟩ := start_facts hinv hp h0
  rintro ⟨n, hn, hlt⟩
  rw [hshape] at hn
  obtain ⟨m, _, rfl⟩ := List.mem_map.mp hn
  omega

/-- **C07, what does hold** (a full characterisation). With nothing varying, `do_grid()` called after `r` steps of the
traversal ends without an exception and fills exactly the cells not yet visited, each with the score at that cell's
parameter values; the cells visited before the call stay NaN. For `r = 0` this is C06.
Missing: the cells visited before the call (`C07_violated`). -/
theorem C07_fills_the_rest_partial [IsStrictOrderedRing K] (e : GridEnv K) (s : Inf K) (hs : Reachable e.cfg s)
    (hne : s.stepping ≠ []) (hp : s.allProper) (h0 : s.atStart) (hv : s.varying = []) (r : ℕ) (hlt : r < s.gridSize)
    (fuel : ℕ) (hf : s.gridSize - r ≤ fuel) :
    ∃ s' g, doGrid e false fuel (s.nexts r) = some (s', g, none) ∧
      (∀ k, k < s.gridSize → g.values (s.nexts k).stepNums =
        if k < r then none else some (e.score (s.atCell e.cfg (s.nexts k).stepNums))) := by
  have hinv := hs.inv
  obtain ⟨hr, hpl, hshape⟩ := start_facts hinv hp h0
  have hsize : s.gridSize = s.dims.prod := rfl
  have hn : ∀ k, k < s.gridSize → (s.nexts k).stepNums = cellIx s.dims k ∧ (s.nexts k).stepShape = s.stepShape := by
    intro k hk
    obtain ⟨h1, h2, _⟩ := nexts_placed hinv hne hr hpl k hk
    have e1 : (s.nexts k).stepping = s.stepping := h2.stepping
    refine ⟨?_, ?_⟩
    · unfold Inf.stepNums
      rw [e1]
      exact Placed.stepNums hr h1
    · unfold Inf.stepShape
      rw [e1]
      have h1' : Placed s (s.nexts k) s.stepping (cellAt s.dims k) := h1
      clear h1 hlt hf hpl hshape h2 e1 h0 hp hne hk
      generalize cellAt s.dims k = cs at h1'
      generalize s.stepping = l at h1'
      induction h1' with
      | nil => rfl
      | @cons i c l cs a b ih =>
        rw [List.filterMap_cons, List.filterMap_cons, ih, a.1]
        cases s.h i <;> rfl
  obtain ⟨s', g, x, a1, a2, a3, a4⟩ := doGrid_facts e false s hinv hne hp h0 r hlt fuel hf
  have hx : x = none := by
    by_contra hx
    obtain ⟨k, t, b1, b2⟩ := a4 hx
    rw [eval_score e b1.inv (b1.varying.trans hv)] at b2
    simp at b2
  subst hx
  obtain ⟨b1, b2, b3, b4⟩ := a3 rfl
  refine ⟨s', g, ?_, fun k hk => ?_⟩
  · unfold doGrid
    rw [(hn r hlt).2, if_neg (shape_nonneg hinv hp h0), a1]
    simp
  · rw [(hn k hk).1, a2.vals]
    have hkeys : ∀ k (hk : k < g.evals.reverse.length), (g.evals.reverse[k]).1 = cellIx s.dims (r + k) := by
      intro k hk
      obtain ⟨t, v, p, _, _, _, c4⟩ := b4 k hk
      rw [c4]
    by_cases hkr : k < r
    · rw [if_pos hkr]
      cases hfind : g.evals.find? fun p => decide (p.1 = cellIx s.dims k) with
      | none => rfl
      | some p =>
        exfalso
        have h1 := List.find?_some hfind
        have h2 := List.mem_of_find?_eq_some hfind
        simp only [decide_eq_true_eq] at h1
        obtain ⟨k', hk', rfl⟩ := List.getElem_of_mem (List.mem_reverse.mpr h2)
        rw [hkeys k' hk'] at h1
        have hk'' : k' < s.gridSize - r := by simpa [b3] using hk'
        have := cellIx_inj hr.pos (by omega) (by omega) h1
        omega
    · rw [if_neg hkr]
      obtain ⟨k', rfl⟩ : ∃ k', k = r + k' := ⟨k - r, by omega⟩
      rw [find_trace hr.pos (m := s.gridSize - r) (by omega) b3 hkeys k' (by omega)]
      obtain ⟨t, v, p, c1, c2, c3, c4⟩ := b4 k' (by simp [b3]; omega)
      rw [c4]
      rw [eval_score e c1.inv (c1.varying.trans hv)] at c3
      simp only [Except.ok.injEq, Prod.mk.injEq] at c3
      rw [← c3.1]
      show some (e.score _) = some (e.score _)
      congr 2
      funext j
      exact kept_atCell hinv hp hr c1 c2 j (by simp [hv])

/-- **C06.** `do_grid()` started at the first grid point, with nothing varying: it ends without an exception; every
cell of the grid holds the score at that cell's parameter values; the score was evaluated once per cell; and afterwards
every parameter reads as before and the grid is at its start again. -/
theorem C06_grid_filled [IsStrictOrderedRing K] (e : GridEnv K) (s : Inf K) (hs : Reachable e.cfg s)
    (hne : s.stepping ≠ []) (hp : s.allProper) (h0 : s.atStart) (hv : s.varying = [])
    (fuel : ℕ) (hf : s.gridSize ≤ fuel) :
    ∃ s' g, doGrid e false fuel s = some (s', g, none) ∧
      (∀ t, inGrid t s.stepShape → g.values t = some (e.score (s.atCell e.cfg t))) ∧
      g.evals.length = s.gridSize ∧ (∀ t, inGrid t s.stepShape → (g.evals.map Prod.fst).count t = 1) ∧
      (∀ j, s'.read e.cfg j = s.read e.cfg j) ∧ s'.stepping = s.stepping ∧ s'.atStart := by
  have hinv := hs.inv
  obtain ⟨hr, hpl, hshape⟩ := start_facts hinv hp h0
  have hsize : s.gridSize = s.dims.prod := rfl
  have hpos : 0 < s.gridSize := hr.prod_pos
  obtain ⟨s', g, x, a1, a2, a3, a4⟩ := doGrid_facts e false s hinv hne hp h0 0 hpos fuel (by omega)
  have hx : x = none := by
    by_contra hx
    obtain ⟨k, t, b1, b2⟩ := a4 hx
    rw [eval_score e b1.inv (b1.varying.trans hv)] at b2
    simp at b2
  subst hx
  obtain ⟨b1, b2, b3, b4⟩ := a3 rfl
  have hkeys : ∀ k (hk : k < g.evals.reverse.length), (g.evals.reverse[k]).1 = cellIx s.dims (0 + k) := by
    intro k hk
    obtain ⟨t, v, p, _, _, _, c4⟩ := b4 k hk
    rw [c4]
  have hget : ∀ k, k < s.gridSize → g.values (cellIx s.dims k) = some (e.score (s.atCell e.cfg (cellIx s.dims k))) := by
    intro k hk
    rw [a2.vals]
    have := find_trace hr.pos (m := s.gridSize - 0) (by omega) b3 hkeys k (by omega)
    rw [zero_add] at this
    rw [this]
    obtain ⟨t, v, p, c1, c2, c3, c4⟩ := b4 k (by simp [b3]; omega)
    rw [c4]
    rw [eval_score e c1.inv (c1.varying.trans hv)] at c3
    simp only [Except.ok.injEq, Prod.mk.injEq] at c3
    rw [← c3.1]
    show some (e.score _) = some (e.score _)
    congr 2
    funext j
    rw [zero_add] at c2
    exact kept_atCell hinv hp hr c1 c2 j (by simp [hv])
  refine ⟨s', g, ?_, fun t ht => ?_, by simpa using b3, fun t ht => ?_, fun j => ?_, b1.stepping, fun j hj => ?_⟩
  · unfold doGrid
    have a1' : gridLoop e false s.stepShape fuel 0 s {} = some (s', g, none) := a1
    rw [if_neg (shape_nonneg hinv hp h0), a1']
    simp
  · rw [hshape] at ht
    obtain ⟨r, hr1, rfl⟩ := cellIx_surj ht
    exact hget r hr1
  · rw [hshape] at ht
    obtain ⟨r, hr1, rfl⟩ := cellIx_surj ht
    have hnd : (g.evals.map Prod.fst).Nodup := by
      rw [← List.nodup_reverse, ← List.map_reverse]
      rw [List.nodup_iff_injective_getElem]
      intro ⟨k, hk⟩ ⟨k', hk'⟩ he
      simp only [List.getElem_map] at he
      simp only [List.length_map] at hk hk'
      rw [hkeys k hk, hkeys k' hk'] at he
      simp only [List.length_reverse, b3] at hk hk'
      have := cellIx_inj hr.pos (by omega) (by omega) he
      exact Fin.ext (by simpa using this)
    refine List.count_eq_one_of_mem hnd ?_
    have h1 : r < g.evals.reverse.length := by simp [b3]; omega
    refine List.mem_map.mpr ⟨g.evals.reverse[r], List.mem_reverse.mp (List.getElem_mem _), ?_⟩
    rw [hkeys r h1, zero_add]
  · by_cases hj : j ∈ s.stepping
    · exact read_of_h (b2 j hj).1
    · refine b1.read j ?_ ?_
      · rw [ne_eq, ← hinv.mem_varying, hv]; simp
      · rw [ne_eq, ← hinv.mem_stepping]; exact hj
  · rw [b1.stepping] at hj
    obtain ⟨hd, hh, e1, e2, e3⟩ := h0 j hj
    exact ⟨hd, (b2 j hj).1.trans hh, e1, e2, (b2 j hj).2⟩

/-- **C06, with varying parameters.** If `do_grid()` started at the first grid point returns, every cell holds the
extremum reported by an `optimize` call made with all parameters that are not varying at that cell's values, and
afterwards the stepping parameters are back at their first steps and every parameter that is not varying reads as
before. If it raises, some `optimize` call raised that exception. It always ends. -/
theorem C06_profile_grid [IsStrictOrderedRing K] (e : GridEnv K) (s : Inf K) (hs : Reachable e.cfg s)
    (hne : s.stepping ≠ []) (hp : s.allProper) (h0 : s.atStart) (hv : s.varying ≠ []) (vargrid : Bool)
    (fuel : ℕ) (hf : s.gridSize ≤ fuel) :
    ∃ s' g x, doGrid e vargrid fuel s = some (s', g, x) ∧
      (x = none →
        (∀ t, inGrid t s.stepShape → ∃ n u v p, (∀ j, j ∉ s.varying → u.read e.cfg j = s.atCell e.cfg t j) ∧
          (e.eval n u).2 = .ok (v, p) ∧ g.values t = some v) ∧
        g.evals.length = s.gridSize ∧
        (∀ j, j ∉ s.varying → s'.read e.cfg j = s.read e.cfg j) ∧ s'.stepping = s.stepping ∧ s'.atStart) ∧
      (x ≠ none → ∃ n u, (e.eval n u).2 = .error (x.getD .param)) := by
  have hinv := hs.inv
  obtain ⟨hr, hpl, hshape⟩ := start_facts hinv hp h0
  have hsize : s.gridSize = s.dims.prod := rfl
  have hpos : 0 < s.gridSize := hr.prod_pos
  obtain ⟨s', g, x, a1, a2, a3, a4⟩ := doGrid_facts e vargrid s hinv hne hp h0 0 hpos fuel (by omega)
  have a1' : gridLoop e vargrid s.stepShape fuel 0 s {} = some (s', g, x) := a1
  refine ⟨s', g, x, ?_, fun hx => ?_, fun hx => ?_⟩
  · unfold doGrid
    rw [if_neg (shape_nonneg hinv hp h0), a1']
    cases x with
    | some x => simp
    | none =>
      obtain ⟨b1, b2, b3, b4⟩ := a3 rfl
      have : g.opt ≠ none := by
        intro ho
        have := a2.opt_none (by simp [hv]) ho
        rw [this] at b3
        simp at b3
        omega
      simp [this]
  · obtain ⟨b1, b2, b3, b4⟩ := a3 hx
    have hkeys : ∀ k (hk : k < g.evals.reverse.length), (g.evals.reverse[k]).1 = cellIx s.dims (0 + k) := by
      intro k hk
      obtain ⟨t, v, p, _, _, _, c4⟩ := b4 k hk
      rw [c4]
    refine ⟨fun t ht => ?_, by simpa using b3, fun j hj => ?_, b1.stepping, fun j hj => ?_⟩
    · rw [hshape] at ht
      obtain ⟨r, hr1, rfl⟩ := cellIx_surj ht
      have hfind := find_trace hr.pos (m := s.gridSize - 0) (by omega) b3 hkeys r (by omega)
      obtain ⟨t, v, p, c1, c2, c3, c4⟩ := b4 r (by simp [b3]; omega)
      rw [zero_add] at hfind c2
      refine ⟨r, t, v, p, fun j hj => kept_atCell hinv hp hr c1 c2 j hj, c3, ?_⟩
      rw [a2.vals, hfind, c4]
    · by_cases hj' : j ∈ s.stepping
      · exact read_of_h (b2 j hj').1
      · refine b1.read j ?_ ?_
        · rw [ne_eq, ← hinv.mem_varying]; exact hj
        · rw [ne_eq, ← hinv.mem_stepping]; exact hj'
    · rw [b1.stepping] at hj
      obtain ⟨hd, hh, e1, e2, e3⟩ := h0 j hj
      exact ⟨hd, (b2 j hj).1.trans hh, e1, e2, (b2 j hj).2⟩
  · obtain ⟨k, t, _, b⟩ := a4 hx
    exact ⟨k, t, b⟩

/-- **C08.** With varying parameters, if `do_grid()` started at the first grid point returns, the reported optimum is
in the returned grid at the reported index, no cell of the grid is better, and every cell visited before that index is
strictly worse: it is the first optimum visited. -/
theorem C08_profile_optimum [IsStrictOrderedRing K] (e : GridEnv K) (s : Inf K) (hs : Reachable e.cfg s)
    (hne : s.stepping ≠ []) (hp : s.allProper) (h0 : s.atStart) (hv : s.varying ≠ []) (vargrid : Bool)
    (fuel : ℕ) (hf : s.gridSize ≤ fuel) (s' : Inf K) (g : GridState K)
    (hret : doGrid e vargrid fuel s = some (s', g, none)) :
    ∃ v t, g.opt = some (v, t) ∧ inGrid t s.stepShape ∧ g.values t = some v ∧
      (∀ t' w, g.values t' = some w → if e.maximize then w ≤ v else v ≤ w) ∧
      ∃ r, r < s.gridSize ∧ (s.nexts r).stepNums = t ∧
        ∀ k, k < r → ∃ w, g.values (s.nexts k).stepNums = some w ∧ if e.maximize then w < v else v < w := by
  have hinv := hs.inv
  obtain ⟨hr, hpl, hshape⟩ := start_facts hinv hp h0
  have hsize : s.gridSize = s.dims.prod := rfl
  have hpos : 0 < s.gridSize := hr.prod_pos
  obtain ⟨s1, g1, x, a1, a2, a3, a4⟩ := doGrid_facts e vargrid s hinv hne hp h0 0 hpos fuel (by omega)
  have a1' : gridLoop e vargrid s.stepShape fuel 0 s {} = some (s1, g1, x) := a1
  unfold doGrid at hret
  rw [if_neg (shape_nonneg hinv hp h0), a1'] at hret
  obtain ⟨hx, hg⟩ : x = none ∧ g1 = g := by
    cases x with
    | some x => simp at hret
    | none =>
      simp only [Option.map_some, Option.some.injEq] at hret
      split_ifs at hret
      · simp at hret
      · simp only [Prod.mk.injEq] at hret; exact ⟨rfl, hret.2.1⟩
  subst hx hg
  obtain ⟨b1, b2, b3, b4⟩ := a3 rfl
  have hkeys : ∀ k (hk : k < g1.evals.reverse.length), (g1.evals.reverse[k]).1 = cellIx s.dims (0 + k) := by
    intro k hk
    obtain ⟨t, v, p, _, _, _, c4⟩ := b4 k hk
    rw [c4]
  have hn : ∀ k, k < s.gridSize → (s.nexts k).stepNums = cellIx s.dims k := by
    intro k hk
    obtain ⟨h1, h2, _⟩ := nexts_placed hinv hne hr hpl k hk
    have e1 : (s.nexts k).stepping = s.stepping := h2.stepping
    unfold Inf.stepNums
    rw [e1]
    exact Placed.stepNums hr h1
  obtain ⟨v, t, hopt⟩ : ∃ v t, g1.opt = some (v, t) := by
    cases ho : g1.opt with
    | none =>
      have := a2.opt_none (by simp [hv]) ho
      rw [this] at b3
      simp at b3
      omega
    | some o => exact ⟨o.1, o.2, rfl⟩
  obtain ⟨later, earlier, c1, c2, c3⟩ := a2.opt_some v t hopt
  have hlen : later.length + 1 + earlier.length = s.gridSize := by
    rw [← Nat.sub_zero s.gridSize, ← b3, c1]; simp; omega
  have hrev : g1.evals.reverse = earlier.reverse ++ (t, v) :: later.reverse := by rw [c1]; simp
  have hvalk : ∀ k (hk : k < s.gridSize), g1.values (cellIx s.dims k) =
      some (g1.evals.reverse[k]'(by simp [b3]; omega)).2 := by
    intro k hk
    have := find_trace hr.pos (m := s.gridSize - 0) (by omega) b3 hkeys k (by omega)
    rw [zero_add] at this
    rw [a2.vals, this]
  have ht : t = cellIx s.dims earlier.length := by
    have := hkeys earlier.length (by simp [b3]; omega)
    rw [zero_add] at this
    rw [← this]
    simp [hrev]
  have hlt : earlier.length < s.gridSize := by omega
  refine ⟨v, t, hopt, ?_, ?_, fun t' w hw => ?_, earlier.length, hlt, by rw [hn _ hlt, ht], fun k hk => ?_⟩
  · rw [ht, hshape]; exact cellIx_inGrid hr.pos _
  · rw [ht, hvalk _ hlt]; simp [hrev]
  · rw [a2.vals] at hw
    cases hfind : g1.evals.find? fun p => decide (p.1 = t') with
    | none => rw [hfind] at hw; simp at hw
    | some p =>
      rw [hfind] at hw
      simp only [Option.map_some, Option.some.injEq] at hw
      have hm := List.mem_of_find?_eq_some hfind
      rw [c1] at hm
      subst hw
      rcases List.mem_append.mp hm with hm | hm
      · exact c2 p hm
      · rcases List.mem_cons.mp hm with rfl | hm
        · split_ifs <;> exact le_refl _
        · have := c3 p hm
          split_ifs at this ⊢ <;> exact le_of_lt this
  · have hk' : k < s.gridSize := by omega
    refine ⟨_, by rw [hn k hk', hvalk k hk'], ?_⟩
    apply c3
    have h1 : k < earlier.reverse.length := by simpa using hk
    have : g1.evals.reverse[k]'(by simp [b3]; omega) = earlier.reverse[k] := by
      simp only [hrev]
      exact List.getElem_append_left h1
    rw [this]
    exact List.mem_reverse.mp (List.getElem_mem _)

/-- The environment of the examples: score = 10 x + y, maximise; `optimize` sets parameter 2 to 1/2 and reports its
square plus the sum of the others. -/
def exEnv : GridEnv ℚ where
  cfg := exCfg
  score := fun v => 10 * v 0 + v 1
  opt := fun _ s => ⟨[.score [1 / 2]], none, [1 / 2], 1 / 4 - s.read exCfg 0 + s.read exCfg 1⟩
  maximize := true

/-- Non-vacuity of C06 (whose hypotheses on `exGrid` are shown in `ZigZagProps`), and what the theorem says there. -/
example : exGrid.varying = [] ∧
    ((doGrid exEnv false 6 exGrid).map fun r => [[0, 0], [1, 0], [2, 0], [0, 1], [1, 1], [2, 1]].map r.2.1.values) =
    some [some 5, some 10, some 15, some 6, some 11, some 16] := by decide +kernel

/-- A reachable grid with a varying parameter, for C06 and C08. -/
def exProfile : Inf ℚ := Inf.init.run exCfg
  [.linstep 0 (some 0) (some 1) 3, .vary 2 (some 0) (some 1) (some (0, 1)), .linstep 1 (some 5) (some 6) 2]

example : exProfile.varying = [2] ∧ exProfile.stepping = [0, 1] ∧
    ((doGrid exEnv false 6 exProfile).map fun r => (r.2.1.opt, r.2.2)) = some (some (25 / 4, [0, 1]), none) := by
  decide +kernel

/-- **C07 fails.** A reachable state, properly set up and one step into its grid: `do_grid()` returns normally but
leaves the cell visited before the call NaN, while the same grid from its start has that cell filled. -/
theorem C07_violated :
    ∃ (e : GridEnv ℚ) (s : Inf ℚ), Reachable e.cfg s ∧ s.stepNums = [1, 0] ∧
      ((doGrid e false 6 s).map fun r => (r.2.1.values [0, 0], r.2.2)) = some (none, none) ∧
      ((doGrid e false 6 s.resetSteps.1).map fun r => (r.2.1.values [0, 0], r.2.2)) = some (some 5, none) :=
  ⟨exEnv, Inf.init.run exCfg [.linstep 0 (some 0) (some 1) 3, .get 2, .linstep 1 (some 5) (some 6) 2, .nextStep],
    ⟨_, rfl⟩, by decide +kernel⟩

end Verif.Pie
