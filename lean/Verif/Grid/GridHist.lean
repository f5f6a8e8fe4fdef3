import Verif.Grid.QuadSpec

/-!
# Histories of one-dimensional grids (helper lemmas)
-/

set_option linter.unusedSectionVars false
set_option linter.unusedSimpArgs false

namespace Verif.Grid1

section
variable {K : Type} [Field K] [LinearOrder K] [IsStrictOrderedRing K] [FloorRing K]

/-! ### Linear algebra of the trapezoid rule -/

theorem trapSum_smul (a : K) : ∀ w v : List K, trapSum w (v.map (a * ·)) = a * trapSum w v
  | [], v => by simp [trapSum]
  | _ :: _, [] => by simp [trapSum]
  | _ :: _, [_] => by simp [trapSum]
  | x :: w, y :: z :: v => by
    have := trapSum_smul a w (z :: v)
    simp only [List.map_cons] at this
    simp only [List.map_cons, trapSum, this]
    ring

theorem trapSum_le {ι : Type} (p q : ι → K) : ∀ (w : List K) (l : List ι), (∀ x ∈ w, 0 ≤ x) → (∀ i ∈ l, p i ≤ q i) → trapSum w (l.map p) ≤ trapSum w (l.map q)
  | [], v, _, _ => by simp [trapSum]
  | _ :: _, [], _, _ => by simp [trapSum]
  | _ :: _, [_], _, _ => by simp [trapSum]
  | x :: w, y :: z :: v, hw, hv => by
    have ih := trapSum_le p q w (z :: v) (fun x hx => hw x (by simp [hx])) (fun x hx => hv x (by simp [hx]))
    simp only [List.map_cons] at ih
    simp only [List.map_cons, trapSum]
    have h1 := hw x (by simp)
    have h2 := hv y (by simp)
    have h3 := hv z (by simp)
    have : 1 / 2 * x * (p y + p z) ≤ 1 / 2 * x * (q y + q z) := mul_le_mul_of_nonneg_left (by linarith) (by linarith)
    linarith

theorem trapSum_add {ι : Type} (p q : ι → K) : ∀ (w : List K) (l : List ι), trapSum w (l.map fun i => p i + q i) = trapSum w (l.map p) + trapSum w (l.map q)
  | [], v => by simp [trapSum]
  | _ :: _, [] => by simp [trapSum]
  | _ :: _, [_] => by simp [trapSum]
  | x :: w, y :: z :: v => by
    have ih := trapSum_add p q w (z :: v)
    simp only [List.map_cons] at ih
    simp only [List.map_cons, trapSum, ih]
    ring

theorem trapSum_pos {ι : Type} (p : ι → K) (w : List K) (l : List ι) (hw : ∀ x ∈ w, 0 < x) (hl : ∀ i ∈ l, 0 < p i) (hne : w ≠ []) (h2 : 2 ≤ l.length) :
    0 < trapSum w (l.map p) := by
  match w, l, hne, h2 with
  | x :: w, y :: z :: v, _, _ =>
    have h := trapSum_le (fun _ => 0) p w (z :: v) (fun x hx => le_of_lt (hw x (by simp [hx]))) (fun x hx => le_of_lt (hl x (by simp [hx])))
    have h0 : trapSum w ((z :: v).map fun _ => (0 : K)) = 0 := by
      have := trapSum_smul 0 w ((z :: v).map fun _ => (0 : K))
      rw [List.map_map, zero_mul] at this
      convert this using 3
      funext
      simp
    rw [h0] at h
    simp only [List.map_cons] at h ⊢
    simp only [trapSum]
    have h1 := hw x (by simp)
    have h2 := hl y (by simp)
    have h3 := hl z (by simp)
    have : 0 < 1 / 2 * x * (p y + p z) := mul_pos (by linarith) (by linarith)
    linarith

theorem trapSum_one : ∀ xs : List K, ∀ {ι : Type} (l : List ι) (a : K), l.length = xs.length → trapSum (diffs xs) (l.map fun _ => a) = a * (xs.getLastD 0 - xs.headD 0)
  | [], _, l, a, _ => by simp [diffs, trapSum]
  | [x], _, l, a, _ => by simp [diffs, trapSum]
  | x :: y :: xs, _, u :: v :: l, a, h => by
    have ih := trapSum_one (y :: xs) (v :: l) a (by simpa using h)
    simp only [List.map_cons] at ih
    simp only [List.map_cons, diffs, trapSum, ih]
    simp only [List.headD_cons, List.getLastD_cons]
    ring
  | x :: y :: xs, _, [], a, h => by simp at h
  | x :: y :: xs, _, [_], a, h => by simp at h

theorem diffs_pos : ∀ {xs : List K}, xs.Pairwise (· < ·) → ∀ d ∈ diffs xs, 0 < d
  | [], _, d, h => by simp [diffs] at h
  | [_], _, d, h => by simp [diffs] at h
  | x :: y :: xs, hp, d, h => by
    simp only [diffs, List.mem_cons] at h
    rcases h with rfl | h
    · have := (List.pairwise_cons.mp hp).1 y (by simp)
      exact sub_pos.mpr this
    · exact diffs_pos (List.pairwise_cons.mp hp).2 d h

theorem le_listMax {v : List K} {y : K} (h : y ∈ v) : y ≤ listMax v := by
  cases v with
  | nil => simp at h
  | cons a l =>
    unfold listMax
    have key : ∀ (l : List K) (a : K), a ≤ l.foldl max a ∧ ∀ y ∈ l, y ≤ l.foldl max a := by
      intro l
      induction l with
      | nil => intro a; simp
      | cons b l ih =>
        intro a
        obtain ⟨h1, h2⟩ := ih (max a b)
        refine ⟨le_trans (le_max_left a b) h1, fun y hy => ?_⟩
        rcases List.mem_cons.mp hy with rfl | hy
        · exact le_trans (le_max_right a y) h1
        · exact h2 y hy
    rcases List.mem_cons.mp h with rfl | h
    · exact (key l y).1
    · exact (key l a).2 y h

theorem listMax_mem {v : List K} (h : v ≠ []) : listMax v ∈ v := by
  cases v with
  | nil => exact absurd rfl h
  | cons a l =>
    unfold listMax
    dsimp only
    have key : ∀ (l : List K) (a : K), l.foldl max a = a ∨ l.foldl max a ∈ l := by
      intro l
      induction l with
      | nil => intro a; simp
      | cons b l ih =>
        intro a
        rcases ih (max a b) with h | h
        · rw [List.foldl_cons, h]
          rcases max_choice a b with h | h
          · exact Or.inl h
          · right; rw [h]; simp
        · right; rw [List.foldl_cons]; simp [h]
    rcases key l a with h | h
    · rw [h]; simp
    · exact List.mem_cons_of_mem _ h

theorem points_head {c : LogExp K} {g : BGrid K} (h : GOk c g) : (g.points c).head? = some g.lo ∧ (g.points c).getLast? = some g.hi := by
  have hn := h.n
  unfold BGrid.points
  have e : g.n.toNat = (g.n.toNat - 1) + 1 := by omega
  constructor
  · rw [e, List.range_succ_eq_map, List.map_cons, List.head?_cons, h.x_zero]
  · rw [e, List.range_succ, List.map_append]
    simp [h.x_last]

/-! ### Histories -/

/-- Calls on a grid with a given function. -/
inductive GOp
  | first
  | refine

/-- One call. -/
def GOp.apply (fn : Fns K) (f : K → K) (g : Grid1D K) : GOp → Res (Grid1D K)
  | .first => g.firstpass fn f
  | .refine => g.refine fn f

/-- A sequence of calls, stopped by an exception. -/
def runOps (fn : Fns K) (f : K → K) : List GOp → Grid1D K → Res (Grid1D K)
  | [], g => ok g
  | o :: os, g => (o.apply fn f g).andThen fun g => runOps fn f os g

/-- The state after a first pass and any further calls. -/
structure GFull (c : LogExp K) (f : K → K) (lo hi : K) (n : ℤ) (g : Grid1D K) : Prop where
  inv : GInv c g
  base : FOk c g.base ((g.base.points c).map f)
  glist : List.Forall₂ (Matches c f) g.ilist.ilist g.glist
  reached : Reached c lo hi n true g.ilist
  lo : g.ilist.lo = lo
  hi : g.ilist.hi = hi
  tot : g.totpts = g.ilist.npts
  unref : g.refined = false → ∃ I, g.ilist.ilist = [I] ∧ Matches c f I g.base

theorem run_append (c : LogExp K) (a b : List (K × K × ℤ)) : ∀ s : RIL K, s.run c (a ++ b) = (s.run c a).run c b := by
  induction a with
  | nil => intro s; rfl
  | cons o a ih => intro s; rw [List.cons_append, run_cons, run_cons, ih]

theorem refine_full {fn : Fns K} (hsq : ∀ x, 0 < x → 0 < fn.sqrt x) {f : K → K} {lo hi : K} {n : ℤ} {g : Grid1D K} (h : GFull fn.toLogExp f lo hi n g) :
    ∃ g', g.refine fn f = ok g' ∧ GFull fn.toLogExp f lo hi n g' := by
  obtain ⟨g', e, e1, e2, e3, e4, e5, e6, e7⟩ := refine_spec hsq h.inv h.base
  obtain ⟨s0, ops, r1, r2, r3⟩ := h.reached
  refine ⟨g', e, e1, by rw [e2]; exact h.base, e4, ⟨s0, ops ++ _, r1, ?_, by rw [run_append, ← r3]; exact e7⟩, ?_, ?_, e5, by rw [e6]; simp⟩
  · intro o ho
    rcases List.mem_append.mp ho with ho | ho
    · exact r2 o ho
    · obtain ⟨x, _, rfl⟩ := List.mem_map.mp ho
      have := h.inv.rpts
      dsimp only
      omega
  · rw [e1.lo, e2, ← h.inv.lo, h.lo]
  · rw [e1.hi, e2, ← h.inv.hi, h.hi]

theorem first_full {fn : Fns K} (hsq : ∀ x, 0 < x → 0 < fn.sqrt x) {f : K → K} {lo hi : K} {n : ℤ} {g : Grid1D K} (h : GFull fn.toLogExp f lo hi n g) :
    ∃ g', g.firstpass fn f = ok g' ∧ GFull fn.toLogExp f lo hi n g' := by
  obtain ⟨g', e, e1, e2, e3, e4, e5, e6, e7, e8⟩ := firstpass_spec hsq h.inv f
  have hb : g'.base = g.base := by
    rw [e7, ← h.base.vals]
  refine ⟨g', e, e1, e2, ?_, by rw [e4]; exact h.reached, by rw [e4]; exact h.lo, by rw [e4]; exact h.hi, by rw [e6, e4]; exact h.tot, ?_⟩
  · rw [e4, e8]
    cases hr : g.refined with
    | true => rw [if_pos rfl]; exact h.glist
    | false =>
      obtain ⟨I, hI, hm⟩ := h.unref hr
      simp only [Bool.false_eq_true, if_false]
      rw [hI, hb]
      exact List.Forall₂.cons hm List.Forall₂.nil
  · rw [e5, e4, hb]
    exact h.unref

theorem init_full {fn : Fns K} (hsq : ∀ x, 0 < x → 0 < fn.sqrt x) {f : K → K} {lo hi : K} {n : ℤ} {nmax : Option ℕ} {dyn : Option K} {sigpts nsig : ℤ} {rp : Bool} {g : Grid1D K}
    (h : Grid1D.init fn.toLogExp lo hi n true nmax dyn sigpts nsig rp = .ok g) (hlt : lo < hi) (hn : ∀ m, nmax = some m → 1 ≤ m) (hd : ∀ d, dyn = some d → 0 < d)
    (hs : 2 ≤ sigpts) (hg : 1 ≤ nsig) :
    ∃ g', g.firstpass fn f = ok g' ∧ GFull fn.toLogExp f lo hi n g' := by
  obtain ⟨i1, i2, i3, i4, i5, i6, i7, i8, i9, i10, i11, i12⟩ := init_ginv h hlt hn hd hs hg
  obtain ⟨g', e, e1, e2, e3, e4, e5, e6, e7, e8⟩ := firstpass_spec hsq i1 f
  have hmem : g.ilist.base ∈ g.ilist.ilist := by rw [i8]; simp
  have ht := i1.ril.tiles
  rw [i8] at ht
  have hgd := i1.ril.good _ hmem
  have hnn : g.ilist.base.n = n := by
    have := cum_npts i1.ril.cum (by rw [i8]; simp)
    rw [i11, i8] at this
    simp [total] at this
    omega
  have hbm : Matches fn.toLogExp f g.ilist.base g'.base := by
    refine ⟨?_, ?_, ?_, e1.lin, ?_, e2⟩
    · rw [e7]; dsimp only; rw [← i1.lo]; exact ht.1.symm
    · rw [e7]; dsimp only; rw [← i1.hi]; exact ht.2.2.symm
    · rw [e7]; dsimp only; rw [i4, hnn]
    · rw [e7]; exact i1.step.symm
  refine ⟨g', e, e1, e2, ?_, ⟨g.ilist, [], i12, by simp, by rw [e4]; rfl⟩, by rw [e4, i1.lo, i2], by rw [e4, i1.hi, i3], by rw [e6, e4, i10, i11], ?_⟩
  · rw [e4, e8, i6, i8]
    simp only [Bool.false_eq_true, if_false]
    exact List.Forall₂.cons hbm List.Forall₂.nil
  · intro _
    exact ⟨g.ilist.base, by rw [e4]; exact i8, hbm⟩

theorem run_full {fn : Fns K} (hsq : ∀ x, 0 < x → 0 < fn.sqrt x) {f : K → K} {lo hi : K} {n : ℤ} : ∀ (os : List GOp) {g : Grid1D K}, GFull fn.toLogExp f lo hi n g →
    ∃ g', runOps fn f os g = ok g' ∧ GFull fn.toLogExp f lo hi n g'
  | [], g, h => ⟨g, rfl, h⟩
  | o :: os, g, h => by
    have : ∃ g', o.apply fn f g = ok g' ∧ GFull fn.toLogExp f lo hi n g' := by
      cases o with
      | first => exact first_full hsq h
      | refine => exact refine_full hsq h
    obtain ⟨g1, e1, h1⟩ := this
    obtain ⟨g2, e2, h2⟩ := run_full hsq os h1
    exact ⟨g2, by unfold runOps; rw [e1]; exact e2, h2⟩

/-- The sum over the grids. -/
theorem GFull.sum {c : LogExp K} {f : K → K} {lo hi : K} {n : ℤ} {g : Grid1D K} (h : GFull c f lo hi n g) (k : K → K) :
    (g.glist.map fun b => tz k (b.points c)).sum = tz k (gridPoints c g.ilist) :=
  (glist_tz k h.glist h.inv.ril.tiles (h.inv.ril.lin h.inv.ilin) h.inv.ril.good).1

theorem GFull.each {c : LogExp K} {f : K → K} {lo hi : K} {n : ℤ} {g : Grid1D K} (h : GFull c f lo hi n g) : ∀ b ∈ g.glist, FOk c b ((b.points c).map f) := by
  intro b hb
  obtain ⟨I, hI, hm⟩ : ∃ I ∈ g.ilist.ilist, Matches c f I b := by
    obtain ⟨k, hk, rfl⟩ := List.mem_iff_getElem.mp hb
    have hlen := h.glist.length_eq
    exact ⟨g.ilist.ilist[k], List.getElem_mem _, (List.forall₂_iff_get.mp h.glist).2 k (by omega) hk⟩
  exact hm.ok

theorem foldl_trapzd {c : LogExp K} {f : K → K} : ∀ (bs : List (BGrid K)) (a : K), (∀ b ∈ bs, FOk c b ((b.points c).map f)) →
    bs.foldl (fun acc b => do let a ← acc; let t ← b.trapzd c; pure (a + t)) (Except.ok a : Except Err K) = .ok (a + (bs.map fun b => tz f (b.points c)).sum)
  | [], a, _ => by simp
  | b :: bs, a, h => by
    rw [List.foldl_cons, (h b (by simp)).trapzd]
    have := foldl_trapzd (c := c) (f := f) bs (a + tz f (b.points c)) fun b hb => h b (by simp [hb])
    simp only [List.map_cons, List.sum_cons]
    rw [← add_assoc]
    exact this

theorem GFull.trapzd {c : LogExp K} {f : K → K} {lo hi : K} {n : ℤ} {g : Grid1D K} (h : GFull c f lo hi n g) : g.trapzd c = .ok (tz f (gridPoints c g.ilist)) := by
  unfold Grid1D.trapzd
  rw [foldl_trapzd (f := f) _ _ h.each, h.sum, zero_add]

theorem GFull.ends {c : LogExp K} {f : K → K} {lo hi : K} {n : ℤ} {g : Grid1D K} (h : GFull c f lo hi n g) :
    (gridPoints c g.ilist).head? = some lo ∧ (gridPoints c g.ilist).getLast? = some hi ∧ (gridPoints c g.ilist).Pairwise (· < ·) := by
  have hlt := h.inv.ril.lt
  have hne : g.ilist.ilist ≠ [] := fun e => by
    have := h.inv.ril.tiles; rw [e] at this; exact absurd hlt (by rw [show g.ilist.lo = g.ilist.hi from this]; exact lt_irrefl _)
  obtain ⟨r, hr⟩ := (glist_tz (fun x => x) h.glist h.inv.ril.tiles (h.inv.ril.lin h.inv.ilin) h.inv.ril.good).2 hne
  refine ⟨?_, ?_, ?_⟩
  · unfold gridPoints; rw [hr, h.lo]; rfl
  · unfold gridPoints; rw [h.hi]; simp
  · unfold gridPoints
    rw [List.pairwise_append]
    refine ⟨flat_sorted h.inv.ril.tiles h.inv.ril.good, by simp, fun x hx y hy => ?_⟩
    rw [List.mem_singleton.mp hy]
    exact (flat_mem h.inv.ril.tiles h.inv.ril.good hx).2

theorem Matches.point {c : LogExp K} {f : K → K} {I : Intv K} {b : BGrid K} (h : Matches c f I b) {i : ℤ} (h0 : 0 ≤ i) (h1 : i < I.n) :
    b.point c i = .ok (b.x c i.toNat, if i = I.n - 1 then 0 else b.step, some (f (b.x c i.toNat))) := by
  have hn := h.n
  unfold BGrid.point
  rw [if_neg (by omega), h.ok.vals]
  have hp : (b.points c)[i.toNat]? = some (b.x c i.toNat) := by
    unfold BGrid.points
    rw [List.getElem?_map, List.getElem?_range (by omega)]
    rfl
  have hpd : (b.points c).getD i.toNat 0 = b.x c i.toNat := by rw [List.getD_eq_getElem?_getD, hp]; rfl
  rcases h.ok.absc with e | e
  · simp only [e, h.lin, if_true, hn, List.getElem?_map, hp, Option.map_some]
  · simp only [e, h.lin, if_true, hn, List.getElem?_map, hp, Option.map_some, hpd]

/-- What `point` returns. -/
theorem GFull.point {c : LogExp K} {f : K → K} {lo hi : K} {n : ℤ} {g : Grid1D K} (h : GFull c f lo hi n g) (k : ℕ) (hk : k < (gridPoints c g.ilist).length) :
    g.point c k = .ok ((gridPoints c g.ilist)[k], (gridPoints c g.ilist).getD (k + 1) hi - (gridPoints c g.ilist)[k], some (f (gridPoints c g.ilist)[k])) := by
  have hinv := h.inv.ril
  have hlt := hinv.lt
  have hne : g.ilist.ilist ≠ [] := fun e => by
    have := hinv.tiles; rw [e] at this; exact absurd hlt (by rw [show g.ilist.lo = g.ilist.hi from this]; exact lt_irrefl _)
  have hn2 : ∀ I ∈ g.ilist.ilist, 2 ≤ I.n := fun I hI => (hinv.good I hI).n
  have hnp := cum_npts hinv.cum hne
  have hlen : ((gridPoints c g.ilist).length : ℤ) = g.ilist.npts := by
    unfold gridPoints; rw [List.length_append]; push_cast; rw [flat_length hn2, hnp]; rfl
  -- where the point is
  obtain ⟨A, I, C, i, hl, hki, hi0, hi1, hloc, hlast⟩ : ∃ A I C, ∃ i : ℤ, g.ilist.ilist = A ++ I :: C ∧ (k : ℤ) = total A + i ∧ 0 ≤ i ∧ i ≤ I.n - 1 ∧
      g.ilist.nlocate k = .ok (A.length, i, I) ∧ (i = I.n - 1 ↔ (k : ℤ) + 1 = g.ilist.npts) := by
    by_cases hk' : (k : ℤ) = g.ilist.npts - 1
    · obtain ⟨A, I, e⟩ := (List.eq_nil_or_concat g.ilist.ilist).resolve_left hne
      rw [List.concat_eq_append] at e
      have hI : 2 ≤ I.n := hn2 I (by rw [e]; simp)
      have ht : total g.ilist.ilist = total A + (I.n - 1) := by rw [e]; simp [total]
      exact ⟨A, I, [], I.n - 1, e, by omega, by omega, le_refl _, by rw [hk']; exact nlocate_last hinv e, by omega⟩
    · obtain ⟨A, I, C, e, e1, e2⟩ := split_total hn2 (n := k) (by omega) (by omega)
      exact ⟨A, I, C, k - total A, e, by omega, by omega, by omega, nlocate_spec hinv e e1 e2, by omega⟩
  have hI : I ∈ g.ilist.ilist := by rw [hl]; simp
  have hIn := hn2 I hI
  -- the grid
  have hlen2 := h.glist.length_eq
  have hlA : A.length < g.ilist.ilist.length := by rw [hl]; simp
  obtain ⟨b, hb, hm⟩ : ∃ b, g.glist[A.length]? = some b ∧ Matches c f I b := by
    refine ⟨g.glist[A.length]'(by omega), by simp, ?_⟩
    have := (List.forall₂_iff_get.mp h.glist).2 A.length hlA (by omega)
    have e : g.ilist.ilist.get ⟨A.length, hlA⟩ = I := by simp [hl]
    rw [e] at this
    exact this
  -- the list of points around it
  have hIl := hinv.lin h.inv.ilin I hI
  obtain ⟨r, hr⟩ : ∃ r, gridPoints c g.ilist = A.flatMap (Intv.pts c) ++ (b.points c ++ r) := by
    have ht := hinv.tiles
    rw [hl] at ht
    obtain ⟨m, hA, hmI, _, hC⟩ := tiles_append.mp ht
    have : ∃ r, C.flatMap (Intv.pts c) ++ [g.ilist.hi] = I.hi :: r := by
      cases C with
      | nil => exact ⟨[], by rw [show I.hi = g.ilist.hi from hC]; rfl⟩
      | cons J C =>
        obtain ⟨r, hr⟩ := Matches.pts_cons (hinv.good J (by rw [hl]; simp))
        refine ⟨r ++ (C.flatMap (Intv.pts c) ++ [g.ilist.hi]), ?_⟩
        rw [List.flatMap_cons, hr, hC.1]; simp
    obtain ⟨r, hr⟩ := this
    refine ⟨r, ?_⟩
    unfold gridPoints
    rw [hl, List.flatMap_append, List.flatMap_cons, List.append_assoc, List.append_assoc, hr, hm.points hIl]
    simp
  have hlA' := flat_length (c := c) (l := A) (fun J hJ => hn2 J (by rw [hl]; simp [hJ]))
  have hbn := hm.n
  have hat : ∀ j : ℕ, (j : ℤ) < I.n → (gridPoints c g.ilist)[(A.flatMap (Intv.pts c)).length + j]? = some (b.x c j) := by
    intro j hj
    rw [hr, List.getElem?_append_right (by omega), Nat.add_sub_cancel_left, List.getElem?_append_left (by rw [points_length]; omega)]
    unfold BGrid.points
    rw [List.getElem?_map, List.getElem?_range (by omega)]
    rfl
  have hk2 : k = (A.flatMap (Intv.pts c)).length + i.toNat := by omega
  have hxk : (gridPoints c g.ilist)[k] = b.x c i.toNat := by
    have := hat i.toNat (by omega)
    rw [← hk2, List.getElem?_eq_getElem hk] at this
    exact Option.some.inj this
  unfold Grid1D.point
  rw [hloc]
  dsimp only
  rw [hb]
  dsimp only
  rw [hm.point hi0 (by omega), hxk]
  congr 3
  by_cases hc : i = I.n - 1
  · rw [if_pos hc]
    have hov : (gridPoints c g.ilist)[k + 1]? = none := by
      rw [List.getElem?_eq_none]
      have := hlast.mp hc
      omega
    rw [List.getD_eq_getElem?_getD, hov, Option.getD_none]
    have h1 : (gridPoints c g.ilist).getLast? = some hi := h.ends.2.1
    rw [List.getLast?_eq_getElem?] at h1
    have := hlast.mp hc
    have hkl : (gridPoints c g.ilist).length - 1 = k := by omega
    rw [hkl, List.getElem?_eq_getElem hk, hxk] at h1
    rw [Option.some.inj h1, sub_self]
  · rw [if_neg hc, List.getD_eq_getElem?_getD]
    have := hat (i.toNat + 1) (by omega)
    rw [← add_assoc, ← hk2] at this
    rw [this, Option.getD_some]
    unfold BGrid.x
    rw [if_pos hm.lin, if_pos hm.lin]
    push_cast
    ring

end
end Verif.Grid1
