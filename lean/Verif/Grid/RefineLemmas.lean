import Verif.Grid.BasicLemmas
import Verif.Grid.IntervalNum

/-!
# One-dimensional grids: refinement (helper lemmas)
-/

set_option linter.unusedSectionVars false
set_option linter.unusedSimpArgs false

namespace Verif.Grid1

section
variable {K : Type} [Field K] [LinearOrder K] [IsStrictOrderedRing K] [FloorRing K]

/-! ### What is offered to the list of maxima -/

/-- A label whose location lies in the range and whose width is positive. -/
def LabelOk (lo hi : K) (o : K × Label K) : Prop := lo ≤ o.2.2.2.1 ∧ o.2.2.2.1 ≤ hi ∧ 0 < o.2.2.2.2

theorem GOk.x_mem {c : LogExp K} {g : BGrid K} (h : GOk c g) {i : ℕ} (hi : (i : ℤ) < g.n) : g.lo ≤ g.x c i ∧ g.x c i ≤ g.hi := by
  have hn := h.n
  constructor
  · rw [← h.x_zero]
    rcases Nat.eq_zero_or_pos i with rfl | hp
    · exact le_refl _
    · exact le_of_lt (h.x_mono hp)
  · rw [← h.x_last]
    rcases Nat.lt_or_ge i (g.n.toNat - 1) with hp | hp
    · exact le_of_lt (h.x_mono hp)
    · rw [show i = g.n.toNat - 1 by omega]

theorem offers_ok {fn : Fns K} (hsq : ∀ x, 0 < x → 0 < fn.sqrt x) {g : BGrid K} (h : GOk fn.toLogExp g) (hl : g.isLin = true) (f : K → K) :
    ∀ o ∈ g.allOffers fn f, LabelOk g.lo g.hi o := by
  intro o ho
  unfold BGrid.allOffers at ho
  obtain ⟨i, hi, ho⟩ := List.mem_flatMap.mp ho
  have hi' := List.mem_range.mp hi
  unfold BGrid.offersAt at ho
  split_ifs at ho with h1
  swap
  · simp at ho
  have hs := h.step_pos
  have a0 := h.x_mem (show ((i - 2 : ℕ) : ℤ) < g.n by omega)
  have a2 := h.x_mem (show (i : ℤ) < g.n by omega)
  have m01 := h.x_mono (show i - 2 < i - 1 by omega)
  have m12 := h.x_mono (show i - 1 < i by omega)
  have e1 : g.x fn.toLogExp (i - 1) = g.x fn.toLogExp (i - 2) + g.step := by
    unfold BGrid.x
    rw [if_pos hl, if_pos hl]
    have : ((i - 1 : ℕ) : K) = ((i - 2 : ℕ) : K) + 1 := by
      rw [show i - 1 = (i - 2) + 1 by omega]; push_cast; ring
    rw [this]; ring
  have e2 : g.x fn.toLogExp i = g.x fn.toLogExp (i - 2) + 2 * g.step := by
    unfold BGrid.x
    rw [if_pos hl, if_pos hl]
    have : ((i : ℕ) : K) = ((i - 2 : ℕ) : K) + 2 := by
      conv_lhs => rw [show i = (i - 2) + 2 by omega]
      push_cast; ring
    rw [this]; ring
  unfold BGrid.offers at ho
  rw [List.mem_append, List.mem_append] at ho
  rcases ho with (ho | ho) | ho
  · split_ifs at ho with hp
    · rw [List.mem_singleton.mp ho]
      have hF : (g.x fn.toLogExp i - g.x fn.toLogExp (i - 2)) ^ 2 ≠ 2 * (g.x fn.toLogExp (i - 1) - g.x fn.toLogExp (i - 2)) ^ 2 := by
        rw [e1, e2]; exact regular_ok hs
      obtain ⟨b1, b2, b3, b4⟩ := C73_through_points m01 m12 hp hF
      refine ⟨?_, ?_, hsq _ b1⟩
      · change g.lo ≤ (peakVar _ _ _ _ _ _).2.1; linarith
      · change (peakVar _ _ _ _ _ _).2.1 ≤ g.hi; linarith
    · simp at ho
  · split_ifs at ho with hp
    · rw [List.mem_singleton.mp ho]
      refine ⟨a0.1, a0.2, ?_⟩
      change 0 < -(1 / 2) * (g.x fn.toLogExp (i - 1) - g.x fn.toLogExp (i - 2)) / (f (g.x fn.toLogExp (i - 1)) - f (g.x fn.toLogExp (i - 2)))
      have := hp.2
      exact div_pos_of_neg_of_neg (by linarith) (by linarith)
    · simp at ho
  · split_ifs at ho with hp
    · rw [List.mem_singleton.mp ho]
      refine ⟨a2.1, a2.2, ?_⟩
      change 0 < 1 / 2 * (g.x fn.toLogExp i - g.x fn.toLogExp (i - 1)) / (f (g.x fn.toLogExp i) - f (g.x fn.toLogExp (i - 1)))
      have := hp.2
      exact div_pos (by linarith) (by linarith)
    · simp at ho

/-! ### Subgrids -/

theorem round2_int (k : ℤ) (hk : 0 ≤ k) : round2 (k : K) = k := by
  unfold round2
  have : ⌊(k : K) * 100 + 1 / 2⌋ = k * 100 := by
    rw [Int.floor_eq_iff]
    push_cast
    constructor <;> linarith
  rw [this, if_pos (by omega)]
  omega

/-- A grid that is filled with `f` and has the points of an interval. -/
structure Matches (c : LogExp K) (f : K → K) (I : Intv K) (b : BGrid K) : Prop where
  lo : b.lo = I.lo
  hi : b.hi = I.hi
  n : b.n = I.n
  lin : b.isLin = true
  step : b.step = I.step
  ok : FOk c b ((b.points c).map f)

theorem drop_range (x : ℕ → K) (N k m : ℕ) (h : k + m ≤ N) : (((List.range N).map x).drop k).take m = (List.range m).map fun j => x (k + j) := by
  apply List.ext_getElem
  · simp; omega
  · intro i h1 h2
    simp at h1 h2 ⊢

/-- The subgrid of a linear grid between two of its points. -/
theorem subgrid_spec {c : LogExp K} {g : BGrid K} {f : K → K} (hf : FOk c g ((g.points c).map f)) (hl : g.isLin = true) {I : Intv K} (hI : Good c I) (hIl : I.isLin = true)
    (h1 : g.lo ≤ I.lo) (h2 : I.hi ≤ g.hi) (hs : I.step = g.step) {k : ℤ} (hk : I.lo = g.lo + k * g.step) :
    ∃ b, g.subgrid c I.lo I.hi = .ok b ∧ Matches c f I b := by
  have hg := hf.ok
  have hst := hg.step_pos
  have hspan := hI.span hIl
  rw [hs] at hspan
  have hIn := hI.n
  have hgspan : ((g.n : K) - 1) * g.step = g.hi - g.lo := hg.good.span hl
  have hk0 : 0 ≤ k := by
    have : 0 ≤ (k : K) * g.step := by linarith
    have := nonneg_of_mul_nonneg_left this hst
    exact_mod_cast this
  have hkn : k + I.n ≤ g.n := by
    have : ((k : K) + I.n - 1) * g.step ≤ ((g.n : K) - 1) * g.step := by linarith
    have := le_of_mul_le_mul_right this hst
    have h3 : (k : K) + I.n ≤ g.n := by linarith
    exact_mod_cast h3
  have e1 : (I.lo - g.lo) / g.step = (k : K) := by rw [hk]; field_simp; ring
  have e2 : (I.hi - g.lo) / g.step = ((k + I.n - 1 : ℤ) : K) := by
    have : I.hi - g.lo = ((k : K) + I.n - 1) * g.step := by linarith
    rw [this]; push_cast; field_simp
  unfold BGrid.subgrid
  rw [if_neg (by push Not; exact ⟨h1, h2⟩)]
  simp only [hl, if_true]
  rw [e1, e2, round2_int k hk0, round2_int _ (by omega)]
  have z1 : (k : K) * g.step - (I.lo - g.lo) = 0 := by linarith
  have z2 : ((k + I.n - 1 : ℤ) : K) * g.step - (I.hi - g.lo) = 0 := by push_cast; linarith
  rw [z1, z2, abs_zero]
  have hpos : ¬ (0 : K) > 1 / 1000 * g.step := by
    have : 0 < 1 / 1000 * g.step := by positivity
    exact not_lt.mpr (le_of_lt this)
  rw [if_neg hpos, if_neg hpos]
  have en : k + I.n - 1 - k + 1 = I.n := by ring
  rw [en]
  cases hm : mkGrid c I.lo I.hi I.n true g.rankPeak with
  | error e =>
    exfalso
    unfold mkGrid at hm
    rw [if_neg (by omega), if_neg (by simp)] at hm
    cases hm
  | ok s =>
    obtain ⟨o1, o2, o3, o4, o5, o6, o7, o8⟩ := mkGrid_ok hm hI.lt (by simp)
    dsimp only
    refine ⟨_, rfl, ?_⟩
    have hstep : s.step = g.step := by
      have hp := hI.nm1
      rw [o1.lin o5, o2, o3, o4, ← hspan]
      field_simp
    -- the points of the subgrid are a slice
    have hslice : (((g.points c)).drop k.toNat).take I.n.toNat = s.points c := by
      unfold BGrid.points
      rw [drop_range _ _ _ _ (by omega), o4]
      apply List.map_congr_left
      intro j _
      unfold BGrid.x
      rw [if_pos hl, if_pos o5, hstep, o2, hk]
      have : ((k.toNat + j : ℕ) : K) = (k : K) + j := by
        have : ((k.toNat : ℕ) : ℤ) = k := by omega
        have h3 : (((k.toNat : ℕ) : ℤ) : K) = (k : K) := by rw [this]
        push_cast at h3 ⊢
        rw [h3]
      rw [this]; ring
    refine ⟨o2, o3, o4, o5, by rw [hs]; exact hstep, ⟨⟨o1.n, o1.lt, o1.lin, o1.log⟩, ?_, ?_, ?_⟩⟩
    · rcases hf.absc with e | e
      · left; simp [e]
      · right
        simp only [e, Option.map_some, hslice]
        rfl
    · simp only [hf.vals, Option.map_some]
      rw [← List.map_drop, ← List.map_take, hslice]
      rfl
    · change (List.map f (s.points c)).length = s.n.toNat
      rw [List.length_map, points_length]

/-! ### The invariant of a linear refinable grid -/

/-- A list of maxima made by offers with good labels. -/
def LmlOk (lo hi : K) (l : LML K (Label K)) : Prop :=
  (∀ n, l.nmax = some n → 1 ≤ n) ∧ (∀ d, l.dyn = some d → 0 < d) ∧
  ∃ os L R, Inv l.nmax l.dyn os l.list L R ∧ ∀ o ∈ os, LabelOk lo hi o

theorem LmlOk.mem {lo hi : K} {l : LML K (Label K)} (h : LmlOk lo hi l) : ∀ e ∈ l.list, LabelOk lo hi e := by
  obtain ⟨_, _, os, L, R, hi', ho⟩ := h
  intro e he
  rw [hi'.list] at he
  obtain ⟨x, hx, rfl⟩ := List.mem_map.mp he
  exact ho _ (ranking_tags hi'.rank x (by simp [hx])).2

theorem LmlOk.updates {lo hi : K} {l : LML K (Label K)} (h : LmlOk lo hi l) {os : List (K × Label K)} (ho : ∀ o ∈ os, LabelOk lo hi o) :
    ∃ l', l.updates os = ok l' ∧ LmlOk lo hi l' ∧ l'.nmax = l.nmax ∧ l'.dyn = l.dyn := by
  obtain ⟨h1, h2, os0, L, R, h3, h4⟩ := h
  obtain ⟨l', L', R', e, en, ed, h5⟩ := updates_inv l os0 L R h1 h2 h3 os
  refine ⟨l', e, ⟨by rw [en]; exact h1, by rw [ed]; exact h2, os0 ++ os, L', R', by rw [en, ed]; exact h5, fun o ho' => ?_⟩, en, ed⟩
  rcases List.mem_append.mp ho' with ho' | ho'
  · exact h4 o ho'
  · exact ho o ho'

theorem lmlOk_fresh (lo hi : K) (nmax : Option ℕ) (hn : ∀ n, nmax = some n → 1 ≤ n) (dyn : Option K) (hd : ∀ d, dyn = some d → 0 < d) :
    LmlOk lo hi { nmax := nmax, dyn := dyn } :=
  ⟨hn, hd, [], [], [], ⟨⟨List.Perm.refl _, List.Pairwise.nil⟩, rfl, by simp, by simp, by simp⟩, by simp⟩

/-- What holds of a linear `Grid1D` at all times. -/
structure GInv (c : LogExp K) (g : Grid1D K) : Prop where
  base : GOk c g.base
  lin : g.base.isLin = true
  absc : g.base.absc = none
  ril : RInv c g.ilist
  pos : g.ilist.isPos = true
  ilin : g.ilist.isLin = true
  lo : g.ilist.lo = g.base.lo
  hi : g.ilist.hi = g.base.hi
  step : g.ilist.base.step = g.base.step
  nsig : 0 < g.nsig
  rpts : 2 ≤ g.rpts
  nmax : g.nmax = g.lml.nmax
  lml : LmlOk g.base.lo g.base.hi g.lml

theorem init_ginv {c : LogExp K} {lo hi : K} {n : ℤ} {nmax : Option ℕ} {dyn : Option K} {sigpts nsig : ℤ} {rp : Bool} {g : Grid1D K}
    (h : Grid1D.init c lo hi n true nmax dyn sigpts nsig rp = .ok g) (hlt : lo < hi) (hn : ∀ m, nmax = some m → 1 ≤ m) (hd : ∀ d, dyn = some d → 0 < d)
    (hs : 2 ≤ sigpts) (hg : 1 ≤ nsig) :
    GInv c g ∧ g.base.lo = lo ∧ g.base.hi = hi ∧ g.base.n = n ∧ g.base.rankPeak = rp ∧ g.refined = false ∧ g.lml = { nmax := nmax, dyn := dyn } ∧
      g.ilist.ilist = [g.ilist.base] ∧ g.glist = [g.base] ∧ g.totpts = n ∧ g.ilist.npts = n ∧ RIL.init c lo hi n true = .ok g.ilist := by
  unfold Grid1D.init at h
  cases hb : mkGrid c lo hi n true rp with
  | error e => rw [hb] at h; cases h
  | ok b =>
    rw [hb] at h
    dsimp only at h
    cases hr : RIL.init c lo hi n true with
    | error e => rw [hr] at h; cases h
    | ok r =>
      rw [hr] at h
      injection h with h
      obtain ⟨o1, o2, o3, o4, o5, o6, o7, o8⟩ := mkGrid_ok hb hlt (by simp)
      obtain ⟨i1, i2, i3, i4, i5, i6, i7, i8, i9⟩ := init_inv hr hlt (by simp)
      have hnp : r.npts = n := by
        have := hr
        unfold RIL.init at this
        split_ifs at this with c1 c2 c3
        dsimp only at this
        cases hm : mkIntv c (if decide (lo < hi) then lo else hi) (if decide (lo < hi) then hi else lo) n true with
        | error e => rw [hm] at this; cases this
        | ok b => rw [hm] at this; injection this with this; rw [← this]
      have hbs : r.base.step = b.step := by
        have hmem : r.base ∈ r.ilist := by rw [i6]; simp
        rw [(i1.good _ hmem).lin (i1.lin i5 _ hmem), o1.lin o5, i7, i8, i9, o2, o3, o4]
      subst h
      refine ⟨⟨o1, o5, o7, i1, i2, i5, i3.trans o2.symm, i4.trans o3.symm, hbs, ?_, ?_, rfl, lmlOk_fresh _ _ _ hn _ hd⟩, o2, o3, o4, o6, rfl, rfl, i6, rfl, rfl, hnp, rfl⟩
      · dsimp only; exact_mod_cast (by omega : (0 : ℤ) < nsig)
      · dsimp only; nlinarith

theorem firstpass_spec {fn : Fns K} (hsq : ∀ x, 0 < x → 0 < fn.sqrt x) {g : Grid1D K} (h : GInv fn.toLogExp g) (f : K → K) :
    ∃ g', g.firstpass fn f = ok g' ∧ GInv fn.toLogExp g' ∧ FOk fn.toLogExp g'.base ((g'.base.points fn.toLogExp).map f) ∧
      g.lml.updates (g.base.allOffers fn f) = ok g'.lml ∧ g'.ilist = g.ilist ∧ g'.refined = g.refined ∧ g'.totpts = g.totpts ∧
      g'.base = { g.base with vals := some ((g.base.points fn.toLogExp).map f) } ∧ g'.glist = (if g.refined then g.glist else [g'.base]) := by
  obtain ⟨l', e1, e2, e3, e4⟩ := h.lml.updates (offers_ok hsq h.base h.lin f)
  have e := stepfunc_some fn g.base f g.lml e1
  refine ⟨{ g with base := { g.base with vals := some ((g.base.points fn.toLogExp).map f) }, lml := l',
                   glist := if g.refined then g.glist else [{ g.base with vals := some ((g.base.points fn.toLogExp).map f) }] },
    by unfold Grid1D.firstpass; rw [e]; rfl, ?_, ?_, e1, rfl, rfl, rfl, rfl, rfl⟩
  · exact ⟨⟨h.base.n, h.base.lt, h.base.lin, h.base.log⟩, h.lin, h.absc, h.ril, h.pos, h.ilin, h.lo, h.hi, h.step, h.nsig, h.rpts, h.nmax.trans e3.symm, e2⟩
  · refine ⟨⟨h.base.n, h.base.lt, h.base.lin, h.base.log⟩, Or.inl h.absc, rfl, ?_⟩
    change (List.map f (g.base.points fn.toLogExp)).length = g.base.n.toNat
    rw [List.length_map, points_length]

theorem refineLoop_spec {c : LogExp K} {nsig : K} (hs : 0 < nsig) {rpts : ℤ} (hr : 2 ≤ rpts) : ∀ (es : List (K × Label K)) {r : RIL K}, RInv c r → r.isPos = true →
    (∀ e ∈ es, LabelOk r.lo r.hi e) →
    ∃ r', refineLoop c nsig rpts r es = ok r' ∧ RInv c r' ∧ Same r r' ∧
      r' = r.run c (es.map fun e => (e.2.2.2.1 - nsig * e.2.2.2.2, e.2.2.2.1 + nsig * e.2.2.2.2, rpts))
  | [], r, h, _, _ => ⟨r, rfl, h, Same.refl r, rfl⟩
  | e :: es, r, h, hp, he => by
    obtain ⟨h1, h2, h3⟩ := he e (by simp)
    have hd := mul_pos hs h3
    have hlt : max (e.2.2.2.1 - nsig * e.2.2.2.2) r.lo < min (e.2.2.2.1 + nsig * e.2.2.2.2) r.hi := by
      have := h.lt
      rw [max_lt_iff, lt_min_iff, lt_min_iff]
      refine ⟨⟨?_, ?_⟩, ?_, ?_⟩ <;> linarith
    obtain ⟨r1, e1, e2, e3, _⟩ := update_spec h hp _ _ hr hlt
    obtain ⟨r2, f1, f2, f3, f4⟩ := refineLoop_spec hs hr es e2 (e3.1.trans hp) (fun x hx => by rw [e3.2.1, e3.2.2.1]; exact he x (by simp [hx]))
    refine ⟨r2, ?_, f2, e3.trans f3, ?_⟩
    · unfold refineLoop; rw [e1]; exact f1
    · rw [List.map_cons, run_cons]; dsimp only; rw [e1]; exact f4

/-- The grid for an interval before evaluation. -/
def Matches0 (c : LogExp K) (f : K → K) (step : K) (I : Intv K) (b : BGrid K) : Prop :=
  (I.step = step → Matches c f I b) ∧
  (I.step ≠ step → GOk c b ∧ b.lo = I.lo ∧ b.hi = I.hi ∧ b.n = I.n ∧ b.isLin = true ∧ b.step = I.step ∧ b.absc = none)

theorem gridsFor_spec {c : LogExp K} {g : Grid1D K} (h : GInv c g) {f : K → K} (hf : FOk c g.base ((g.base.points c).map f)) :
    ∀ l : List (Intv K), (∀ I ∈ l, I ∈ g.ilist.ilist) → ∃ bs, g.gridsFor c l = .ok bs ∧ List.Forall₂ (Matches0 c f g.base.step) l bs
  | [], _ => ⟨[], rfl, List.Forall₂.nil⟩
  | I :: l, hl => by
    obtain ⟨bs, e, hbs⟩ := gridsFor_spec h hf l fun J hJ => hl J (by simp [hJ])
    have hI := hl I (by simp)
    have hgI := h.ril.good I hI
    have hlI := h.ril.lin h.ilin I hI
    have hmem := tiles_mem h.ril.tiles hI
    have key : ∃ b, g.gridFor c I = .ok b ∧ Matches0 c f g.base.step I b := by
      unfold Grid1D.gridFor
      by_cases hs : I.step = g.ilist.base.step
      · rw [if_pos hs]
        obtain ⟨k, hk⟩ := h.ril.lat h.ilin I hI hs
        rw [h.lo, h.step] at hk
        obtain ⟨b, e1, e2⟩ := subgrid_spec hf h.lin hgI hlI (by rw [← h.lo]; exact hmem.1) (by rw [← h.hi]; exact hmem.2.2) (hs.trans h.step) hk
        exact ⟨b, e1, fun _ => e2, fun hne => absurd (hs.trans h.step) hne⟩
      · rw [if_neg hs, h.lin]
        have hn := hgI.n
        cases hm : mkGrid c I.lo I.hi I.n true g.base.rankPeak with
        | error e =>
          exfalso
          unfold mkGrid at hm
          rw [if_neg (by omega), if_neg (by simp)] at hm
          cases hm
        | ok s =>
          obtain ⟨o1, o2, o3, o4, o5, o6, o7, o8⟩ := mkGrid_ok hm hgI.lt (by simp)
          refine ⟨s, rfl, fun he => absurd (he.trans h.step.symm) hs, fun _ => ⟨o1, o2, o3, o4, o5, ?_, o7⟩⟩
          rw [o1.lin o5, o2, o3, o4, hgI.lin hlI]
    obtain ⟨b, e1, e2⟩ := key
    refine ⟨b :: bs, ?_, List.Forall₂.cons e2 hbs⟩
    unfold Grid1D.gridsFor
    rw [e1, e]

theorem evalGrids_spec {fn : Fns K} (hsq : ∀ x, 0 < x → 0 < fn.sqrt x) {base : BGrid K} {f : K → K} {lo hi : K} :
    ∀ {l : List (Intv K)} {bs : List (BGrid K)}, List.Forall₂ (Matches0 fn.toLogExp f base.step) l bs → (∀ I ∈ l, lo ≤ I.lo ∧ I.hi ≤ hi) →
    ∀ lm : LML K (Label K), LmlOk lo hi lm →
    ∃ bs' lm', evalGrids fn base f bs lm = ok (bs', lm') ∧ List.Forall₂ (Matches fn.toLogExp f) l bs' ∧ LmlOk lo hi lm' := by
  intro l bs hfa
  induction hfa with
  | nil => intro _ lm hlm; exact ⟨[], lm, rfl, List.Forall₂.nil, hlm⟩
  | @cons I b l bs hb _ ih =>
    intro hr lm hlm
    have hrI := hr I (by simp)
    have hr' : ∀ I ∈ l, lo ≤ I.lo ∧ I.hi ≤ hi := fun J hJ => hr J (by simp [hJ])
    by_cases hs : I.step = base.step
    · have hm := hb.1 hs
      obtain ⟨bs', lm', e, e1, e2⟩ := ih hr' lm hlm
      refine ⟨b :: bs', lm', ?_, List.Forall₂.cons hm e1, e2⟩
      unfold evalGrids
      rw [if_neg (not_not.mpr (hm.step.trans hs)), e]
      rfl
    · obtain ⟨o1, o2, o3, o4, o5, o6, o7⟩ := hb.2 hs
      have hof : ∀ o ∈ b.allOffers fn f, LabelOk lo hi o := fun o ho => by
        obtain ⟨a1, a2, a3⟩ := offers_ok hsq o1 o5 f o ho
        rw [o2] at a1
        rw [o3] at a2
        exact ⟨le_trans hrI.1 a1, le_trans a2 hrI.2, a3⟩
      obtain ⟨lm1, u1, u2, _⟩ := hlm.updates hof
      have hst := stepfunc_some fn b f lm u1
      obtain ⟨bs', lm', e, e1, e2⟩ := ih hr' lm1 u2
      refine ⟨{ b with vals := some ((b.points fn.toLogExp).map f) } :: bs', lm', ?_, List.Forall₂.cons ?_ e1, e2⟩
      · unfold evalGrids
        rw [if_pos (by rw [o6]; exact hs), hst]
        simp only [ok, Option.getD_some]
        rw [e]
        rfl
      · refine ⟨o2, o3, o4, o5, o6, ⟨o1.n, o1.lt, o1.lin, o1.log⟩, Or.inl o7, rfl, ?_⟩
        change (List.map f (b.points fn.toLogExp)).length = b.n.toNat
        rw [List.length_map, points_length]

/-- `refine` on a linear grid after a first pass. -/
theorem refine_spec {fn : Fns K} (hsq : ∀ x, 0 < x → 0 < fn.sqrt x) {g : Grid1D K} (h : GInv fn.toLogExp g) {f : K → K}
    (hf : FOk fn.toLogExp g.base ((g.base.points fn.toLogExp).map f)) :
    ∃ g', g.refine fn f = ok g' ∧ GInv fn.toLogExp g' ∧ g'.base = g.base ∧ g'.lml = g.lml ∧ List.Forall₂ (Matches fn.toLogExp f) g'.ilist.ilist g'.glist ∧
      g'.totpts = g'.ilist.npts ∧ g'.refined = true ∧
      g'.ilist = g.ilist.run fn.toLogExp (g.lml.list.map fun e => (e.2.2.2.1 - g.nsig * e.2.2.2.2, e.2.2.2.1 + g.nsig * e.2.2.2.2, g.rpts)) := by
  obtain ⟨r, e1, e2, e3, e3'⟩ := refineLoop_spec (c := fn.toLogExp) h.nsig h.rpts g.lml.list h.ril h.pos (fun e he => by
    rw [h.lo, h.hi]; exact h.lml.mem e he)
  have hinv : GInv fn.toLogExp { g with ilist := r, totpts := r.npts, glist := [], refined := true, rlml := some { nmax := g.nmax, dyn := none } } :=
    ⟨h.base, h.lin, h.absc, e2, e3.1.trans h.pos, e3.2.2.2.1.trans h.ilin, e3.2.1.trans h.lo, e3.2.2.1.trans h.hi, by rw [← h.step]; exact congrArg Intv.step e3.2.2.2.2,
      h.nsig, h.rpts, h.nmax, h.lml⟩
  obtain ⟨bs, f1, f2⟩ := gridsFor_spec hinv hf r.ilist (fun I hI => hI)
  obtain ⟨bs', lm', g1, g2, g3⟩ := evalGrids_spec hsq (base := g.base) (lo := g.base.lo) (hi := g.base.hi) f2 (fun I hI => by
    have := tiles_mem e2.tiles hI
    rw [e3.2.1, h.lo, e3.2.2.1, h.hi] at this
    exact ⟨this.1, this.2.2⟩) { nmax := g.nmax, dyn := none } (lmlOk_fresh _ _ _ (by rw [h.nmax]; exact h.lml.1) _ (by simp))
  refine ⟨{ g with ilist := r, totpts := r.npts, glist := bs', refined := true, rlml := some lm' }, ?_, ?_, rfl, rfl, g2, rfl, rfl, e3'⟩
  · unfold Grid1D.refine
    dsimp only
    rw [e1]
    simp only [ok]
    rw [f1]
    dsimp only
    rw [g1]
    rfl
  · exact ⟨hinv.base, hinv.lin, hinv.absc, hinv.ril, hinv.pos, hinv.ilin, hinv.lo, hinv.hi, hinv.step, hinv.nsig, hinv.rpts, hinv.nmax, hinv.lml⟩

/-! ### Sums over the grids -/

/-- The trapezoid rule for a function on a list of abscissas. -/
def tz (f : K → K) (xs : List K) : K := trapSum (diffs xs) (xs.map f)

theorem tz_append (f : K → K) (m : K) (B : List K) : ∀ A : List K, tz f (A ++ m :: B) = tz f (A ++ [m]) + tz f (m :: B)
  | [] => by simp [tz, diffs, trapSum]
  | [a] => by
    cases B <;> simp [tz, diffs, trapSum]
  | a :: b :: A => by
    have ih := tz_append f m B (b :: A)
    simp only [tz, List.cons_append, List.map_cons, diffs, trapSum] at ih ⊢
    rw [ih]; ring

/-- The points of a grid that matches an interval. -/
theorem Matches.points {c : LogExp K} {f : K → K} {I : Intv K} {b : BGrid K} (h : Matches c f I b) (hl : I.isLin = true) : b.points c = I.pts c ++ [I.hi] := by
  have hn := h.ok.ok.n
  unfold BGrid.points Intv.pts
  have e : b.n.toNat = (I.n - 1).toNat + 1 := by rw [← h.n]; omega
  have hx : ∀ j : ℕ, b.x c j = I.pt c j := by
    intro j
    unfold BGrid.x Intv.pt
    rw [if_pos h.lin, if_pos hl, h.lo, h.step]
    simp
  rw [e, List.range_succ, List.map_append]
  congr 1
  · exact List.map_congr_left fun j _ => hx j
  · have := h.ok.ok.x_last
    rw [show b.n.toNat - 1 = (I.n - 1).toNat by omega] at this
    simp only [List.map_cons, List.map_nil, this, h.hi]

theorem Matches.pts_cons {c : LogExp K} {I : Intv K} (h : Good c I) : ∃ l, I.pts c = I.lo :: l := by
  unfold Intv.pts
  have := h.n
  have e : (I.n - 1).toNat = ((I.n - 1).toNat - 1) + 1 := by omega
  rw [e, List.range_succ_eq_map]
  have h0 := pt_zero h
  exact ⟨_, by rw [List.map_cons]; push_cast; rw [h0]⟩

/-- The sum over the grids of a tiling is the trapezoid rule on all points. -/
theorem glist_tz {c : LogExp K} {f : K → K} (k : K → K) {b : K} : ∀ {l : List (Intv K)} {bs : List (BGrid K)}, List.Forall₂ (Matches c f) l bs →
    ∀ {a : K}, Tiles a l b → (∀ I ∈ l, I.isLin = true) → (∀ I ∈ l, Good c I) →
    (bs.map fun g => tz k (g.points c)).sum = tz k (l.flatMap (Intv.pts c) ++ [b]) ∧ (l ≠ [] → ∃ r, l.flatMap (Intv.pts c) ++ [b] = a :: r) := by
  intro l bs h
  induction h with
  | nil => intro a _ _ _; simp [tz, diffs, trapSum]
  | @cons I g l bs hm _ ih =>
    intro a ht hl hg
    obtain ⟨t1, t2, t3⟩ := ht
    obtain ⟨h1, h2⟩ := ih t3 (fun J hJ => hl J (by simp [hJ])) (fun J hJ => hg J (by simp [hJ]))
    obtain ⟨r, hr⟩ := Matches.pts_cons (hg I (by simp))
    refine ⟨?_, fun _ => ⟨r ++ l.flatMap (Intv.pts c) ++ [b], by rw [List.flatMap_cons, hr, t1]; simp⟩⟩
    rw [List.map_cons, List.sum_cons, h1, hm.points (hl I (by simp)), List.flatMap_cons, List.append_assoc]
    by_cases hne : l = []
    · subst hne
      have : I.hi = b := t3
      rw [this]
      simp [tz, diffs, trapSum]
    · obtain ⟨r', hr'⟩ := h2 hne
      rw [hr', tz_append k I.hi r' (I.pts c)]

end
end Verif.Grid1
