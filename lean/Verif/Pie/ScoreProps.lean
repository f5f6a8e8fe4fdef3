import Verif.Pie.GaussianProps
import Mathlib.Algebra.Order.BigOperators.Group.List
import Mathlib.Algebra.Order.Ring.Basic

/-!
# C21, C22: chi-squared, likelihood and scores; number of data
-/

set_option linter.unusedSectionVars false
set_option linter.unusedSimpArgs false

namespace Verif.Pie
variable {K : Type} [Field K] [LinearOrder K]

/-- The predictions at locations `l` for parameter values `θ`: `signals`, or `signal` at each location if `signals` is not
implemented. -/
def Model.predict (m : Model K) (θ : ℕ → K) (l : List K) : List K := (m.signals θ l).getD (l.map (m.signal θ))

/-- `Σ ((vᵢ - fᵢ)/σᵢ)²`. -/
def chi2 (v f g : List K) : K := ((v.zip (f.zip g)).map fun x => ((x.1 - x.2.1) / x.2.2) ^ 2).sum

/-- A state reachable by some history from a class declared with data sets `ds`. -/
def SReachable (ds : List (Data K)) (m : Model K) (s : Sys K) : Prop := ∃ ops, s = (Sys.init ds).run m ops

/-! ### Helpers -/

theorem SReachable.inv {ds : List (Data K)} {m : Model K} {s : Sys K} (h : SReachable ds m s) (k : ℕ) : Inv (s.inf k) := by
  obtain ⟨ops, rfl⟩ := h
  exact ((run_logged m ops (logged_init m ds)).reach k).inv

/-- What the common part of `log_like` and `chisqr` does. -/
theorem eval_ok (m : Model K) (s : Sys K) (k p : ℕ) (hinv : Inv (s.inf k)) {L V G : Obj K} {n : ℕ}
    (hd : s.data k p = some (L, V, G, n)) :
    ∃ s' h, (s.access k p).andThen (fun s => s.getPrdxns m k p) = (s', none) ∧ s'.pred k p = some h ∧
      h.prdxns = some (m.predict ((s.inf k).read m.cfg) L.data) ∧ s'.heap h.vals = V ∧ s'.heap h.sigmas = G ∧
      (∀ j q, s'.data j q = s.data j q) ∧ (∀ j i, (s'.inf j).read m.cfg i = (s.inf j).read m.cfg i) ∧ Inv (s'.inf k) := by
  obtain ⟨s1, h1, e1, e2, e3, e4, e5⟩ : ∃ s1 h1, s.access k p = (s1, none) ∧ s1.pred k p = some h1 ∧
      s1.inf = s.inf ∧ (∀ j q, s1.data j q = s.data j q) ∧ s1.heap h1.locns = L ∧ s1.heap h1.vals = V ∧
      s1.heap h1.sigmas = G := by
    unfold Sys.access
    cases e : s.pred k p with
    | some h0 =>
      refine ⟨s, h0, rfl, e, rfl, fun _ _ => rfl, ?_⟩
      rw [Sys.data, e] at hd
      simp only [Option.some.injEq, Prod.mk.injEq] at hd
      exact ⟨hd.1, hd.2.1, hd.2.2.1⟩
    | none =>
      rw [Sys.data, e] at hd
      dsimp only at hd ⊢
      cases e' : s.decl p with
      | none => rw [e'] at hd; simp at hd
      | some d =>
        rw [e'] at hd
        simp only [Option.map_some, Option.some.injEq, Prod.mk.injEq] at hd
        refine ⟨_, _, rfl, setP_self _ _ _ _, rfl, fun j q => ?_, hd.1, hd.2.1, hd.2.2.1⟩
        by_cases hjq : (j, q) = (k, p)
        · simp only [Prod.mk.injEq] at hjq
          obtain ⟨rfl, rfl⟩ := hjq
          simp [Sys.data, e, e']
        · unfold Sys.data
          rw [setP_ne _ _ _ _ hjq]
          rfl
  rw [e1, Res.andThen_ok]
  obtain ⟨r1, r2, r3⟩ := accessAll_readOnly m.cfg m.reads hinv
  have hinf1 : s1.inf k = s.inf k := by rw [e3]
  unfold Sys.getPrdxns Sys.on
  rw [e2]
  dsimp only
  rw [hinf1]
  set t := (s1.note k [.use ((s.inf k).read m.cfg)]).onInf k (Inf.accessAll m.cfg m.reads) with ht
  have t2 : t.2 = none := by
    show (Inf.accessAll m.cfg m.reads (s1.inf k)).2 = none
    rw [hinf1]; exact r3
  have tinf : t.1.inf = Function.update s.inf k (Inf.accessAll m.cfg m.reads (s.inf k)).1 := by
    show Function.update s1.inf k (Inf.accessAll m.cfg m.reads (s1.inf k)).1 = _
    rw [e3]
  have tpred : t.1.pred = s1.pred := rfl
  have theap : t.1.heap = s1.heap := rfl
  have tdecl : t.1.decl = s1.decl := rfl
  have et : t = (t.1, none) := Prod.ext rfl t2
  rw [et, Res.andThen_ok]
  generalize t.1 = u at tinf tpred theap tdecl
  have hθ : (u.inf k).read m.cfg = (s.inf k).read m.cfg := by
    rw [tinf, Function.update_self]; funext j; exact r2 j
  have hread : ∀ j i, (u.inf j).read m.cfg i = (s.inf j).read m.cfg i := by
    intro j i
    by_cases hj : j = k
    · subst hj; rw [hθ]
    · rw [tinf, Function.update_of_ne hj]
  have hinv' : Inv (u.inf k) := by rw [tinf, Function.update_self]; exact r1
  have hdata : ∀ (ev : List (Ev K)) (pr : Option (List K)) j q,
      ((u.note k ev).setP k p { h1 with prdxns := pr }).data j q = s.data j q := by
    intro ev pr j q
    rw [← e4]
    by_cases hjq : (j, q) = (k, p)
    · simp only [Prod.mk.injEq] at hjq
      obtain ⟨rfl, rfl⟩ := hjq
      simp [Sys.data, e2, theap, Sys.note]
    · unfold Sys.data
      rw [setP_ne _ _ _ _ hjq]
      simp [Sys.note, theap, tpred, tdecl]
  have hL : (u.heap h1.locns).data = L.data := by rw [theap, e5.1]
  rw [hθ, hL]
  split
  · rename_i r hr
    refine ⟨_, _, rfl, setP_self _ _ _ _, ?_, ?_, ?_, hdata _ _, hread, hinv'⟩
    · simp [Model.predict, hr]
    · show u.heap h1.vals = V; rw [theap]; exact e5.2.1
    · show u.heap h1.sigmas = G; rw [theap]; exact e5.2.2
  · rename_i hr
    refine ⟨_, _, rfl, setP_self _ _ _ _, ?_, ?_, ?_, hdata _ _, hread, hinv'⟩
    · simp [Model.predict, hr]
    · show u.heap h1.vals = V; rw [theap]; exact e5.2.1
    · show u.heap h1.sigmas = G; rw [theap]; exact e5.2.2

theorem sumSq_eq (s : Sys K) {h : PredH K} {f : List K} (hf : h.prdxns = some f)
    (h1 : f.length = (s.heap h.vals).data.length) (h2 : (s.heap h.sigmas).data.length = (s.heap h.vals).data.length) :
    s.sumSq h = .ok (chi2 (s.heap h.vals).data f (s.heap h.sigmas).data) := by
  unfold Sys.sumSq bcast
  rw [hf]
  dsimp only
  rw [if_pos h1.symm]
  dsimp only
  rw [if_pos (by simp [h1, h2])]
  dsimp only
  unfold chi2
  congr 2
  generalize (s.heap h.vals).data = v at h1 h2
  generalize (s.heap h.sigmas).data = g at h2
  clear hf
  induction v generalizing f g with
  | nil => simp
  | cons a v ih =>
    cases f with
    | nil => simp at h1
    | cons b f =>
      cases g with
      | nil => simp at h2
      | cons c g =>
        simp only [List.zipWith_cons_cons, List.zip_cons_cons, List.map_cons, List.cons.injEq, true_and]
        exact ih (f := f) (by simpa using h1) g (by simpa using h2)

/-- Data and predictions of one predictor fit together. -/
structure Fits (m : Model K) (s : Sys K) (k p : ℕ) (L V G : Obj K) : Prop where
  data : ∃ n, s.data k p = some (L, V, G, n)
  sigmas : G.data.length = V.data.length
  pred : (m.predict ((s.inf k).read m.cfg) L.data).length = V.data.length

theorem chisqr_ok (m : Model K) (s : Sys K) (k p : ℕ) (hinv : Inv (s.inf k)) {L V G : Obj K} (hf : Fits m s k p L V G) :
    ∃ s', s.chisqr m k p = (s', .ok (chi2 V.data (m.predict ((s.inf k).read m.cfg) L.data) G.data)) ∧
      (∀ j q, s'.data j q = s.data j q) ∧ (∀ j i, (s'.inf j).read m.cfg i = (s.inf j).read m.cfg i) ∧ Inv (s'.inf k) := by
  obtain ⟨n, hd⟩ := hf.data
  obtain ⟨s', h, e1, e2, e3, e4, e5, e6, e7, e8⟩ := eval_ok m s k p hinv hd
  refine ⟨s', ?_, e6, e7, e8⟩
  unfold Sys.chisqr
  rw [e1]
  simp only [e2]
  rw [sumSq_eq s' e3 (by rw [e4]; exact hf.pred) (by rw [e4, e5]; exact hf.sigmas), e4, e5]

theorem logLike_ok (m : Model K) (s : Sys K) (k p : ℕ) (hinv : Inv (s.inf k)) {L V G : Obj K} (hf : Fits m s k p L V G) :
    ∃ s', s.logLike m k p = (s', .ok (-(1 / 2) * chi2 V.data (m.predict ((s.inf k).read m.cfg) L.data) G.data)) ∧
      (∀ j q, s'.data j q = s.data j q) ∧ (∀ j i, (s'.inf j).read m.cfg i = (s.inf j).read m.cfg i) ∧ Inv (s'.inf k) := by
  obtain ⟨n, hd⟩ := hf.data
  obtain ⟨s', h, e1, e2, e3, e4, e5, e6, e7, e8⟩ := eval_ok m s k p hinv hd
  refine ⟨s', ?_, e6, e7, e8⟩
  unfold Sys.logLike
  rw [e1]
  simp only [e2]
  rw [sumSq_eq s' e3 (by rw [e4]; exact hf.pred) (by rw [e4, e5]; exact hf.sigmas), e4, e5]
  rfl

theorem Fits.keep {m : Model K} {s s' : Sys K} {k p : ℕ} {L V G : Obj K} (h : Fits m s k p L V G)
    (h1 : ∀ j q, s'.data j q = s.data j q) (h2 : ∀ j i, (s'.inf j).read m.cfg i = (s.inf j).read m.cfg i) :
    Fits m s' k p L V G := by
  refine ⟨by rw [h1]; exact h.data, h.sigmas, ?_⟩
  rw [show (s'.inf k).read m.cfg = (s.inf k).read m.cfg from funext (h2 k)]; exact h.pred

theorem sumOver_ok (m : Model K) (k : ℕ) (f : Sys K → ℕ → Sys K × Except Err K) (g : ℕ → K) (D : ℕ → Obj K × Obj K × Obj K)
    (θ : ℕ → K)
    (hf : ∀ (s : Sys K) p, Inv (s.inf k) → (s.inf k).read m.cfg = θ → Fits m s k p (D p).1 (D p).2.1 (D p).2.2 →
      ∃ s', f s p = (s', .ok (g p)) ∧ (∀ j q, s'.data j q = s.data j q) ∧
        (∀ j i, (s'.inf j).read m.cfg i = (s.inf j).read m.cfg i) ∧ Inv (s'.inf k))
    (names : List ℕ) : ∀ (acc : K) (s : Sys K), Inv (s.inf k) → (s.inf k).read m.cfg = θ →
      (∀ p ∈ names, Fits m s k p (D p).1 (D p).2.1 (D p).2.2) →
      ∃ s', Sys.sumOver f names acc s = (s', .ok (acc + (names.map g).sum)) ∧ (∀ j q, s'.data j q = s.data j q) ∧
        (s'.inf k).read m.cfg = θ := by
  induction names with
  | nil => intro acc s _ hθ _; exact ⟨s, by simp [Sys.sumOver], fun _ _ => rfl, hθ⟩
  | cons p l ih =>
    intro acc s hinv hθ hall
    obtain ⟨s', e1, e2, e3, e4⟩ := hf s p hinv hθ (hall p (by simp))
    have hθ' : (s'.inf k).read m.cfg = θ := by rw [show (s'.inf k).read m.cfg = (s.inf k).read m.cfg from funext (e3 k)]; exact hθ
    obtain ⟨s'', f1, f2, f3⟩ := ih (acc + g p) s' e4 hθ' fun q hq => (hall q (by simp [hq])).keep e2 e3
    refine ⟨s'', ?_, fun j q => (f2 j q).trans (e2 j q), f3⟩
    unfold Sys.sumOver
    rw [e1]
    simp only [f1, List.map_cons, List.sum_cons]
    rw [add_assoc]

/-! ### C21 -/

/-- **C21 (agreement).** In every state whatsoever, calling `log_like()` or `chisqr()` on a predictor has the same effect
and the same exceptions, and `log_like() = -chisqr()/2`, that is, `chisqr() = -2 log_like()`. -/
theorem C21_agree (m : Model K) (s : Sys K) (k p : ℕ) :
    (s.logLike m k p).1 = (s.chisqr m k p).1 ∧
    (∀ e, (s.logLike m k p).2 = .error e ↔ (s.chisqr m k p).2 = .error e) ∧
    ∀ x y, (s.logLike m k p).2 = .ok x → (s.chisqr m k p).2 = .ok y → x = -(y / 2) := by
  unfold Sys.logLike Sys.chisqr
  generalize (s.access k p).andThen (fun s => s.getPrdxns m k p) = r
  obtain ⟨s', _ | e⟩ := r
  · dsimp only
    cases s'.pred k p with
    | none => simp
    | some h =>
      dsimp only
      cases s'.sumSq h with
      | error e => simp [Except.map]
      | ok x =>
        refine ⟨rfl, by simp [Except.map], ?_⟩
        simp only [Except.map, Except.ok.injEq]
        rintro a b rfl rfl
        ring
  · simp

/-- **C21 (values).** In every reachable state, if the instance's data and predictions have matching lengths, `chisqr()`
returns `Σ((vᵢ - fᵢ)/σᵢ)²` and `log_like()` minus half of that, where `v`, `σ` are the data the instance now sees and `f`
the predictions for its current parameter values at its current locations; neither changes data or parameter values. -/
theorem C21_value (ds : List (Data K)) (m : Model K) (s : Sys K) (hr : SReachable ds m s) (k p : ℕ) (L V G : Obj K)
    (hf : Fits m s k p L V G) :
    (s.chisqr m k p).2 = .ok (chi2 V.data (m.predict ((s.inf k).read m.cfg) L.data) G.data) ∧
    (s.logLike m k p).2 = .ok (-(1 / 2) * chi2 V.data (m.predict ((s.inf k).read m.cfg) L.data) G.data) ∧
    (∀ j q, (s.chisqr m k p).1.data j q = s.data j q) ∧
    (∀ j i, ((s.chisqr m k p).1.inf j).read m.cfg i = (s.inf j).read m.cfg i) := by
  obtain ⟨s1, e1, e2, e3, _⟩ := chisqr_ok m s k p (hr.inv k) hf
  obtain ⟨s2, f1, f2, f3, _⟩ := logLike_ok m s k p (hr.inv k) hf
  rw [e1, f1]
  exact ⟨rfl, rfl, e2, e3⟩

/-- **C21 (sign).** The sum of squares is not negative, and it is zero exactly when every prediction equals its datum
(sigmas being non-zero). -/
theorem C21_nonneg [IsStrictOrderedRing K] (v f g : List K) :
    0 ≤ chi2 v f g ∧
    (f.length = v.length → g.length = v.length → (∀ x ∈ g, x ≠ 0) → (chi2 v f g = 0 ↔ v = f)) := by
  have hnn : ∀ v f g : List K, 0 ≤ chi2 v f g := by
    intro v f g
    unfold chi2
    refine List.sum_nonneg fun x hx => ?_
    obtain ⟨y, _, rfl⟩ := List.mem_map.mp hx
    exact sq_nonneg _
  refine ⟨hnn v f g, ?_⟩
  induction v generalizing f g with
  | nil => intro h1 _ _; simp at h1; subst h1; simp [chi2]
  | cons a v ih =>
    intro h1 h2 h3
    cases f with
    | nil => simp at h1
    | cons b f =>
      cases g with
      | nil => simp at h2
      | cons c g =>
        have hc : c ≠ 0 := h3 c (by simp)
        have e : chi2 (a :: v) (b :: f) (c :: g) = ((a - b) / c) ^ 2 + chi2 v f g := by simp [chi2]
        rw [e]
        have ih' := ih f g (by simpa using h1) (by simpa using h2) fun x hx => h3 x (by simp [hx])
        rw [add_eq_zero_iff_of_nonneg (sq_nonneg _) (hnn v f g), ih']
        simp [hc, sub_eq_zero]

/-- **C21 (scores).** In every reachable state, with data and predictions of matching lengths for all predictors `names`:
the maximum likelihood score is the sum of the predictors' log likelihoods, the chi-squared score the sum of their
chi-squareds, and the Bayesian score the sum of the log likelihoods plus the log prior, all for the current data and
parameter values. (`D p` are the locations, values and sigmas the instance sees at predictor `p`.) -/
theorem C21_scores (ds : List (Data K)) (m : Model K) (s : Sys K) (hr : SReachable ds m s) (k : ℕ) (names : List ℕ)
    (D : ℕ → Obj K × Obj K × Obj K) (hf : ∀ p ∈ names, Fits m s k p (D p).1 (D p).2.1 (D p).2.2) :
    let θ := (s.inf k).read m.cfg
    let X := fun p => chi2 (D p).2.1.data (m.predict θ (D p).1.data) (D p).2.2.data
    (s.chisqrScore m names k).2 = .ok (names.map X).sum ∧
    (s.maxLikeScore m names k).2 = .ok (names.map fun p => -(1 / 2) * X p).sum ∧
    (s.bayesScore m names k).2 = .ok ((names.map fun p => -(1 / 2) * X p).sum + m.logPrior θ) := by
  intro θ X
  obtain ⟨s1, e1, _⟩ := sumOver_ok m k (fun s p => s.chisqr m k p) X D θ (fun t p h1 h2 h3 => by
    have := chisqr_ok m t k p h1 h3
    rw [h2] at this; exact this) names 0 s (hr.inv k) rfl hf
  obtain ⟨s2, f1, _, f3⟩ := sumOver_ok m k (fun s p => s.logLike m k p) (fun p => -(1 / 2) * X p) D θ
    (fun t p h1 h2 h3 => by
      have := logLike_ok m t k p h1 h3
      rw [h2] at this; exact this) names 0 s (hr.inv k) rfl hf
  rw [zero_add] at e1 f1
  refine ⟨?_, ?_, ?_⟩
  · show (Sys.sumOver _ _ _ _).2 = _; rw [e1]
  · show (Sys.sumOver _ _ _ _).2 = _; rw [f1]
  · unfold Sys.bayesScore
    rw [f1]
    dsimp only
    rw [f3]

/-- Non-vacuity: two predictors, one with simulated data. -/
example :
    let ds : List (Data ℚ) := [⟨[3, 4], [5, 6], [1, 2]⟩, ⟨[1], [1], [1]⟩]
    let s := (Sys.init ds).run exModel [.param 0 (.assign 0 (some 2)), .pred 0 0 (.sim1 0 none none 3)]
    Fits exModel s 0 0 ⟨true, [3, 4]⟩ ⟨true, [9, 6]⟩ ⟨true, [1, 2]⟩ ∧
    (s.chisqr exModel 0 0).2.toOption = some 10 ∧ (s.maxLikeScore exModel [0, 1] 0).2.toOption = some (-(11 / 2)) := by
  refine ⟨⟨⟨2, by decide +kernel⟩, rfl, by decide +kernel⟩, ?_, ?_⟩ <;> decide +kernel

/-! ### C22 -/

/-- The argument is a newly made sequence of `n` items. -/
def Arg.hasLength (n : ℕ) : Arg K → Prop
  | .fresh o => o.data.length = n
  | .ref _ => False

/-- The call is not one of those known to break the count: `add_sim`, and `sim` with both arguments given, unless one of
them is a new sequence of the right length. -/
def POp.keepsCount (n : ℕ) : POp K → Prop
  | .addSim _ _ _ _ => False
  | .sim (some l) (some g) _ => l.hasLength n ∨ g.hasLength n
  | _ => True

/-- The declared number of data. -/
def count (ds : List (Data K)) (p : ℕ) : ℕ := (ds.getD p ⟨[], [], []⟩).vals.length

structure PredH.Good (s : Sys K) (n : ℕ) (h : PredH K) : Prop where
  ndata : h.ndata = n
  addrs : ∀ a ∈ h.addrs, a < s.next ∧ s.len a = n

/-- All handlers and declarations have matching counts. -/
structure LenInv (ds : List (Data K)) (s : Sys K) : Prop where
  pred : ∀ k p h, s.pred k p = some h → h.Good s (count ds p)
  decl : ∀ p d, s.decl p = some d → d.ndata = count ds p ∧ ∀ a ∈ d.addrs, a < s.next ∧ s.len a = count ds p

/-- Nothing in use changes its length. -/
structure Keeps (s s' : Sys K) : Prop where
  next : s.next ≤ s'.next
  len : ∀ a, a < s.next → s'.len a = s.len a
  decl : s'.decl = s.decl

theorem Keeps.refl (s : Sys K) : Keeps s s := ⟨le_refl _, fun _ _ => rfl, rfl⟩
theorem Keeps.trans {s s' s'' : Sys K} (h : Keeps s s') (h' : Keeps s' s'') : Keeps s s'' :=
  ⟨h.next.trans h'.next, fun a ha => (h'.len a (lt_of_lt_of_le ha h.next)).trans (h.len a ha), h'.decl.trans h.decl⟩

theorem PredH.Good.keep {s s' : Sys K} {n : ℕ} {h : PredH K} (hg : h.Good s n) (hk : Keeps s s') : h.Good s' n :=
  ⟨hg.ndata, fun a ha => ⟨lt_of_lt_of_le (hg.addrs a ha).1 hk.next, (hk.len a (hg.addrs a ha).1).trans (hg.addrs a ha).2⟩⟩

theorem LenInv.keep {ds : List (Data K)} {s s' : Sys K} (h : LenInv ds s) (hk : Keeps s s') (hp : s'.pred = s.pred) :
    LenInv ds s' := by
  refine ⟨fun k p x e => ?_, fun p d e => ?_⟩
  · rw [hp] at e; exact (h.pred k p x e).keep hk
  · rw [hk.decl] at e
    exact ⟨(h.decl p d e).1, fun a ha => ⟨lt_of_lt_of_le ((h.decl p d e).2 a ha).1 hk.next,
      (hk.len a ((h.decl p d e).2 a ha).1).trans ((h.decl p d e).2 a ha).2⟩⟩

theorem LenInv.setP {ds : List (Data K)} {s : Sys K} (h : LenInv ds s) {k p : ℕ} {x : PredH K}
    (hx : x.Good s (count ds p)) : LenInv ds (s.setP k p x) := by
  refine ⟨fun j q y e => ?_, h.decl⟩
  by_cases hjq : (j, q) = (k, p)
  · simp only [Prod.mk.injEq] at hjq
    obtain ⟨rfl, rfl⟩ := hjq
    rw [setP_self] at e; injection e with e; subst e
    exact ⟨hx.ndata, hx.addrs⟩
  · rw [setP_ne _ _ _ _ hjq] at e
    exact ⟨(h.pred j q y e).ndata, (h.pred j q y e).addrs⟩

theorem keeps_alloc (s : Sys K) (o : Obj K) : Keeps s (s.alloc o).1 := by
  refine ⟨by simp, fun a ha => ?_, rfl⟩
  unfold Sys.len
  rw [alloc_heap, Function.update_of_ne (by omega)]

theorem LenInv.alloc {ds : List (Data K)} {s : Sys K} (h : LenInv ds s) (o : Obj K) : LenInv ds (s.alloc o).1 :=
  h.keep (keeps_alloc s o) rfl

theorem alloc_len (s : Sys K) (o : Obj K) : (s.alloc o).1.len s.next = o.data.length := by
  unfold Sys.len; rw [alloc_heap]; simp

theorem lenInv_on {ds : List (Data K)} {s : Sys K} {k p : ℕ} {f : PredH K → Res (Sys K)} (h : LenInv ds s)
    (hf : ∀ h0, s.pred k p = some h0 → LenInv ds (f h0).1) : LenInv ds (s.on k p f).1 := by
  unfold Sys.on
  cases e : s.pred k p with
  | none => exact h
  | some h0 => exact hf h0 e

theorem lenInv_andThen {ds : List (Data K)} {r : Res (Sys K)} {f : Sys K → Res (Sys K)} (h : LenInv ds r.1)
    (hf : r.2 = none → LenInv ds (f r.1).1) : LenInv ds (r.andThen f).1 := by
  obtain ⟨s', _ | e⟩ := r
  · exact hf rfl
  · exact h

theorem lenInv_access {ds : List (Data K)} {s : Sys K} (h : LenInv ds s) (k p : ℕ) : LenInv ds (s.access k p).1 := by
  unfold Sys.access
  split
  · exact h
  · split
    · exact h
    · rename_i d e
      exact h.setP ⟨(h.decl p d e).1, (h.decl p d e).2⟩

theorem keeps_setP {s s1 : Sys K} (h : Keeps s s1) (k p : ℕ) (x : PredH K) : Keeps s (s1.setP k p x) := ⟨h.next, h.len, h.decl⟩

theorem localize_keeps (s : Sys K) (k p : ℕ) : Keeps s (s.localize k p).1 := by
  unfold Sys.localize Sys.on
  split
  · exact Keeps.refl s
  · dsimp only
    split_ifs
    · exact keeps_setP (((keeps_alloc s _).trans (keeps_alloc _ _)).trans (keeps_alloc _ _)) _ _ _
    · exact Keeps.refl s

theorem lenInv_localize {ds : List (Data K)} {s : Sys K} (h : LenInv ds s) (k p : ℕ) :
    LenInv ds (s.localize k p).1 := by
  unfold Sys.localize
  refine lenInv_on h fun h0 e => ?_
  have hg := h.pred k p h0 e
  split_ifs
  · dsimp only [ok]
    refine LenInv.setP (((h.alloc _).alloc _).alloc _) ⟨hg.ndata, fun a ha => ?_⟩
    have g1 := hg.addrs h0.locns (by simp [PredH.addrs])
    have g2 := hg.addrs h0.vals (by simp [PredH.addrs])
    have g3 := hg.addrs h0.sigmas (by simp [PredH.addrs])
    have l1 : ∀ a, a < s.next → ∀ o, ((s.alloc o).1.heap a) = s.heap a := by
      intro a ha o; rw [alloc_heap, Function.update_of_ne (by omega)]
    simp only [PredH.addrs, alloc_snd, alloc_next, List.mem_cons, List.not_mem_nil, or_false] at ha
    rcases ha with rfl | rfl | rfl
    · refine ⟨by simp only [alloc_next]; omega, ?_⟩
      rw [(keeps_alloc _ _).len _ (by simp only [alloc_next]; omega), (keeps_alloc _ _).len _ (by simp only [alloc_next]; omega)]
      rw [alloc_len]; exact g1.2
    · refine ⟨by simp only [alloc_next]; omega, ?_⟩
      rw [(keeps_alloc _ _).len _ (by simp only [alloc_next]; omega)]
      rw [show s.next + 1 = (s.alloc (s.heap h0.locns)).1.next from rfl, alloc_len, l1 _ g2.1]; exact g2.2
    · refine ⟨by simp only [alloc_next]; omega, ?_⟩
      rw [show s.next + 1 + 1 = ((s.alloc (s.heap h0.locns)).1.alloc ((s.alloc (s.heap h0.locns)).1.heap h0.vals)).1.next from rfl,
        alloc_len]
      have : ((s.alloc (s.heap h0.locns)).1.alloc ((s.alloc (s.heap h0.locns)).1.heap h0.vals)).1.len h0.sigmas = count ds p := by
        rw [(keeps_alloc _ _).len _ (by simp only [alloc_next]; omega), (keeps_alloc _ _).len _ g3.1]; exact g3.2
      exact this
  · exact h

theorem lenInv_changing {ds : List (Data K)} {s : Sys K} (h : LenInv ds s) (k p : ℕ) :
    LenInv ds (s.changingData k p).1 ∧ Keeps s (s.changingData k p).1 := by
  unfold Sys.changingData
  have h1 := lenInv_localize h k p
  have h2 := localize_keeps s k p
  generalize s.localize k p = r at h1 h2
  obtain ⟨s', _ | e⟩ := r
  · rw [Res.andThen_ok]
    refine ⟨lenInv_on h1 fun h0 e => ?_, ?_⟩
    · have hg := h1.pred k p h0 e
      exact h1.setP ⟨hg.ndata, hg.addrs⟩
    · unfold Sys.on
      split
      · exact h2
      · exact keeps_setP h2 _ _ _
  · exact ⟨h1, h2⟩

theorem lenInv_getPrdxns {ds : List (Data K)} (m : Model K) {s : Sys K} (h : LenInv ds s) (k p : ℕ) :
    LenInv ds (s.getPrdxns m k p).1 := by
  have h1 := (getPrdxns_heap m s k p)
  have h2 := (getPrdxns_foot (w := False) m s k p [])
  have hk : Keeps s (s.getPrdxns m k p).1 := ⟨h2.next, fun a _ => by unfold Sys.len; rw [h1.1], h2.decl⟩
  refine ⟨fun j q x e => ?_, fun q d e => ?_⟩
  · by_cases hjq : (j, q) = (k, p)
    · simp only [Prod.mk.injEq] at hjq
      obtain ⟨rfl, rfl⟩ := hjq
      cases e0 : s.pred j q with
      | none =>
        unfold Sys.getPrdxns Sys.on at e
        rw [e0] at e
        simp [raise, e0] at e
      | some y =>
        obtain ⟨pr, e1⟩ := getPrdxns_pred m s j q e0
        rw [e1] at e; injection e with e; subst e
        have hg := (h.pred j q y e0).keep hk
        exact ⟨hg.ndata, hg.addrs⟩
    · rw [h2.pred j q hjq] at e
      exact (h.pred j q x e).keep hk
  · rw [hk.decl] at e
    have hd := h.decl q d e
    exact ⟨hd.1, fun a ha => ⟨lt_of_lt_of_le (hd.2 a ha).1 hk.next, (hk.len a (hd.2 a ha).1).trans (hd.2 a ha).2⟩⟩

/-- The predictions just made are as many as the locations, if the signal model keeps lengths. -/
theorem getPrdxns_length (m : Model K) (hm : ∀ θ l r, m.signals θ l = some r → r.length = l.length) (s : Sys K) (k p : ℕ)
    (hok : (s.getPrdxns m k p).2 = none) {h : PredH K} (e : (s.getPrdxns m k p).1.pred k p = some h) :
    ∃ pr, h.prdxns = some pr ∧ pr.length = (s.getPrdxns m k p).1.len h.locns := by
  unfold Sys.getPrdxns Sys.on at hok e ⊢
  cases e0 : s.pred k p with
  | none => rw [e0] at hok; simp [raise] at hok
  | some h0 =>
    rw [e0] at hok e
    dsimp only at hok e ⊢
    generalize hr : (s.note k [.use ((s.inf k).read m.cfg)]).onInf k (Inf.accessAll m.cfg m.reads) = r at hok e ⊢
    obtain ⟨t, _ | x⟩ := r
    · rw [Res.andThen_ok] at e ⊢
      split at e
      · rename_i r' hr'
        simp only [ok, setP_self, Option.some.injEq] at e
        subst e
        simp only [hr']
        exact ⟨_, rfl, hm _ _ _ hr'⟩
      · rename_i hr'
        simp only [ok, setP_self, Option.some.injEq] at e
        subst e
        simp only [hr']
        exact ⟨_, rfl, by simp [Sys.len, Sys.note, ok]⟩
    · simp [Res.andThen] at hok

theorem lenInv_simDraw {ds : List (Data K)} (m : Model K) (hm : ∀ θ l r, m.signals θ l = some r → r.length = l.length)
    {s : Sys K} (h : LenInv ds s) (k p : ℕ) (z : ℕ → K) : LenInv ds (s.simDraw m k p z).1 := by
  unfold Sys.simDraw
  have hl := getPrdxns_length m hm s k p
  have hi := lenInv_getPrdxns m h k p
  generalize s.getPrdxns m k p = r at hl hi
  refine lenInv_andThen hi fun hok => lenInv_on hi fun h0 e => ?_
  obtain ⟨pr, e1, e2⟩ := hl hok e
  have hg := hi.pred k p h0 e
  rw [e1]
  dsimp only
  split
  · exact hi
  · rename_i x hx
    split
    · exact hi
    · rename_i v hv
      have gl := hg.addrs h0.locns (by simp [PredH.addrs])
      have gs := hg.addrs h0.sigmas (by simp [PredH.addrs])
      have hx' : x.length = count ds p := by
        unfold bcast at hx
        rw [if_pos (by rw [List.length_map, List.length_range, hg.ndata]; exact gs.2)] at hx
        injection hx with hx; subst hx
        have : (r.1.heap h0.sigmas).data.length = count ds p := gs.2
        simp [this, hg.ndata]
      have hv' : v.length = count ds p := by
        unfold bcast at hv
        rw [if_pos (by rw [hx', e2]; exact gl.2)] at hv
        injection hv with hv; subst hv
        simp [hx', e2, gl.2]
      dsimp only [ok]
      refine (hi.alloc _).setP ⟨hg.ndata, fun a ha => ?_⟩
      have hk := keeps_alloc r.1 { isArray := true, data := v }
      simp only [PredH.addrs, alloc_snd, List.mem_cons, List.not_mem_nil, or_false] at ha
      rcases ha with rfl | rfl | rfl
      · exact ⟨lt_of_lt_of_le gl.1 hk.next, (hk.len _ gl.1).trans gl.2⟩
      · exact ⟨by simp, by rw [alloc_len]; exact hv'⟩
      · exact ⟨lt_of_lt_of_le gs.1 hk.next, (hk.len _ gs.1).trans gs.2⟩

theorem lenInv_withArg {ds : List (Data K)} {s : Sys K} (h : LenInv ds s) (arg : Option (Arg K))
    {f : Sys K → Option ℕ → Res (Sys K)}
    (hf : ∀ s' o, LenInv ds s' → Keeps s s' → (∀ a, o = some a → a < s'.next) → (o = none ↔ arg = none) →
      (∀ a n x, o = some a → arg = some x → x.hasLength n → s'.len a = n) → LenInv ds (f s' o).1) :
    LenInv ds (s.withArg arg f).1 := by
  unfold Sys.withArg
  match arg with
  | none => exact hf s none h (Keeps.refl s) (by simp) (by simp) (by simp)
  | some (.fresh o) =>
    refine hf _ _ (h.alloc o) (keeps_alloc s o) (fun a ha => ?_) (by simp) (fun a n x ha hx hn => ?_)
    · simp only [alloc_snd, Option.some.injEq] at ha; subst ha; simp
    · simp only [alloc_snd, Option.some.injEq] at ha hx
      subst ha; subst hx
      exact (alloc_len s o).trans hn
  | some (.ref a) =>
    dsimp only
    split_ifs with hlt
    · refine hf _ _ h (Keeps.refl s) (fun b hb => ?_) (by simp) (fun b n x hb hx hn => ?_)
      · simp only [Option.some.injEq] at hb; subst hb; exact hlt
      · simp only [Option.some.injEq] at hx; subst hx; exact hn.elim
    · exact h

theorem lenInv_sim {ds : List (Data K)} (m : Model K) (hm : ∀ θ l r, m.signals θ l = some r → r.length = l.length)
    {s : Sys K} (h : LenInv ds s) (k p : ℕ) (l g : Option (Arg K)) (z : ℕ → K)
    (hk : (POp.sim l g z).keepsCount (count ds p)) : LenInv ds (s.sim m k p l g z).1 := by
  unfold Sys.sim
  refine lenInv_andThen (lenInv_access h k p) fun _ => ?_
  refine lenInv_withArg (lenInv_access h k p) l fun s2 lo h2 _ hlo hln hll => ?_
  refine lenInv_withArg h2 g fun s3 go h3 k3 hgo hgn hgl => ?_
  obtain ⟨h4, k4⟩ := lenInv_changing h3 k p
  refine lenInv_andThen h4 fun _ => ?_
  generalize (s3.changingData k p).1 = t at h4 k4
  refine lenInv_on h4 fun h0 e0 => ?_
  have hg := h4.pred k p h0 e0
  have lt_l : ∀ a, lo = some a → a < t.next := fun a ha => lt_of_lt_of_le (hlo a ha) (k3.next.trans k4.next)
  have lt_g : ∀ a, go = some a → a < t.next := fun a ha => lt_of_lt_of_le (hgo a ha) k4.next
  have len_l : ∀ a x, lo = some a → l = some x → x.hasLength (count ds p) → t.len a = count ds p := by
    intro a x h1 h2 h3
    rw [k4.len a (lt_of_lt_of_le (hlo a h1) k3.next), k3.len a (hlo a h1)]
    exact hll a _ x h1 h2 h3
  have len_g : ∀ a x, go = some a → g = some x → x.hasLength (count ds p) → t.len a = count ds p := by
    intro a x h1 h2 h3
    rw [k4.len a (hgo a h1)]
    exact hgl a _ x h1 h2 h3
  have fin : ∀ h' : PredH K, h'.Good t (count ds p) → LenInv ds ((t.setP k p h').simDraw m k p z).1 :=
    fun h' hg' => lenInv_simDraw m hm (h4.setP hg') k p z
  have o1 := hg.addrs h0.locns (by simp [PredH.addrs])
  have o2 := hg.addrs h0.vals (by simp [PredH.addrs])
  have o3 := hg.addrs h0.sigmas (by simp [PredH.addrs])
  split
  · exact h4
  · split
    · exact h4
    · split
      · rename_i lo' go' _ _
        split_ifs with hlen
        · exact h4
        · rw [not_not] at hlen
          obtain ⟨x, hx⟩ : ∃ x, l = some x := by
            cases l with
            | none => simp at hln
            | some x => exact ⟨x, rfl⟩
          obtain ⟨y, hy⟩ : ∃ y, g = some y := by
            cases g with
            | none => simp at hgn
            | some y => exact ⟨y, rfl⟩
          have hboth : t.len lo' = count ds p ∧ t.len go' = count ds p := by
            rw [hx, hy] at hk
            rcases hk with hk | hk
            · have := len_l lo' x rfl hx hk
              exact ⟨this, hlen ▸ this⟩
            · have := len_g go' y rfl hy hk
              exact ⟨hlen ▸ this, this⟩
          refine fin _ ⟨hg.ndata, fun a ha => ?_⟩
          simp only [PredH.addrs, List.mem_cons, List.not_mem_nil, or_false] at ha
          rcases ha with rfl | rfl | rfl
          · exact ⟨lt_l _ rfl, hboth.1⟩
          · exact o2
          · exact ⟨lt_g _ rfl, hboth.2⟩
      · exact h4
    · split
      · rename_i lo' _ _ _
        split_ifs with hlen
        · exact h4
        · rw [not_not] at hlen
          refine fin _ ⟨hg.ndata, fun a ha => ?_⟩
          simp only [PredH.addrs, List.mem_cons, List.not_mem_nil, or_false] at ha
          rcases ha with rfl | rfl | rfl
          · exact ⟨lt_l _ rfl, hlen.trans hg.ndata⟩
          · exact o2
          · exact o3
      · exact h4
  · split
    · exact h4
    · split
      · rename_i go' _ _ _
        split_ifs with hlen
        · exact h4
        · rw [not_not] at hlen
          refine fin _ ⟨hg.ndata, fun a ha => ?_⟩
          simp only [PredH.addrs, List.mem_cons, List.not_mem_nil, or_false] at ha
          rcases ha with rfl | rfl | rfl
          · exact o1
          · exact o2
          · exact ⟨lt_g _ rfl, hlen.trans hg.ndata⟩
      · exact h4
    · exact lenInv_simDraw m hm h4 k p z

theorem keeps_writeAt (s : Sys K) (a : ℕ) (n : ℤ) (v : K) : Keeps s (s.writeAt a n v).1 := by
  unfold Sys.writeAt
  dsimp only
  split
  · exact Keeps.refl s
  · refine ⟨le_refl _, fun b _ => ?_, rfl⟩
    by_cases hb : b = a
    · subst hb; simp [Sys.len, ok]
    · simp [Sys.len, Function.update_of_ne hb, ok]

theorem lenInv_writeAt {ds : List (Data K)} {s : Sys K} (h : LenInv ds s) (a : ℕ) (n : ℤ) (v : K) :
    LenInv ds (s.writeAt a n v).1 := h.keep (keeps_writeAt s a n v) (writeAt_same s a n v).1

theorem lenInv_writeIf {ds : List (Data K)} {s : Sys K} (h : LenInv ds s) (a : ℕ) (n : ℤ) (v : Option K) :
    LenInv ds (s.writeIf a n v).1 := by
  unfold Sys.writeIf
  split
  · exact h
  · split_ifs
    · exact h
    · exact lenInv_writeAt h a n _

theorem lenInv_pstep {ds : List (Data K)} (m : Model K) (hm : ∀ θ l r, m.signals θ l = some r → r.length = l.length)
    {s : Sys K} (h : LenInv ds s) (k p : ℕ) (op : POp K) (hop : op.keepsCount (count ds p)) :
    LenInv ds (s.pstep m k p op).1 := by
  have hev : LenInv ds ((s.access k p).andThen fun s => s.getPrdxns m k p).1 :=
    lenInv_andThen (lenInv_access h k p) fun _ => lenInv_getPrdxns m (lenInv_access h k p) k p
  cases op with
  | get => exact lenInv_access h k p
  | localize => exact lenInv_andThen (lenInv_access h k p) fun _ => lenInv_localize (lenInv_access h k p) k p
  | sim l g z => exact lenInv_sim m hm h k p l g z hop
  | sim1 n l g z =>
    have h1 := lenInv_access h k p
    have h2 := (lenInv_changing h1 k p).1
    show LenInv ds (s.sim1 m k p n l g z).1
    unfold Sys.sim1
    refine lenInv_andThen h1 fun _ => lenInv_andThen h2 fun _ => lenInv_on h2 fun h0 _ => ?_
    refine lenInv_andThen (lenInv_writeIf h2 _ _ _) fun _ => ?_
    have h3 := lenInv_writeIf h2 h0.locns n l
    refine lenInv_andThen (lenInv_writeIf h3 _ _ _) fun _ => ?_
    have h4 := lenInv_writeIf h3 h0.sigmas n g
    have h5 := lenInv_getPrdxns m h4 k p
    refine lenInv_andThen h5 fun _ => lenInv_on h5 fun h0 _ => ?_
    split
    · exact h5
    · split
      · exact h5
      · split
        · exact h5
        · exact lenInv_writeAt h5 _ _ _
  | addSim x y l g => exact hop.elim
  | logLike =>
    show LenInv ds (s.logLike m k p).1
    unfold Sys.logLike
    generalize (s.access k p).andThen (fun s => s.getPrdxns m k p) = r at hev
    obtain ⟨s', _ | e⟩ := r
    · dsimp only; split <;> exact hev
    · exact hev
  | chisqr =>
    show LenInv ds (s.chisqr m k p).1
    unfold Sys.chisqr
    generalize (s.access k p).andThen (fun s => s.getPrdxns m k p) = r at hev
    obtain ⟨s', _ | e⟩ := r
    · dsimp only; split <;> exact hev
    · exact hev

theorem lenInv_init {ds : List (Data K)} (hd : Declared ds) : LenInv ds (Sys.init ds) := by
  refine ⟨fun k p h e => by simp [Sys.init] at e, fun p d e => ?_⟩
  obtain ⟨h1, h2, h3, h4, h5⟩ := init_decl e
  have hmem : ds.getD p ⟨[], [], []⟩ ∈ ds := by simp [List.getD, h1]
  have hl := hd.lengths hmem
  refine ⟨h5, fun a ha => ?_⟩
  simp only [Decl.addrs, List.mem_cons, List.not_mem_nil, or_false] at ha
  have e1 : 3 * p / 3 = p := by omega
  have e2 : (3 * p + 1) / 3 = p := by omega
  have e3 : (3 * p + 2) / 3 = p := by omega
  have f2 : (3 * p + 1) % 3 = 1 := by omega
  have f3 : (3 * p + 2) % 3 = 2 := by omega
  have hn : (Sys.init ds).next = 3 * ds.length := rfl
  rw [hn]
  unfold count
  rcases ha with rfl | rfl | rfl
  · refine ⟨by omega, ?_⟩
    rw [h2]; simp only [Sys.len, Sys.init, e1, Nat.mul_mod_right, if_true]; exact hl.1
  · refine ⟨by omega, ?_⟩
    rw [h3]; simp only [Sys.len, Sys.init, e2, f2]; rfl
  · refine ⟨by omega, ?_⟩
    rw [h4]; simp only [Sys.len, Sys.init, e3, f3]; exact hl.2.symm

/-- **C22 (part).** If no `add_sim` is ever called, and whenever `sim` is called with both locations and sigmas one of
them is a new sequence as long as the declared data, then in every history, raising calls included, every instance sees
at every predictor as many locations, values and sigmas as `ndata` says. The model's `signals`, if implemented, must
return as many predictions as it is given locations. Missing: `add_sim`, and `sim` with two sequences of another length,
for which the property is false (`C22_violated`). -/
theorem C22_count_partial (ds : List (Data K)) (hd : Declared ds) (m : Model K)
    (hm : ∀ θ l r, m.signals θ l = some r → r.length = l.length) (ops : List (SOp K))
    (hops : ∀ k p op, SOp.pred k p op ∈ ops → op.keepsCount (count ds p)) (k p : ℕ) (L V G : Obj K) (n : ℕ)
    (hdata : ((Sys.init ds).run m ops).data k p = some (L, V, G, n)) :
    L.data.length = n ∧ V.data.length = n ∧ G.data.length = n := by
  have key : ∀ (ops : List (SOp K)) (s : Sys K), LenInv ds s →
      (∀ k p op, SOp.pred k p op ∈ ops → op.keepsCount (count ds p)) → LenInv ds (s.run m ops) := by
    intro ops
    induction ops with
    | nil => intro s h _; exact h
    | cons op ops ih =>
      intro s h hops
      refine ih _ ?_ fun k p o ho => hops k p o (by simp [ho])
      cases op with
      | param k o => exact ⟨fun k p x e => ⟨(h.pred k p x e).ndata, (h.pred k p x e).addrs⟩, h.decl⟩
      | pred k p o => exact lenInv_pstep m hm h k p o (hops k p o (by simp))
  have hi := key ops _ (lenInv_init hd) hops
  unfold Sys.data at hdata
  cases e : ((Sys.init ds).run m ops).pred k p with
  | some h =>
    rw [e] at hdata
    simp only [Option.some.injEq, Prod.mk.injEq] at hdata
    obtain ⟨rfl, rfl, rfl, rfl⟩ := hdata
    have hg := hi.pred k p h e
    rw [hg.ndata]
    exact ⟨(hg.addrs _ (by simp [PredH.addrs])).2, (hg.addrs _ (by simp [PredH.addrs])).2,
      (hg.addrs _ (by simp [PredH.addrs])).2⟩
  | none =>
    rw [e] at hdata
    dsimp only at hdata
    cases e' : ((Sys.init ds).run m ops).decl p with
    | none => rw [e'] at hdata; simp at hdata
    | some d =>
      rw [e'] at hdata
      simp only [Option.map_some, Option.some.injEq, Prod.mk.injEq] at hdata
      obtain ⟨rfl, rfl, rfl, rfl⟩ := hdata
      have hg := hi.decl p d e'
      rw [hg.1]
      exact ⟨(hg.2 _ (by simp [Decl.addrs])).2, (hg.2 _ (by simp [Decl.addrs])).2, (hg.2 _ (by simp [Decl.addrs])).2⟩

/-- **C22 violated.** From two data: a successful `add_sim` of one datum leaves `ndata = 6` with three locations and two
values; a `sim` with two sequences of three raises and leaves three locations, two values and `ndata = 2`; with sequences
of one item it even succeeds, and leaves one location, two values. -/
theorem C22_violated :
    let s := Sys.init [(⟨[3, 4], [5, 6], [1, 1]⟩ : Data ℚ)]
    let counts := fun r : Res (Sys ℚ) => (r.2, (r.1.data 0 0).map fun x => (x.1.data.length, x.2.1.data.length, x.2.2.1.data.length, x.2.2.2))
    counts (s.step exModel (.pred 0 0 (.addSim (some 1) (some 1) none none))) = (none, some (3, 2, 3, 6)) ∧
    counts (s.step exModel (.pred 0 0 (.sim (some (.fresh ⟨false, [1, 2, 3]⟩)) (some (.fresh ⟨false, [1, 1, 1]⟩)) fun _ => 0))) =
      (some .value, some (3, 2, 3, 2)) ∧
    counts (s.step exModel (.pred 0 0 (.sim (some (.fresh ⟨false, [1]⟩)) (some (.fresh ⟨false, [1]⟩)) fun _ => 0))) =
      (none, some (1, 2, 1, 2)) := by
  refine ⟨?_, ?_, ?_⟩ <;> decide +kernel

/-- Non-vacuity of the partial theorem: a history with `sim` and `sim1` that really replaces the data. -/
example :
    let ds : List (Data ℚ) := [⟨[3, 4], [5, 6], [1, 1]⟩]
    let ops : List (SOp ℚ) := [.pred 0 0 (.sim (some (.fresh ⟨false, [7, 8]⟩)) (some (.fresh ⟨false, [2, 2]⟩)) fun _ => 1),
      .pred 0 0 (.sim1 1 (some 9) none 0)]
    (∀ k p op, SOp.pred k p op ∈ ops → op.keepsCount (count ds p)) ∧
    (((Sys.init ds).run exModel ops).data 0 0).map (fun x => (x.1.data, x.2.1.data, x.2.2.1.data)) =
      some ([7, 9], [9, 9], [2, 2]) := by
  refine ⟨?_, by decide +kernel⟩
  intro k p op hop
  simp only [List.mem_cons, List.not_mem_nil, or_false, SOp.pred.injEq] at hop
  rcases hop with ⟨rfl, rfl, rfl⟩ | ⟨rfl, rfl, rfl⟩
  · exact Or.inl rfl
  · trivial

end Verif.Pie
