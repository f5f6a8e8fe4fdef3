import Verif.Pie.SetData
import Mathlib.Tactic.Linarith

/-!
# C108: a Gaussian predictor holds the data it was given
-/

set_option linter.unusedSectionVars false

namespace Verif.Pie.SetData

variable {K : Type} [Zero K]

/-- Specification: the predictor holds these locations, values and sigmas. -/
def Holds (p : Pred K) (l v s : Val K) : Prop := p.locns = some l ∧ p.vals = some v ∧ p.sigmas = some s

/-- Specification: the predictor holds `n` data, with locations that are numbers. -/
def Proper (p : Pred K) : Prop :=
  ∃ (l : List K) (v s : Val K), Holds p (.arr l) v s ∧ v.len = .ok l.length ∧ s.len = .ok l.length ∧ p.ndata = some l.length ∧ p.dimen = some 1

/-- A predictor that was constructed (even if the constructor raised, the object may survive in a class under construction) and then given data any number of times. -/
inductive Reach : Pred K → Prop
  | made (args : List (Val K)) : Reach (make args).1
  | set (p : Pred K) (args : List (Val K)) : Reach p → Reach (p.setData args).1

/-! ## Helpers -/

theorem finish_arr {p : Pred K} {l : List K} {v : Val K} {n : ℕ} (hl : p.locns = some (.arr l)) (hv : p.vals = some v) (hn : v.len = .ok n) :
    p.finish = ({ p with ndata := some n, dimen := some 1 }, none) := by
  unfold Pred.finish
  rw [hv]
  dsimp only
  rw [hn]
  dsimp only
  rw [hl]
  rfl

theorem finish_keeps (p : Pred K) : p.finish.1.locns = p.locns ∧ p.finish.1.vals = p.vals ∧ p.finish.1.sigmas = p.sigmas ∧ p.finish.1.xlocns = p.xlocns := by
  unfold Pred.finish
  dsimp only
  split
  · simp
  · split
    · simp
    · split
      · simp
      · split
        · simp
        · simp
        · split <;> simp
        · simp

theorem set3_val (p : Pred K) (a b c : Val K) : (p.set3 a b c).1 = { p with locns := some a, vals := some b, sigmas := some c } := by
  unfold Pred.set3
  dsimp only
  split
  · rfl
  · rfl
  · split
    · rfl
    · split
      · rfl
      · split <;> rfl

theorem set3_ok {p : Pred K} {a b c : Val K} (h : (p.set3 a b c).2 = none) : ∃ n, a.len = .ok n ∧ b.len = .ok n ∧ c.len = .ok n := by
  unfold Pred.set3 at h
  dsimp only at h
  rcases ha : a.len with e | n
  · rw [ha] at h; cases h
  rcases hb : b.len with e | m
  · rw [ha, hb] at h; cases h
  rw [ha, hb] at h
  dsimp only at h
  by_cases e1 : n = m
  · subst e1
    rw [if_neg (by simp)] at h
    rcases hc : c.len with e | k
    · rw [hc] at h; cases h
    rw [hc] at h
    dsimp only at h
    by_cases e2 : n = k
    · subst e2; exact ⟨n, rfl, rfl, rfl⟩
    · rw [if_pos e2] at h; cases h
  · rw [if_pos e1] at h; cases h

/-- The attribute `locns` is only ever a column. -/
def Col (p : Pred K) : Prop := ∀ v, p.xlocns = some v → ∃ l, v = .arr l

theorem rowLoop_x (p : Pred K) : ∀ (l : List (List K)) (a b c : List K), (p.rowLoop l a b c).1.xlocns = p.xlocns
  | [], a, b, c => rfl
  | (x :: y :: z :: _) :: l, a, b, c => by rw [Pred.rowLoop]; exact rowLoop_x p l _ _ _
  | [x, y] :: _, a, b, c => rfl
  | [x] :: _, a, b, c => rfl
  | [] :: _, a, b, c => rfl

theorem convert_x (p : Pred K) : p.convert.1.xlocns = p.xlocns := by
  unfold Pred.convert
  dsimp only
  split
  · rfl
  · split
    · rfl
    · split <;> rfl

theorem Col.set1 {p : Pred K} (h : Col p) (a : Val K) : Col (p.set1 a).1 := by
  have hr : ∀ l, Col ((p.rowLoop l [] [] []).andThen Pred.convert).1 := by
    intro l
    refine Res.andThen_inv (P := Col) ?_ fun s hs => ?_
    · unfold Col; rw [rowLoop_x]; exact h
    · unfold Col; rw [convert_x]; exact hs
  unfold Pred.set1
  split
  · split_ifs
    · exact h
    all_goals
      intro v hv
      simp only [ok, raise, Option.some.injEq] at hv
      exact ⟨_, hv.symm⟩
  · exact h
  · exact h
  · exact h
  · exact hr []
  · exact h
  · exact hr _

theorem Col.setData {p : Pred K} (h : Col p) (args : List (Val K)) : Col (p.setData args).1 := by
  unfold Pred.setData
  refine Res.andThen_inv (P := Col) ?_ fun s hs => ?_
  · split
    · unfold Col; rw [set3_val]; exact h
    · exact h.set1 _
    · exact h
  · unfold Col; rw [(finish_keeps s).2.2.2]; exact hs

theorem Reach.col {p : Pred K} (h : Reach p) : Col p := by
  induction h with
  | made args =>
    unfold make
    split
    · intro v hv; cases hv
    · exact Col.setData (fun v hv => by cases hv) _
  | set p args _ ih => exact ih.setData args

/-! ## The property -/

/-- **C108** (three arrays).  Whatever happened to the predictor before, giving it three one-dimensional arrays of the same length makes it hold these, and if the lengths differ a DataError
is raised. -/
theorem C108_three (p : Pred K) (l v s : List K) :
    (l.length = v.length ∧ v.length = s.length → (p.setData [.arr l, .arr v, .arr s]).2 = none ∧ Holds (p.setData [.arr l, .arr v, .arr s]).1 (.arr l) (.arr v) (.arr s) ∧
      Proper (p.setData [.arr l, .arr v, .arr s]).1) ∧
    (¬ (l.length = v.length ∧ v.length = s.length) → (p.setData [.arr l, .arr v, .arr s]).2 = some .data) := by
  constructor
  · rintro ⟨h1, h2⟩
    have e : p.setData [.arr l, .arr v, .arr s] = ({ p with locns := some (.arr l), vals := some (.arr v), sigmas := some (.arr s), ndata := some v.length, dimen := some 1 }, none) := by
      unfold Pred.setData Pred.set3
      simp only [Val.len, h1, h2, ne_eq, not_true_eq_false, if_false, ok, Res.andThen_ok]
      exact finish_arr rfl rfl (by simp [Val.len, h2])
    rw [e]
    exact ⟨rfl, ⟨rfl, rfl, rfl⟩, l, _, _, ⟨rfl, rfl, rfl⟩, by simp [Val.len, h1], by simp [Val.len, h1, h2], by simp [h1], rfl⟩
  · intro h
    unfold Pred.setData Pred.set3
    simp only [Val.len]
    by_cases h1 : l.length = v.length
    · have h2 : v.length ≠ s.length := fun h2 => h ⟨h1, h2⟩
      rw [if_neg (by simpa using h1), if_pos h2]; rfl
    · rw [if_pos h1]; rfl

example : Proper ((make [.arr [1], .arr [2, 3], .arr [4]]).1.setData [.arr [0, 1], .arr [5, 6], .arr [1, 1 / 2]] : Res (Pred ℚ)).1 := ((C108_three _ _ _ _).1 (by simp)).2.2

theorem finish_ok {p : Pred K} (hp : Col p) (h : p.finish.2 = none) : ∃ l v n, p.locns = some (.arr l) ∧ p.vals = some v ∧ v.len = .ok n := by
  unfold Pred.finish at h
  rcases hv : p.vals with _ | v
  · rw [hv] at h; cases h
  rw [hv] at h
  dsimp only at h
  rcases hn : v.len with e | n
  · rw [hn] at h; cases h
  rw [hn] at h
  dsimp only at h
  rcases hl : p.locns with _ | l
  · rw [hl] at h; cases h
  rw [hl] at h
  cases l with
  | num _ => cases h
  | list _ => cases h
  | rows _ => cases h
  | arr l => exact ⟨l, v, n, rfl, rfl, hn⟩
  | table c t =>
    simp only [Val.ndim] at h
    rcases hx : p.xlocns with _ | x
    · rw [hx] at h; cases h
    · obtain ⟨l, rfl⟩ := hp x hx
      rw [hx] at h; cases h
  | deep _ => cases h

/-- **C108** (three arguments of any kind).  A call with three arguments that returns normally leaves a predictor that holds exactly these arguments; they have the same length and the locations
are a one-dimensional array.
Missing: tables and lists of triples, and refused calls (the `C108_violated` theorems). -/
theorem C108_normal_partial {p q : Pred K} (hp : Reach p) {a b c : Val K} (h : p.setData [a, b, c] = (q, none)) : Holds q a b c ∧ Proper q := by
  unfold Pred.setData at h
  dsimp only at h
  have hv := set3_val p a b c
  rcases hr : p.set3 a b c with ⟨p1, _ | e⟩
  · obtain ⟨n, ha, hb, hc⟩ := set3_ok (by rw [hr])
    rw [hr] at hv h
    dsimp only at hv
    subst hv
    rw [Res.andThen_ok] at h
    have hcol : Col { p with locns := some a, vals := some b, sigmas := some c } := hp.col
    obtain ⟨l, v, m, h1, h2, h3⟩ := finish_ok hcol (by rw [h])
    dsimp only at h1 h2
    cases h1
    cases h2
    rw [finish_arr rfl rfl h3] at h
    cases h
    rw [hb] at h3
    cases h3
    simp only [Val.len, Except.ok.injEq] at ha
    subst ha
    exact ⟨⟨rfl, rfl, rfl⟩, l, b, c, ⟨rfl, rfl, rfl⟩, hb, hc, rfl, rfl⟩
  · rw [hr] at h; cases h

/-- **C108** (construction).  The constructor returns normally only if it is given three arguments, and then the predictor holds them.
Missing: tables and lists of triples (`C108_violated_table`, `C108_violated_rows`). -/
theorem C108_made_partial {q : Pred K} {args : List (Val K)} (h : make args = (q, none)) : ∃ a b c, args = [a, b, c] ∧ Holds q a b c ∧ Proper q := by
  have hd : ∀ args : List (Val K), args ≠ [] → make args = Pred.setData {} args := by
    intro args h; cases args with
    | nil => exact absurd rfl h
    | cons _ _ => rfl
  have hne : args ≠ [] := by rintro rfl; cases h
  have key : ∀ p : Pred K, p.vals = none → ∀ r, p.finish ≠ (r, none) := by
    intro p hp r hr
    unfold Pred.finish at hr
    rw [hp] at hr
    cases hr
  rw [hd args hne] at h
  match args, h with
  | [a, b, c], h =>
    refine ⟨a, b, c, rfl, ?_⟩
    have hr : Reach ({} : Pred K) := .made []
    exact C108_normal_partial hr h
  | [a], h =>
    exfalso
    unfold Pred.setData at h
    dsimp only at h
    have hrows : ∀ l : List (List K), ∀ r, (((({} : Pred K).rowLoop l [] [] []).andThen Pred.convert).andThen Pred.finish) ≠ (r, none) := by
      intro l r hr
      have hx := rowLoop_x ({} : Pred K) l [] [] []
      rcases e : ({} : Pred K).rowLoop l [] [] [] with ⟨p1, _ | e1⟩
      · rw [e] at hr hx
        dsimp only at hx
        rw [Res.andThen_ok] at hr
        unfold Pred.convert at hr
        rw [hx] at hr
        cases hr
      · rw [e] at hr; cases hr
    cases a with
    | num _ => cases h
    | list l =>
      cases l with
      | nil => exact hrows [] q h
      | cons _ _ => cases h
    | rows l => exact hrows _ _ h
    | arr _ => cases h
    | table c l =>
      simp only [Pred.set1] at h
      split_ifs at h
      · cases h
      · cases h
      · cases h
      · exact key { xlocns := some (.arr (column l 0)), xvals := some (.arr (column l 1)), xsigmas := some (.arr (column l 2)) } rfl q h
    | deep _ => cases h
  | [], h => exact absurd rfl hne
  | [_, _], h => exact (key {} rfl q h).elim
  | _ :: _ :: _ :: _ :: _, h => exact (key {} rfl q h).elim

example : ∃ q : Pred ℚ, make [.arr [0, 1], .arr [5, 6], .arr [1, 1 / 2]] = (q, none) := ⟨_, rfl⟩

/-- **C108 fails for a table** (the second documented form): a predictor cannot be constructed from it, and one that holds data ignores it and returns normally. -/
theorem C108_violated_table (c : ℕ) (hc : 3 ≤ c) (t : List (List K)) :
    (make [.table c t]).2 = some .attribute ∧
    ∀ p : Pred K, Proper p → (p.setData [.table c t]).2 = none ∧ ∀ l v s, Holds p l v s → Holds (p.setData [.table c t]).1 l v s := by
  have e : ∀ p : Pred K, p.set1 (.table c t) = ({ p with xlocns := some (.arr (column t 0)), xvals := some (.arr (column t 1)), xsigmas := some (.arr (column t 2)) }, none) := by
    intro p
    simp only [Pred.set1]
    rw [if_neg (by omega), if_neg (by omega), if_neg (by omega)]
    rfl
  constructor
  · simp only [make, Pred.setData, e, Res.andThen_ok]; rfl
  · rintro p ⟨l, v, s, ⟨h1, h2, h3⟩, h4, -⟩
    have := finish_arr (p := { p with xlocns := some (.arr (column t 0)), xvals := some (.arr (column t 1)), xsigmas := some (.arr (column t 2)) }) (l := l) h1 h2 h4
    simp only [Pred.setData, e, Res.andThen_ok]
    rw [this]
    exact ⟨rfl, fun l' v' s' h => h⟩

/-- **C108 fails for a list of triples**: construction always raises an exception, and a predictor that holds data (and was never given a table) loses them. -/
theorem C108_violated_rows (t : List (List K)) (ht : ∀ r ∈ t, 3 ≤ r.length) :
    (make [.rows t]).2 = some .attribute ∧
    ∀ p : Pred K, p.xlocns = none → (p.setData [.rows t]).2 = some .attribute ∧
      Holds (p.setData [.rows t]).1 (.list (column t 0)) (.list (column t 1)) (.list (column t 2)) ∧ ¬ Proper (p.setData [.rows t]).1 := by
  have loop : ∀ (p : Pred K) (t : List (List K)) (a b c : List K), (∀ r ∈ t, 3 ≤ r.length) →
      p.rowLoop t a b c = ({ p with locns := some (.list (a ++ column t 0)), vals := some (.list (b ++ column t 1)), sigmas := some (.list (c ++ column t 2)) }, none) := by
    intro p t
    induction t with
    | nil => intro a b c _; simp [Pred.rowLoop, column]
    | cons r t ih =>
      intro a b c h
      obtain ⟨x, y, z, w, rfl⟩ : ∃ x y z w, r = x :: y :: z :: w := by
        have := h r (by simp)
        match r, this with
        | x :: y :: z :: w, _ => exact ⟨x, y, z, w, rfl⟩
      rw [Pred.rowLoop, ih _ _ _ fun r hr => h r (by simp [hr])]
      simp [column]
  have main : ∀ p : Pred K, p.xlocns = none → p.setData [.rows t] =
      ({ p with locns := some (.list (column t 0)), vals := some (.list (column t 1)), sigmas := some (.list (column t 2)) }, some .attribute) := by
    intro p hp
    simp only [Pred.setData, Pred.set1, loop p t [] [] [] ht, List.nil_append, Res.andThen_ok]
    unfold Pred.convert
    dsimp only
    rw [hp]
    rfl
  refine ⟨by rw [make, main _ rfl]; simp, fun p hp => ?_⟩
  rw [main p hp]
  refine ⟨rfl, ⟨rfl, rfl, rfl⟩, ?_⟩
  rintro ⟨l, v, s, ⟨h, -⟩, -⟩
  cases h

/-- … and a predictor that was given a table before takes the table's columns instead of the rows, and returns normally. -/
theorem C108_violated_stale : ∃ q : Pred ℤ, ((make [.table 3 [[1, 2, 3]]]).1.setData [.rows [[4, 5, 6], [7, 8, 9]]]) = (q, none) ∧ Holds q (.arr [1]) (.arr [2]) (.arr [3]) :=
  ⟨_, rfl, rfl, rfl, rfl⟩

/-- **C108 fails for a call that is refused**: the arrays it was given replace the old ones all the same, and a later call that returns normally can leave the predictor with locations, values and
sigmas of different numbers. -/
theorem C108_violated_refused (p : Pred K) (l v s : List K) (h : l.length ≠ v.length) (t : List (List K)) :
    (p.setData [.arr l, .arr v, .arr s]).2 = some .data ∧ Holds (p.setData [.arr l, .arr v, .arr s]).1 (.arr l) (.arr v) (.arr s) ∧
    ((p.setData [.arr l, .arr v, .arr s]).1.setData [.table 3 t]).2 = none ∧
    Holds ((p.setData [.arr l, .arr v, .arr s]).1.setData [.table 3 t]).1 (.arr l) (.arr v) (.arr s) := by
  have e : p.setData [.arr l, .arr v, .arr s] = ({ p with locns := some (.arr l), vals := some (.arr v), sigmas := some (.arr s) }, some .data) := by
    simp only [Pred.setData, Pred.set3, Val.len]
    rw [if_pos h]
    rfl
  rw [e]
  refine ⟨rfl, ⟨rfl, rfl, rfl⟩, ?_⟩
  simp only [Pred.setData, Pred.set1]
  exact ⟨rfl, rfl, rfl, rfl⟩

example : ([1] : List ℚ).length ≠ [2, 3].length := by decide

end Verif.Pie.SetData
