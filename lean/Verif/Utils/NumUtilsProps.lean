import Verif.Utils.NumUtils
import Mathlib.Topology.Order.IntermediateValue
import Mathlib.Topology.Instances.Real.Lemmas
import Mathlib.Tactic.Linarith
import Mathlib.Tactic.FieldSimp
import Mathlib.Algebra.BigOperators.Group.List.Basic
import Mathlib.Algebra.Order.BigOperators.Group.List

/-!
# Flattening, bracketing of zeros, running sums of logarithms: properties C40–C42
-/

set_option linter.unusedSectionVars false
set_option linter.unusedSimpArgs false

namespace Verif.Num

/-! ### C40 -/

section
variable {α : Type*}

mutual
/-- The leaves of a nested value, from left to right. -/
def leaves : Nest α → List α
  | .leaf a => [a]
  | .seq l => leavesL l
/-- The leaves of the items of a sequence. -/
def leavesL : List (Nest α) → List α
  | [] => []
  | x :: l => leaves x ++ leavesL l
end

mutual
/-- No empty sequence occurs anywhere in the value. -/
def NoEmpty : Nest α → Prop
  | .leaf _ => True
  | .seq l => l ≠ [] ∧ NoEmptyL l
/-- No empty sequence occurs in the items. -/
def NoEmptyL : List (Nest α) → Prop
  | [] => True
  | x :: l => NoEmpty x ∧ NoEmptyL l
end

mutual
/-- The leaves and the empty sequences of a nested value, from left to right. -/
def atoms : Nest α → List (Nest α)
  | .leaf a => [.leaf a]
  | .seq [] => [.seq []]
  | .seq (x :: l) => atoms x ++ atomsL l
/-- The same for the items of a sequence. -/
def atomsL : List (Nest α) → List (Nest α)
  | [] => []
  | x :: l => atoms x ++ atomsL l
end

theorem flattenItem_atoms : ∀ v : Nest α, flattenItem v = atoms v
  | .leaf a => by simp [flattenItem, atoms]
  | .seq [] => by simp [flattenItem, atoms]
  | .seq [x] => by rw [flattenItem, flattenItem_atoms x]; simp [atoms, atomsL]
  | .seq (x :: y :: l) => by rw [flattenItem, flattenItem_atoms x, flattenItem_atoms (.seq (y :: l))]; simp [atoms, atomsL]

theorem atomsL_flatMap : ∀ l : List (Nest α), atomsL l = l.flatMap atoms
  | [] => rfl
  | x :: l => by rw [atomsL, atomsL_flatMap l]; rfl

mutual
theorem atoms_leaves : ∀ v : Nest α, NoEmpty v → atoms v = (leaves v).map .leaf
  | .leaf a, _ => by simp [atoms, leaves]
  | .seq [], h => by simp [NoEmpty] at h
  | .seq (x :: l), h => by
    have h' : NoEmpty x ∧ NoEmptyL l := by simpa [NoEmpty, NoEmptyL] using h
    simp only [atoms, leaves, leavesL, atoms_leaves x h'.1, atomsL_leaves l h'.2, List.map_append]
theorem atomsL_leaves : ∀ l : List (Nest α), NoEmptyL l → atomsL l = (leavesL l).map .leaf
  | [], _ => by simp [atomsL, leavesL]
  | x :: l, h => by
    have h' : NoEmpty x ∧ NoEmptyL l := by simpa [NoEmptyL] using h
    simp only [atomsL, leavesL, atoms_leaves x h'.1, atomsL_leaves l h'.2, List.map_append]
end

mutual
theorem atoms_flat : ∀ v w : Nest α, w ∈ atoms v → (∃ a, w = .leaf a) ∨ w = .seq []
  | .leaf a, w, h => by simp [atoms] at h; exact Or.inl ⟨a, h⟩
  | .seq [], w, h => by simp [atoms] at h; exact Or.inr h
  | .seq (x :: l), w, h => by
    simp only [atoms, List.mem_append] at h
    rcases h with h | h
    · exact atoms_flat x w h
    · exact atomsL_flat l w h
theorem atomsL_flat : ∀ (l : List (Nest α)) (w : Nest α), w ∈ atomsL l → (∃ a, w = .leaf a) ∨ w = .seq []
  | [], w, h => by simp [atomsL] at h
  | x :: l, w, h => by
    simp only [atomsL, List.mem_append] at h
    rcases h with h | h
    · exact atoms_flat x w h
    · exact atomsL_flat l w h
end

/-- **C40 (partial).** If no empty sequence occurs among the arguments, `flatten` returns exactly their leaves, from left to right.  Missing: empty sequences, which stay
in the result (see `C40_atoms` and `C40_violated`). -/
theorem C40_leaves_partial (args : List (Nest α)) (h : NoEmptyL args) : flatten args = (leavesL args).map .leaf := by
  unfold flatten
  rw [← atomsL_leaves args h, atomsL_flatMap]
  exact congrArg (args.flatMap ·) (funext flattenItem_atoms)

/-- In general the result consists of the leaves and the empty sequences, in order. -/
theorem C40_atoms (args : List (Nest α)) : flatten args = atomsL args := by
  rw [atomsL_flatMap]
  exact congrArg (args.flatMap ·) (funext flattenItem_atoms)

/-- **C40.** Flattening a flattened result changes nothing. -/
theorem C40_idempotent (args : List (Nest α)) : flatten (flatten args) = flatten args := by
  have h : ∀ w ∈ flatten args, flattenItem w = [w] := by
    intro w hw
    rw [C40_atoms] at hw
    rcases atomsL_flat args w hw with ⟨a, rfl⟩ | rfl <;> simp [flattenItem]
  have : ∀ l : List (Nest α), (∀ w ∈ l, flattenItem w = [w]) → l.flatMap flattenItem = l := by
    intro l
    induction l with
    | nil => intro _; rfl
    | cons x l ih => intro h; rw [List.flatMap_cons, h x (by simp), ih fun w hw => h w (by simp [hw])]; rfl
  exact this _ h

/-- **C40 is violated** by empty sequences: `flatten(())` is not empty. -/
theorem C40_violated : leavesL [Nest.seq ([] : List (Nest ℕ))] = [] ∧ flatten [Nest.seq ([] : List (Nest ℕ))] = [.seq []] := by
  simp [leavesL, leaves, flatten, flattenItem]

/-- `flatten(1, (2, (3, 4), 5), 6)`. -/
example : NoEmptyL [Nest.leaf 1, .seq [.leaf 2, .seq [.leaf 3, .leaf 4], .leaf 5], .leaf 6] ∧
    leavesL [Nest.leaf 1, .seq [.leaf 2, .seq [.leaf 3, .leaf 4], .leaf 5], .leaf 6] = [1, 2, 3, 4, 5, 6] := by
  simp [NoEmptyL, NoEmpty, leavesL, leaves]

end

/-! ### C41 -/

section
variable {K : Type*} [Field K] [LinearOrder K] [IsStrictOrderedRing K]

theorem zLoop_ok (f : K → K) {expand : K} (he : 0 ≤ expand) : ∀ (tries : ℕ) (x1 x2 : K) (calls : List K) (y1 y2 : K),
    (zLoop f expand tries x1 x2 (f x1) (f x2) calls).1 = .ok (y1, y2) →
      f y1 * f y2 < 0 ∧ (x1 < x2 → y1 ≤ x1 ∧ x2 ≤ y2) ∧ (x2 < x1 → x1 ≤ y1 ∧ y2 ≤ x2)
  | 0, _, _, _, _, _, h => by simp [zLoop] at h
  | tries + 1, x1, x2, calls, y1, y2, h => by
    unfold zLoop at h
    dsimp only at h
    split_ifs at h with h1 h2
    · simp only [Except.ok.injEq, Prod.mk.injEq] at h
      obtain ⟨rfl, rfl⟩ := h
      exact ⟨h1, fun _ => ⟨le_refl _, le_refl _⟩, fun _ => ⟨le_refl _, le_refl _⟩⟩
    · obtain ⟨i1, i2, i3⟩ := zLoop_ok f he tries _ _ _ _ _ h
      refine ⟨i1, fun hx => ?_, fun hx => ?_⟩
      · have : expand * (x1 - x2) ≤ 0 := mul_nonpos_of_nonneg_of_nonpos he (by linarith)
        have := i2 (by linarith)
        exact ⟨by linarith [this.1], this.2⟩
      · have : 0 ≤ expand * (x1 - x2) := mul_nonneg he (by linarith)
        have := i3 (by linarith)
        exact ⟨by linarith [this.1], this.2⟩
    · obtain ⟨i1, i2, i3⟩ := zLoop_ok f he tries _ _ _ _ _ h
      refine ⟨i1, fun hx => ?_, fun hx => ?_⟩
      · have : 0 ≤ expand * (x2 - x1) := mul_nonneg he (by linarith)
        have := i2 (by linarith)
        exact ⟨this.1, by linarith [this.2]⟩
      · have : expand * (x2 - x1) ≤ 0 := mul_nonpos_of_nonneg_of_nonpos he (by linarith)
        have := i3 (by linarith)
        exact ⟨this.1, by linarith [this.2]⟩

theorem zLoop_calls (f : K → K) (expand : K) : ∀ (tries : ℕ) (x1 x2 f1 f2 : K) (calls : List K),
    (zLoop f expand tries x1 x2 f1 f2 calls).2.length ≤ tries + calls.length ∧
      (∀ e, (zLoop f expand tries x1 x2 f1 f2 calls).1 = .error e → e = .runtime ∧ (zLoop f expand tries x1 x2 f1 f2 calls).2.length = tries + calls.length)
  | 0, _, _, _, _, _ => by
    simp only [zLoop, Nat.zero_add, le_refl, true_and]
    rintro e ⟨⟩
    exact ⟨rfl, trivial⟩
  | tries + 1, x1, x2, f1, f2, calls => by
    unfold zLoop
    dsimp only
    split_ifs with h1 h2
    · exact ⟨by show calls.length ≤ _; omega, fun e h => by simp at h⟩
    · obtain ⟨i1, i2⟩ := zLoop_calls f expand tries (x1 + expand * (x1 - x2)) x2 (f (x1 + expand * (x1 - x2))) f2 ((x1 + expand * (x1 - x2)) :: calls)
      simp only [List.length_cons] at i1 i2
      refine ⟨by omega, fun e h => ?_⟩
      obtain ⟨j1, j2⟩ := i2 e h
      exact ⟨j1, by omega⟩
    · obtain ⟨i1, i2⟩ := zLoop_calls f expand tries x1 (x2 + expand * (x2 - x1)) f1 (f (x2 + expand * (x2 - x1))) ((x2 + expand * (x2 - x1)) :: calls)
      simp only [List.length_cons] at i1 i2
      refine ⟨by omega, fun e h => ?_⟩
      obtain ⟨j1, j2⟩ := i2 e h
      exact ⟨j1, by omega⟩

/-- **C41.** If `zbracket` returns (with `vals`, if given, being the function values), the function has opposite signs at the ends of the interval returned, and this
interval contains the starting interval, in the same direction.
Missing: the last clause (see `C41_search_partial` and `C41_violated`). -/
theorem C41_bracket_partial (f : K → K) (x1 x2 y1 y2 expand : K) (vals : Option (K × K)) (maxtries : ℕ) (he : 0 ≤ expand) (hv : ∀ v, vals = some v → v = (f x1, f x2))
    (h : (zbracket f x1 x2 vals maxtries expand).1 = .ok (y1, y2)) :
    f y1 * f y2 < 0 ∧ (x1 < x2 → y1 ≤ x1 ∧ x2 ≤ y2) ∧ (x2 < x1 → x1 ≤ y1 ∧ y2 ≤ x2) := by
  unfold zbracket at h
  split_ifs at h with h0
  cases vals with
  | none => exact zLoop_ok f he _ _ _ _ _ _ h
  | some v =>
    have := hv v rfl
    subst this
    exact zLoop_ok f he _ _ _ _ _ _ h

/-- **C41.** It calls the function at most `maxtries + 2` times, and the only exceptions are `ValueError` for a null interval and `RuntimeError` after `maxtries`
expansions. -/
theorem C41_calls (f : K → K) (x1 x2 expand : K) (vals : Option (K × K)) (maxtries : ℕ) :
    let r := zbracket f x1 x2 vals maxtries expand
    r.2.length ≤ maxtries + 2 ∧ ∀ e, r.1 = .error e → (x1 = x2 ∧ e = .value) ∨ (x1 ≠ x2 ∧ e = .runtime ∧ maxtries ≤ r.2.length) := by
  intro r
  unfold r zbracket
  split_ifs with h0
  · exact ⟨by simp, fun e he => Or.inl ⟨h0, by simpa using he.symm⟩⟩
  · cases vals with
    | none =>
      obtain ⟨i1, i2⟩ := zLoop_calls f expand maxtries x1 x2 (f x1) (f x2) [x2, x1]
      refine ⟨by simpa using i1, fun e he => Or.inr ⟨h0, (i2 e he).1, ?_⟩⟩
      have := (i2 e he).2
      simp only [List.length_cons, List.length_nil] at this
      dsimp only
      omega
    | some v =>
      obtain ⟨i1, i2⟩ := zLoop_calls f expand maxtries x1 x2 v.1 v.2 []
      refine ⟨by simp only [List.length_nil] at i1; dsimp only; omega, fun e he => Or.inr ⟨h0, (i2 e he).1, ?_⟩⟩
      have := (i2 e he).2
      simp only [List.length_nil] at this
      dsimp only
      omega

/-- If the starting interval is already a bracket it is returned as it is. -/
theorem C41_immediate (f : K → K) (x1 x2 expand : K) (maxtries : ℕ) (hm : 0 < maxtries) (h : f x1 * f x2 < 0) :
    (zbracket f x1 x2 none maxtries expand) = (.ok (x1, x2), [x2, x1]) := by
  obtain ⟨m, rfl⟩ := Nat.exists_eq_succ_of_ne_zero hm.ne'
  have hne : x1 ≠ x2 := by
    rintro rfl
    exact absurd h (not_lt.mpr (mul_self_nonneg _))
  unfold zbracket
  rw [if_neg hne]
  dsimp only
  rw [zLoop, if_pos h]

/-- Specification: the interval with the end moved out at which the function is smaller in size (the upper one if neither is), by `e` times the width. -/
def grown (f : K → K) (e : K) (p : K × K) : K × K :=
  if |f p.1| < |f p.2| then (p.1 + e * (p.1 - p.2), p.2) else (p.1, p.2 + e * (p.2 - p.1))

theorem zLoop_search (f : K → K) (e : K) : ∀ (tries : ℕ) (x1 x2 : K) (calls : List K),
    (∀ q, (zLoop f e tries x1 x2 (f x1) (f x2) calls).1 = .ok q ↔
      ∃ k < tries, q = (grown f e)^[k] (x1, x2) ∧ f q.1 * f q.2 < 0 ∧
        ∀ j < k, ¬ f ((grown f e)^[j] (x1, x2)).1 * f ((grown f e)^[j] (x1, x2)).2 < 0) ∧
    (∀ r, (zLoop f e tries x1 x2 (f x1) (f x2) calls).1 = .error r ↔
      r = .runtime ∧ ∀ j < tries, ¬ f ((grown f e)^[j] (x1, x2)).1 * f ((grown f e)^[j] (x1, x2)).2 < 0)
  | 0, _, _, _ => by simp [zLoop, eq_comm]
  | tries + 1, x1, x2, calls => by
    by_cases h : f x1 * f x2 < 0
    · rw [zLoop, if_pos h]
      refine ⟨fun q => ⟨fun hq => ?_, ?_⟩, fun r => ⟨by simp, fun hr => absurd h (hr.2 0 (by omega))⟩⟩
      · have hq : (x1, x2) = q := by simpa using hq
        subst hq
        exact ⟨0, by omega, rfl, h, by simp⟩
      · rintro ⟨k, _, rfl, _, hb⟩
        rcases k with _ | k
        · rfl
        · exact absurd h (hb 0 (by omega))
    · have key : (zLoop f e (tries + 1) x1 x2 (f x1) (f x2) calls).1 =
          (zLoop f e tries (grown f e (x1, x2)).1 (grown f e (x1, x2)).2 (f (grown f e (x1, x2)).1) (f (grown f e (x1, x2)).2)
            ((if |f x1| < |f x2| then x1 + e * (x1 - x2) else x2 + e * (x2 - x1)) :: calls)).1 := by
        rw [zLoop, if_neg h]
        unfold grown
        by_cases h2 : |f x1| < |f x2| <;> simp only [h2, if_true, if_false]
      obtain ⟨i1, i2⟩ := zLoop_search f e tries (grown f e (x1, x2)).1 (grown f e (x1, x2)).2
        ((if |f x1| < |f x2| then x1 + e * (x1 - x2) else x2 + e * (x2 - x1)) :: calls)
      rw [key]
      refine ⟨fun q => (i1 q).trans ⟨?_, ?_⟩, fun r => (i2 r).trans ⟨?_, ?_⟩⟩
      · rintro ⟨k, hk, hq, hs, hb⟩
        refine ⟨k + 1, by omega, hq, hs, fun j hj => ?_⟩
        rcases j with _ | j
        · exact h
        · exact hb j (by omega)
      · rintro ⟨k, hk, hq, hs, hb⟩
        rcases k with _ | k
        · subst hq; exact absurd hs h
        · exact ⟨k, by omega, hq, hs, fun j hj => hb (j + 1) (by omega)⟩
      · rintro ⟨hr, hb⟩
        refine ⟨hr, fun j hj => ?_⟩
        rcases j with _ | j
        · exact h
        · exact hb j (by omega)
      · rintro ⟨hr, hb⟩
        exact ⟨hr, fun j hj => hb (j + 1) (by omega)⟩

/-- **C41, what is searched.** The starting interval is grown again and again at the end where the function is smaller.  The first of the first `maxtries` intervals
at whose ends the function has opposite signs is returned, and a `RuntimeError` is raised exactly if there is none among them.
Missing: the interval grown last, which is evaluated but not among them (`C41_violated`). -/
theorem C41_search_partial (f : K → K) (x1 x2 e : K) (vals : Option (K × K)) (maxtries : ℕ) (h0 : x1 ≠ x2) (hv : ∀ v, vals = some v → v = (f x1, f x2)) :
    let at' := fun j => (grown f e)^[j] (x1, x2)
    let bracket := fun j => f (at' j).1 * f (at' j).2 < 0
    (∀ q, (zbracket f x1 x2 vals maxtries e).1 = .ok q ↔ ∃ k < maxtries, q = at' k ∧ bracket k ∧ ∀ j < k, ¬ bracket j) ∧
    (∀ r, (zbracket f x1 x2 vals maxtries e).1 = .error r ↔ r = .runtime ∧ ∀ j < maxtries, ¬ bracket j) := by
  have key : ∃ c, (zbracket f x1 x2 vals maxtries e).1 = (zLoop f e maxtries x1 x2 (f x1) (f x2) c).1 := by
    unfold zbracket
    rw [if_neg h0]
    cases vals with
    | none => exact ⟨_, rfl⟩
    | some v =>
      have := hv v rfl
      subst this
      exact ⟨_, rfl⟩
  obtain ⟨c, hc⟩ := key
  obtain ⟨i1, i2⟩ := zLoop_search f e maxtries x1 x2 c
  intro at' bracket
  rw [hc]
  refine ⟨fun q => (i1 q).trans ⟨?_, ?_⟩, i2⟩
  · rintro ⟨k, hk, rfl, hs, hb⟩
    exact ⟨k, hk, rfl, hs, hb⟩
  · rintro ⟨k, hk, rfl, hs, hb⟩
    exact ⟨k, hk, rfl, hs, hb⟩

/-- A case: for `x ↦ x - 5` from (1, 2) the third interval is the first bracket. -/
example : (zbracket (fun x : ℚ => x - 5) 1 2 none 10 (8 / 5)).1 = .ok ((grown (fun x : ℚ => x - 5) (8 / 5))^[2] (1, 2)) := by decide +kernel

end

/-- **C41.** A continuous function has a zero in the interval returned. -/
theorem C41_zero (f : ℝ → ℝ) (hf : Continuous f) (x1 x2 y1 y2 expand : ℝ) (maxtries : ℕ) (he : 0 ≤ expand)
    (h : (zbracket f x1 x2 none maxtries expand).1 = .ok (y1, y2)) : ∃ z ∈ Set.uIcc y1 y2, f z = 0 := by
  have hs := (C41_bracket_partial f x1 x2 y1 y2 expand none maxtries he (by simp) h).1
  have : (0 : ℝ) ∈ Set.uIcc (f y1) (f y2) := by
    rw [Set.mem_uIcc]
    rcases mul_neg_iff.mp hs with ⟨h1, h2⟩ | ⟨h1, h2⟩
    · exact Or.inr ⟨h2.le, h1.le⟩
    · exact Or.inl ⟨h1.le, h2.le⟩
  obtain ⟨z, hz, e⟩ := intermediate_value_uIcc hf.continuousOn this
  exact ⟨z, hz, e⟩

/-- **C41's last clause is violated**: the interval reached by the last expansion is evaluated but never tested, so the call raises although it has found a bracket
(here with one try, for the identity function from (1, 2): the last call made is at -3/5). -/
theorem C41_violated : zbracket (fun x : ℚ => x) 1 2 none 1 (8 / 5) = (.error .runtime, [-(3 / 5), 2, 1]) ∧ (-(3 / 5) : ℚ) * 2 < 0 := by
  constructor <;> decide +kernel

/-- A concrete search: from (1, 2) the identity function is bracketed after one expansion. -/
example : zbracket (fun x : ℚ => x) 1 2 none 50 (8 / 5) = (.ok (-(3 / 5), 2), [-(3 / 5), 2, 1]) := by decide +kernel

/-! ### C42 -/

/-- One operation on a summer: add a value, or note a zero. -/
inductive SOp
  | val (a : ℝ)
  | zero

/-- Running a history of operations. -/
noncomputable def runSum (s : LSum) : List SOp → LSum
  | [] => s
  | .val a :: l => runSum (s.add a) l
  | .zero :: l => runSum s.addZero l

/-- The values added, in order. -/
def added : List SOp → List ℝ
  | [] => []
  | .val a :: l => a :: added l
  | .zero :: l => added l

/-- The sum of the exponentials. -/
noncomputable def expSum (l : List ℝ) : ℝ := (l.map Real.exp).sum

theorem expSum_nonneg (l : List ℝ) : 0 ≤ expSum l := by
  apply List.sum_nonneg
  intro x hx
  obtain ⟨a, _, rfl⟩ := List.mem_map.mp hx
  exact (Real.exp_pos a).le

/-- One addition: exact unless one of the two is 40 or more below the other, when the smaller one is dropped. -/
theorem addLog_step (s val : ℝ) : let r := addLog (some s) val
    Real.exp s ≤ Real.exp r ∧ Real.exp r ≤ Real.exp s + Real.exp val ∧ Real.exp s + Real.exp val ≤ Real.exp r * (1 + Real.exp (-40)) ∧
    (|val - s| < 40 → Real.exp r = Real.exp s + Real.exp val) := by
  have key : ∀ a b : ℝ, Real.exp (a + Real.log (1 + Real.exp (b - a))) = Real.exp a + Real.exp b := by
    intro a b
    rw [Real.exp_add, Real.exp_log (by positivity), mul_add, mul_one, ← Real.exp_add]
    congr 2; ring
  have small : ∀ a b : ℝ, a - b ≤ -40 → Real.exp a ≤ Real.exp b * Real.exp (-40) := by
    intro a b h
    rw [← Real.exp_add]
    exact Real.exp_le_exp.mpr (by linarith)
  have e40 := Real.exp_pos (-40)
  have es := Real.exp_pos s
  have ev := Real.exp_pos val
  intro r
  unfold r addLog
  dsimp only
  split_ifs with h1 h2 h3
  · rw [key]
    exact ⟨by linarith, le_refl _, by nlinarith, fun _ => rfl⟩
  · have := small val s (by linarith)
    refine ⟨le_refl _, by linarith, by nlinarith, fun h => ?_⟩
    have := (abs_lt.mp h).1
    linarith
  · rw [key val s]
    exact ⟨by linarith, by linarith, by nlinarith, fun _ => by ring⟩
  · have := small s val (by linarith)
    refine ⟨Real.exp_le_exp.mpr (by linarith), by linarith, by nlinarith, fun h => ?_⟩
    have := (abs_lt.mp h).2
    linarith

/-- The running sum as a function of the values added. -/
theorem runSum_fold (ops : List SOp) : ∀ s : LSum, (runSum s ops).logSum = (added ops).foldl (fun t a => some (addLog t a)) s.logSum ∧
    (runSum s ops).n = s.n + ops.length ∧ (runSum s ops).dosig = s.dosig ∧
    (runSum s ops).sigSum = if s.dosig then (added ops).foldl (fun t a => some (addLog t (2 * a))) s.sigSum else s.sigSum := by
  induction ops with
  | nil => intro s; simp [runSum, added]
  | cons o l ih =>
    intro s
    cases o with
    | val a =>
      obtain ⟨h1, h2, h3, h4⟩ := ih (s.add a)
      simp only [runSum, added, List.foldl_cons, List.length_cons]
      refine ⟨h1, by rw [h2]; simp [LSum.add]; omega, h3, ?_⟩
      rw [h4]
      unfold LSum.add
      dsimp only
      split_ifs <;> rfl
    | zero =>
      obtain ⟨h1, h2, h3, h4⟩ := ih s.addZero
      simp only [runSum, added, List.length_cons]
      exact ⟨h1, by rw [h2]; simp [LSum.addZero]; omega, h3, h4⟩

/-- Accumulated bounds. -/
theorem fold_bounds (g : ℝ → ℝ) : ∀ (l : List ℝ) (s T : ℝ) (k : ℕ), Real.exp s ≤ T → T ≤ Real.exp s * (1 + k * Real.exp (-40)) →
    ∃ r, l.foldl (fun t a => some (addLog t (g a))) (some s) = some r ∧ Real.exp r ≤ T + expSum (l.map g) ∧
      T + expSum (l.map g) ≤ Real.exp r * (1 + (k + l.length : ℕ) * Real.exp (-40))
  | [], s, T, k, h1, h2 => ⟨s, rfl, by simpa [expSum] using h1, by simpa [expSum] using h2⟩
  | a :: l, s, T, k, h1, h2 => by
    obtain ⟨q1, q2, q3, _⟩ := addLog_step s (g a)
    have e40 := Real.exp_pos (-40)
    obtain ⟨r, i1, i2, i3⟩ := fold_bounds g l (addLog (some s) (g a)) (T + Real.exp (g a)) (k + 1) (by linarith) (by
      have : Real.exp s * (k * Real.exp (-40)) ≤ Real.exp (addLog (some s) (g a)) * (k * Real.exp (-40)) :=
        mul_le_mul_of_nonneg_right q1 (by positivity)
      push_cast
      nlinarith)
    refine ⟨r, i1, ?_, ?_⟩
    · simpa [expSum, add_assoc] using i2
    · have : k + 1 + l.length = k + (a :: l).length := by simp; omega
      rw [this] at i3
      simpa [expSum, add_assoc] using i3

/-- Exactness when nothing is dropped. -/
theorem fold_exact : ∀ (l : List ℝ) (s : ℝ) (lo hi : ℝ) (n : ℕ), (∀ a ∈ l, lo ≤ a ∧ a ≤ hi) → lo ≤ s → s ≤ hi + Real.log n → 1 ≤ n →
    hi - lo + Real.log (n + l.length : ℕ) < 40 →
    ∃ r, l.foldl (fun t a => some (addLog t a)) (some s) = some r ∧ Real.exp r = Real.exp s + expSum l
  | [], s, _, _, _, _, _, _, _, _ => ⟨s, rfl, by simp [expSum]⟩
  | a :: l, s, lo, hi, n, hb, hlo, hhi, hn, hw => by
    obtain ⟨ha1, ha2⟩ := hb a (by simp)
    have hn0 : (0 : ℝ) < n := by exact_mod_cast hn
    have hle : Real.log n ≤ Real.log (n + (a :: l).length : ℕ) := Real.log_le_log hn0 (by push_cast; linarith [(by positivity : (0 : ℝ) ≤ (a :: l).length)])
    have hl0 : 0 ≤ Real.log n := Real.log_nonneg (by exact_mod_cast hn)
    have hd : |a - s| < 40 := by rw [abs_lt]; constructor <;> linarith
    obtain ⟨q1, _, _, q4⟩ := addLog_step s a
    have q5 := q4 hd
    have e1 : s ≤ addLog (some s) a := Real.exp_le_exp.mp q1
    have e2 : addLog (some s) a ≤ hi + Real.log (n + 1 : ℕ) := by
      rw [← Real.exp_le_exp, q5, Real.exp_add, Real.exp_log (by positivity)]
      have h1 : Real.exp s ≤ Real.exp hi * n := by
        have := Real.exp_le_exp.mpr hhi
        rwa [Real.exp_add, Real.exp_log hn0] at this
      have h2 : Real.exp a ≤ Real.exp hi := Real.exp_le_exp.mpr ha2
      push_cast
      linarith
    obtain ⟨r, i1, i2⟩ := fold_exact l (addLog (some s) a) lo hi (n + 1) (fun b hb' => hb b (by simp [hb'])) (by linarith) e2 (by omega)
      (by rw [show n + 1 + l.length = n + (a :: l).length by simp; omega]; exact hw)
    refine ⟨r, i1, ?_⟩
    rw [i2, q5]
    simp [expSum, add_assoc]

/-- **C42.** After any history of additions (at least one value), `status` reports the number of operations and a log sum within `m exp(-40)` below the logarithm of the
sum of the exponentials, `m` being the number of values added after the first; the log mean is this minus the logarithm of the count. -/
theorem C42_sum (ops : List SOp) (dosig : Bool) (h : added ops ≠ []) : ∃ st, (runSum (LSum.init dosig none) ops).status = .ok st ∧ st.n = ops.length ∧
    st.logSum ≤ Real.log (expSum (added ops)) ∧ Real.log (expSum (added ops)) ≤ st.logSum + ((added ops).length - 1 : ℕ) * Real.exp (-40) ∧
    st.lmean = st.logSum - Real.log ops.length := by
  obtain ⟨h1, h2, h3, h4⟩ := runSum_fold ops (LSum.init dosig none)
  obtain ⟨a, l, hl⟩ : ∃ a l, added ops = a :: l := by
    cases hq : added ops with
    | nil => exact absurd hq h
    | cons a l => exact ⟨a, l, rfl⟩
  rw [hl] at h1 h4
  obtain ⟨r, b1, b2, b3⟩ := fold_bounds (fun a => a) l a (Real.exp a) 0 (le_refl _) (by simp)
  have hs : (runSum (LSum.init dosig none) ops).logSum = some r := by rw [h1]; exact b1
  have hn : (runSum (LSum.init dosig none) ops).n = ops.length := by rw [h2]; simp [LSum.init]
  have hE : Real.exp a + expSum (l.map fun a => a) = expSum (added ops) := by rw [hl]; simp [expSum]
  rw [hE] at b2 b3
  have hpos : 0 < expSum (added ops) := lt_of_lt_of_le (Real.exp_pos r) b2
  have c1 : r ≤ Real.log (expSum (added ops)) := by rwa [Real.le_log_iff_exp_le hpos]
  have c2 : Real.log (expSum (added ops)) ≤ r + ((added ops).length - 1 : ℕ) * Real.exp (-40) := by
    have hk : 0 + l.length = (added ops).length - 1 := by rw [hl]; simp
    rw [hk] at b3
    refine (Real.log_le_log hpos b3).trans ?_
    have : (0 : ℝ) < 1 + ((added ops).length - 1 : ℕ) * Real.exp (-40) := by positivity
    rw [Real.log_mul (Real.exp_pos r).ne' this.ne', Real.log_exp]
    have := Real.log_le_sub_one_of_pos this
    linarith
  have hd : (runSum (LSum.init dosig none) ops).dosig = dosig := by rw [h3]; cases dosig <;> rfl
  unfold LSum.status
  rw [hs]
  dsimp only
  rw [hn, hd]
  cases dosig with
  | false => exact ⟨_, by rw [if_neg (by simp)], rfl, c1, c2, rfl⟩
  | true =>
    obtain ⟨r2, d1, _⟩ := fold_bounds (fun a => 2 * a) l (2 * a) (Real.exp (2 * a)) 0 (le_refl _) (by simp)
    have hs2 : (runSum (LSum.init true none) ops).sigSum = some r2 := by rw [h4, if_pos (show (LSum.init true none).dosig = true from rfl)]; exact d1
    rw [hs2, if_pos rfl]
    dsimp only
    by_cases hq : 2 * (r - Real.log ops.length) - (r2 - Real.log ops.length) > -40
    · rw [if_pos hq]; exact ⟨_, rfl, rfl, c1, c2, rfl⟩
    · rw [if_neg hq]; exact ⟨_, rfl, rfl, c1, c2, rfl⟩

/-- **C42.** If the values lie within a range whose width plus the logarithm of their number is less than 40, nothing is dropped and the log sum is exact. -/
theorem C42_exact (ops : List SOp) (dosig : Bool) (lo hi : ℝ) (h : added ops ≠ []) (hb : ∀ a ∈ added ops, lo ≤ a ∧ a ≤ hi)
    (hw : hi - lo + Real.log (added ops).length < 40) : (runSum (LSum.init dosig none) ops).logSum = some (Real.log (expSum (added ops))) := by
  obtain ⟨h1, -⟩ := runSum_fold ops (LSum.init dosig none)
  obtain ⟨a, l, hl⟩ : ∃ a l, added ops = a :: l := by
    cases hq : added ops with
    | nil => exact absurd hq h
    | cons a l => exact ⟨a, l, rfl⟩
  rw [hl] at h1 hb hw ⊢
  obtain ⟨r, b1, b2⟩ := fold_exact l a lo hi 1 (fun b hb' => hb b (by simp [hb'])) (hb a (by simp)).1 (by simpa using (hb a (by simp)).2) (le_refl _)
    (by rw [show 1 + l.length = (a :: l).length by simp; omega]; exact hw)
  rw [h1]
  have hE : Real.exp a + expSum l = expSum (a :: l) := by simp [expSum]
  rw [hE] at b2
  rw [← b2, Real.log_exp]
  exact b1

/-- **C42.** The order of the values does not matter when nothing is dropped. -/
theorem C42_order (ops ops' : List SOp) (dosig : Bool) (lo hi : ℝ) (h : added ops ≠ []) (hp : (added ops).Perm (added ops'))
    (hb : ∀ a ∈ added ops, lo ≤ a ∧ a ≤ hi) (hw : hi - lo + Real.log (added ops).length < 40) :
    (runSum (LSum.init dosig none) ops).logSum = (runSum (LSum.init dosig none) ops').logSum := by
  rw [C42_exact ops dosig lo hi h hb hw, C42_exact ops' dosig lo hi (fun h' => h (by rw [h'] at hp; exact List.Perm.eq_nil hp))
    (fun a ha => hb a (hp.mem_iff.mpr ha)) (by rw [← hp.length_eq]; exact hw)]
  congr 2
  exact (hp.map Real.exp).sum_eq

/-- `status` raises `ValueError` if nothing but zeros has been added. -/
theorem C42_empty (ops : List SOp) (dosig : Bool) (h : added ops = []) : (runSum (LSum.init dosig none) ops).status = .error .value := by
  obtain ⟨h1, -⟩ := runSum_fold ops (LSum.init dosig none)
  rw [h] at h1
  unfold LSum.status
  rw [h1]
  rfl

/-- The standard deviation reported, in terms of the two sums. -/
theorem status_sigma (s : LSum) (t q : ℝ) (st : LStat) (hd : s.dosig = true) (hs : s.logSum = some t) (hq : s.sigSum = some q) (hn : 0 < s.n)
    (hst : s.status = .ok st) (hv : (Real.exp t / s.n) ^ 2 < Real.exp q / s.n) (hr : Real.exp q / s.n * Real.exp (-40) < (Real.exp t / s.n) ^ 2) :
    ∃ lsig, st.sig = some (q, some lsig) ∧ Real.exp lsig ^ 2 = Real.exp q / s.n - (Real.exp t / s.n) ^ 2 := by
  have hn' : (0 : ℝ) < s.n := by exact_mod_cast hn
  have e2 : Real.exp (q - Real.log s.n) = Real.exp q / s.n := by rw [Real.exp_sub, Real.exp_log hn']
  have e1 : Real.exp (2 * (t - Real.log s.n)) = (Real.exp t / s.n) ^ 2 := by
    rw [two_mul, Real.exp_add, Real.exp_sub, Real.exp_log hn']; ring
  have ed : Real.exp (2 * (t - Real.log s.n) - (q - Real.log s.n)) = (Real.exp t / s.n) ^ 2 / (Real.exp q / s.n) := by rw [Real.exp_sub, e1, e2]
  have hqn : 0 < Real.exp q / s.n := by positivity
  have hlt : Real.exp (2 * (t - Real.log s.n) - (q - Real.log s.n)) < 1 := by rw [ed, div_lt_one hqn]; exact hv
  have hgt : -40 < 2 * (t - Real.log s.n) - (q - Real.log s.n) := by
    rw [← Real.exp_lt_exp, ed, lt_div_iff₀ hqn]; linarith
  unfold LSum.status at hst
  rw [hs] at hst
  dsimp only at hst
  rw [hd, hq, if_pos rfl] at hst
  dsimp only at hst
  rw [if_pos hgt, if_pos (by linarith)] at hst
  cases hst
  refine ⟨_, rfl, ?_⟩
  have h1 : 0 < 1 - Real.exp (2 * (t - Real.log s.n) - (q - Real.log s.n)) := by linarith
  rw [← Real.exp_nat_mul, show ((2 : ℕ) : ℝ) * (1 / 2 * (q - Real.log s.n) + 1 / 2 * Real.log (1 - Real.exp (2 * (t - Real.log s.n) - (q - Real.log s.n)))) =
    (q - Real.log s.n) + Real.log (1 - Real.exp (2 * (t - Real.log s.n) - (q - Real.log s.n))) by push_cast; ring, Real.exp_add, Real.exp_log h1, e2, ed]
  field_simp

theorem expSum_sq_le : ∀ l : List ℝ, expSum (l.map (2 * ·)) ≤ expSum l ^ 2
  | [] => by simp [expSum]
  | a :: l => by
    have ih := expSum_sq_le l
    have h1 : expSum ((a :: l).map (2 * ·)) = Real.exp a ^ 2 + expSum (l.map (2 * ·)) := by
      simp only [expSum, List.map_cons, List.sum_cons]
      rw [← Real.exp_nat_mul]; norm_num
    have h2 : expSum (a :: l) = Real.exp a + expSum l := by simp [expSum]
    rw [h1, h2]
    nlinarith [mul_nonneg (Real.exp_pos a).le (expSum_nonneg l)]

/-- **C42.** With `dosig`, when the values lie within a range such that nothing is dropped, `status` reports the log of the standard deviation of the values, zeros
included: its square is the mean square minus the squared mean (which has to be positive for its logarithm to exist). -/
theorem C42_sigma (ops : List SOp) (lo hi : ℝ) (h : added ops ≠ []) (hb : ∀ a ∈ added ops, lo ≤ a ∧ a ≤ hi)
    (hw : 2 * (hi - lo) + Real.log ops.length < 40)
    (hv : (expSum (added ops) / ops.length) ^ 2 < expSum ((added ops).map (2 * ·)) / ops.length) :
    ∃ st lsig, (runSum (LSum.init true none) ops).status = .ok st ∧ st.sig = some (Real.log (expSum ((added ops).map (2 * ·))), some lsig) ∧
      Real.exp lsig ^ 2 = expSum ((added ops).map (2 * ·)) / ops.length - (expSum (added ops) / ops.length) ^ 2 := by
  obtain ⟨h1, h2, h3, h4⟩ := runSum_fold ops (LSum.init true none)
  have hlen : ∀ l : List SOp, (added l).length ≤ l.length := by
    intro l
    induction l with
    | nil => simp [added]
    | cons o l ih => cases o <;> simp only [added, List.length_cons] <;> omega
  have hne0 : 0 < (added ops).length := List.length_pos_of_ne_nil h
  have hops : 0 < ops.length := lt_of_lt_of_le hne0 (hlen ops)
  have hlog : Real.log (added ops).length ≤ Real.log ops.length := Real.log_le_log (by exact_mod_cast hne0) (by exact_mod_cast hlen ops)
  have hlohi : lo ≤ hi := by
    obtain ⟨a, ha⟩ := List.exists_mem_of_ne_nil _ h
    exact (hb a ha).1.trans (hb a ha).2
  have x1 := C42_exact ops true lo hi h hb (by linarith)
  obtain ⟨st, hst, -⟩ := C42_sum ops true h
  have hn : (runSum (LSum.init true none) ops).n = ops.length := by rw [h2]; simp [LSum.init]
  have x2 : (runSum (LSum.init true none) ops).sigSum = some (Real.log (expSum ((added ops).map (2 * ·)))) := by
    rw [h4, if_pos (show (LSum.init true none).dosig = true from rfl)]
    obtain ⟨a, l, hl⟩ : ∃ a l, added ops = a :: l := by
      cases hq : added ops with
      | nil => exact absurd hq h
      | cons a l => exact ⟨a, l, rfl⟩
    rw [hl] at hb hlog ⊢
    obtain ⟨r, b1, b2⟩ := fold_exact (l.map (2 * ·)) (2 * a) (2 * lo) (2 * hi) 1
      (fun b hb' => by
        obtain ⟨c, hc, rfl⟩ := List.mem_map.mp hb'
        have := hb c (by simp [hc])
        constructor <;> linarith [this.1, this.2])
      (by linarith [(hb a (by simp)).1]) (by have := (hb a (by simp)).2; simp; linarith) (le_refl _)
      (by rw [List.length_map, show 1 + l.length = (a :: l).length by simp; omega]; linarith)
    rw [List.foldl_map] at b1
    have hE : Real.exp (2 * a) + expSum (l.map (2 * ·)) = expSum ((a :: l).map (2 * ·)) := by simp [expSum]
    rw [hE] at b2
    rw [← b2, Real.log_exp]
    exact b1
  have p1 : 0 < expSum (added ops) := by
    obtain ⟨st, _, _, q1, q2, _⟩ := C42_sum ops true h
    by_contra hc
    have : expSum (added ops) = 0 := le_antisymm (not_lt.mp hc) (expSum_nonneg _)
    have hsum : ∀ l : List ℝ, l ≠ [] → 0 < expSum l := by
      intro l hl
      cases l with
      | nil => exact absurd rfl hl
      | cons a l => simp only [expSum, List.map_cons, List.sum_cons]; have := expSum_nonneg l; unfold expSum at this; linarith [Real.exp_pos a]
    exact hc (hsum _ h)
  have hno : (0 : ℝ) < ops.length := by exact_mod_cast hops
  have p2 : 0 < expSum ((added ops).map (2 * ·)) := by
    have h5 : 0 < expSum ((added ops).map (2 * ·)) / ops.length := lt_of_le_of_lt (sq_nonneg _) hv
    rcases div_pos_iff.mp h5 with h6 | h6
    · exact h6.1
    · linarith [h6.2]
  obtain ⟨lsig, y1, y2⟩ := status_sigma _ _ _ st h3 x1 x2 (by rw [hn]; exact hops) hst
    (by rw [hn, Real.exp_log p1, Real.exp_log p2]; exact hv)
    (by
      rw [hn, Real.exp_log p1, Real.exp_log p2]
      have e1 := expSum_sq_le (added ops)
      have e2 : (ops.length : ℝ) * Real.exp (-40) < 1 := by
        have : Real.log ops.length < 40 := by linarith
        rw [Real.log_lt_iff_lt_exp hno] at this
        calc (ops.length : ℝ) * Real.exp (-40) < Real.exp 40 * Real.exp (-40) := mul_lt_mul_of_pos_right this (Real.exp_pos _)
          _ = 1 := by rw [← Real.exp_add]; norm_num
      rw [div_pow, div_mul_eq_mul_div, div_lt_div_iff₀ hno (by positivity)]
      calc expSum ((added ops).map (2 * ·)) * Real.exp (-40) * (ops.length : ℝ) ^ 2
          = expSum ((added ops).map (2 * ·)) * ops.length * (ops.length * Real.exp (-40)) := by ring
        _ < expSum ((added ops).map (2 * ·)) * ops.length * 1 := by
            apply mul_lt_mul_of_pos_left e2; positivity
        _ ≤ expSum (added ops) ^ 2 * ops.length := by rw [mul_one]; exact mul_le_mul_of_nonneg_right e1 hno.le)
  refine ⟨st, lsig, hst, y1, ?_⟩
  rw [y2, hn, Real.exp_log p1, Real.exp_log p2]

/-- Concrete histories meet the hypotheses. -/
example : added [.val 0, .zero, .val 1] ≠ [] ∧ (∀ a ∈ added [.val 0, .zero, .val 1], (0 : ℝ) ≤ a ∧ a ≤ 1) ∧
    (1 : ℝ) - 0 + Real.log (added [.val 0, .zero, .val 1]).length < 40 := by
  refine ⟨by simp [added], by simp [added], ?_⟩
  have : Real.log 2 ≤ 2 - 1 := Real.log_le_sub_one_of_pos (by norm_num)
  simp only [added, List.length_cons, List.length_nil]
  push_cast
  norm_num at this ⊢
  linarith

/-- A summer begun with the result of an earlier sum knows nothing of its squares: asking for the standard deviation at once raises `TypeError`. -/
theorem C42_start_with_sig (n : ℕ) (t : ℝ) : (LSum.init true (some (n, t))).status = .error .type := rfl

end Verif.Num
