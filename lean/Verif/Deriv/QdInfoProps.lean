import Verif.Deriv.QdInfo
import Mathlib.LinearAlgebra.Matrix.DotProduct
import Mathlib.Data.Matrix.Mul
import Mathlib.LinearAlgebra.Matrix.Symmetric
import Mathlib.LinearAlgebra.Matrix.Notation
import Mathlib.Tactic.Ring
import Mathlib.Tactic.FieldSimp
import Mathlib.Tactic.Linarith
import Mathlib.Tactic.LinearCombination
import Mathlib.Tactic.NormNum

/-!
# C229: the second-difference information matrix from a simplex
-/

namespace Verif.Deriv.QdInfo

open Matrix

/-! ## Specification -/

variable {K : Type*} [Field K] [LinearOrder K] [IsStrictOrderedRing K] {n : ℕ}

/-- A quadratic log likelihood whose matrix of second derivatives is `A`. -/
def quadratic (c : K) (b : Fin n → K) (A : Matrix (Fin n) (Fin n) K) (x : Fin n → K) : K :=
  c + b ⬝ᵥ x + x ⬝ᵥ (A *ᵥ x) / 2

/-- The other vertices of the simplex lie from the first along the axes, at distances `d`. -/
def AlongAxes (g : ℕ → Fin n → K) (d : Fin n → K) : Prop :=
  ∀ i : Fin n, d i ≠ 0 ∧ g (i + 1) = g 0 + Pi.single i (d i)

/-- The values are those of the function at the vertices. -/
def ValuesOf (f : (Fin n → K) → K) (s : Simplex n K) : Prop := ∀ i ≤ n, s.h i = f (s.g i)

/-! ## The expansion -/

theorem expandV_center (f : (Fin n → K) → K) (p : Fin n → K) (simp : K) (hs : 0 < simp) (t : ℕ) :
    expandV f p (f p) simp t p (f p) = none := by
  induction t with
  | zero => rfl
  | succ t ih =>
    have e : (fun j => (p j - p j) + p j) = p := by funext j; ring
    simp only [expandV, sub_self, abs_zero, not_le.mpr hs, if_false, zero_add]
    exact ih

theorem expandAll_none (f : (Fin n → K) → K) (p : Fin n → K) (simp : K) (hs : 0 < simp) (fuel k : ℕ) :
    ∀ r i (s : Simplex n K), i ≤ k → k < i + r → s.g k = p → s.h k = f p →
      expandAll f p (f p) simp fuel r i s = none := by
  intro r
  induction r with
  | zero => intro i s h1 h2; omega
  | succ r ih =>
    intro i s h1 h2 hg hh
    unfold expandAll
    by_cases e : i = k
    · subst e
      rw [hg, hh, expandV_center f p simp hs]
    · split
      · rfl
      · rename_i v h _
        apply ih (i + 1) _ (by omega) (by omega)
        · simp only; rw [Function.update_of_ne (Ne.symm e)]; exact hg
        · simp only; rw [Function.update_of_ne (Ne.symm e)]; exact hh

/-- **C229** (violated): used as documented, with `p` a vertex of the simplex and `func` its value, the routine never returns, for any function, any simplex and any positive criterion: the vertex at `p` is expanded about itself for ever. -/
theorem C229_violated_never_returns (f : (Fin n → K) → K) (p : Fin n → K) (s : Simplex n K) (simp : K)
    (hs : 0 < simp) (k : ℕ) (hk : k ≤ n) (hg : s.g k = p) (hv : ValuesOf f s) (fuel : ℕ) :
    qdinfo fuel f p (f p) s simp = none := by
  unfold qdinfo
  rw [expandAll_none f p simp hs fuel k (n + 1) 0 s (Nat.zero_le _) (by omega) hg (by rw [hv k hk, hg])]
  rfl

theorem expandV_stay (f : (Fin n → K) → K) (p : Fin n → K) (func simp : K) (t : ℕ) (v : Fin n → K) (h : K)
    (hh : simp ≤ |h - func|) : expandV f p func simp (t + 1) v h = some (v, h) := by
  simp only [expandV, hh, if_true]

theorem expandAll_stay (f : (Fin n → K) → K) (p : Fin n → K) (func simp : K) (fuel : ℕ) :
    ∀ r i (s : Simplex n K), (∀ k, i ≤ k → k < i + r → simp ≤ |s.h k - func|) →
      expandAll f p func simp (fuel + 1) r i s = some s := by
  intro r
  induction r with
  | zero => intro i s _; rfl
  | succ r ih =>
    intro i s hh
    unfold expandAll
    rw [expandV_stay f p func simp fuel _ _ (hh i le_rfl (by omega))]
    simp only [Function.update_eq_self]
    exact ih (i + 1) s fun k h1 h2 => hh k (by omega) (by omega)

/-- The vertex after `m` expansions about `p`. -/
def scaled (p v : Fin n → K) (m : ℕ) : Fin n → K := fun j => p j + 2 ^ m * (v j - p j)

theorem expandV_some (f : (Fin n → K) → K) (p : Fin n → K) (func simp : K) :
    ∀ t (v : Fin n → K) (v' : Fin n → K) (h' : K),
      expandV f p func simp t v (f v) = some (v', h') →
      ∃ m, v' = scaled p v m ∧ h' = f v' ∧ simp ≤ |h' - func| ∧
        ∀ l < m, |f (scaled p v l) - func| < simp := by
  intro t
  induction t with
  | zero => intro v v' h' h; simp [expandV] at h
  | succ t ih =>
    intro v v' h' h
    have e0 : scaled p v 0 = v := by funext j; simp [scaled]
    by_cases c : simp ≤ |f v - func|
    · rw [expandV_stay f p func simp t v _ c] at h
      simp only [Option.some.injEq, Prod.mk.injEq] at h
      obtain ⟨rfl, rfl⟩ := h
      exact ⟨0, e0.symm, rfl, c, fun l hl => absurd hl (Nat.not_lt_zero l)⟩
    · simp only [expandV, c, if_false] at h
      obtain ⟨m, h1, h2, h3, h4⟩ := ih _ _ _ h
      have es : ∀ l, scaled p (fun j => (v j - p j) + v j) l = scaled p v (l + 1) := by
        intro l; funext j; simp only [scaled]; ring
      refine ⟨m + 1, by rw [h1, es], h2, h3, ?_⟩
      intro l hl
      cases l with
      | zero => rw [e0]; exact not_le.mp c
      | succ l => rw [← es]; exact h4 l (by omega)

theorem expandAll_some (f : (Fin n → K) → K) (p : Fin n → K) (func simp : K) (fuel : ℕ) :
    ∀ r i (s s' : Simplex n K), (∀ k, i ≤ k → k < i + r → s.h k = f (s.g k)) →
      expandAll f p func simp fuel r i s = some s' →
      (∀ k, k < i → s'.g k = s.g k ∧ s'.h k = s.h k) ∧
      ∀ k, i ≤ k → k < i + r → ∃ m, s'.g k = scaled p (s.g k) m ∧ s'.h k = f (s'.g k) ∧
        simp ≤ |s'.h k - func| ∧ ∀ l < m, |f (scaled p (s.g k) l) - func| < simp := by
  intro r
  induction r with
  | zero =>
    intro i s s' _ h
    simp only [expandAll, Option.some.injEq] at h
    subst h
    exact ⟨fun k _ => ⟨rfl, rfl⟩, fun k h1 h2 => by omega⟩
  | succ r ih =>
    intro i s s' hv h
    unfold expandAll at h
    split at h
    · simp at h
    · rename_i v w hw
      rw [hv i le_rfl (by omega)] at hw
      obtain ⟨m, m1, m2, m3, m4⟩ := expandV_some f p func simp _ _ _ _ hw
      have hv' : ∀ k, i + 1 ≤ k → k < i + 1 + r →
          (Function.update s.h i w) k = f ((Function.update s.g i v) k) := by
        intro k h1 h2
        rw [Function.update_of_ne (by omega), Function.update_of_ne (by omega)]
        exact hv k (by omega) (by omega)
      obtain ⟨a, b⟩ := ih (i + 1) _ s' hv' h
      simp only at a b
      constructor
      · intro k hk
        have := a k (by omega)
        rw [Function.update_of_ne (by omega), Function.update_of_ne (by omega)] at this
        exact this
      · intro k h1 h2
        by_cases e : k = i
        · subst e
          have := a k (by omega)
          rw [Function.update_self, Function.update_self] at this
          refine ⟨m, by rw [this.1, m1], by rw [this.2, this.1, m2], by rw [this.2]; exact m3, m4⟩
        · have := b k (by omega) (by omega)
          rw [Function.update_of_ne e] at this
          exact this

/-! ## Second differences of a quadratic -/

theorem quadratic_diff (c : K) (b : Fin n → K) (A : Matrix (Fin n) (Fin n) K) (x u v : Fin n → K) :
    quadratic c b A (x + u + v) + quadratic c b A x - quadratic c b A (x + u) - quadratic c b A (x + v)
      = (u ⬝ᵥ (A *ᵥ v) + v ⬝ᵥ (A *ᵥ u)) / 2 := by
  simp only [quadratic, mulVec_add, dotProduct_add, add_dotProduct]
  ring

theorem bil_single (A : Matrix (Fin n) (Fin n) K) (i j : Fin n) (a b : K) :
    (Pi.single i a : Fin n → K) ⬝ᵥ (A *ᵥ (Pi.single j b : Fin n → K)) = a * b * A i j := by
  rw [single_dotProduct, mulVec_single]
  simp [Matrix.col]
  ring

theorem quadratic_single (c : K) (b : Fin n → K) (A : Matrix (Fin n) (Fin n) K) (hA : A.IsSymm)
    (x : Fin n → K) (i j : Fin n) (a d : K) :
    quadratic c b A (x + Pi.single i a + Pi.single j d) + quadratic c b A x
      - quadratic c b A (x + Pi.single i a) - quadratic c b A (x + Pi.single j d) = a * d * A i j := by
  rw [quadratic_diff, bil_single, bil_single, hA.apply i j]
  ring

section
variable {s : Simplex n K} {d : Fin n → K}

theorem aval_eq (f : (Fin n → K) → K) (h : AlongAxes s.g d) (i : Fin n) :
    aval f s i = f (s.g 0 + Pi.single i (d i / 2)) := by
  unfold aval
  congr 1
  funext k
  rw [(h i).2]
  by_cases e : k = i
  · subst e; simp; ring
  · simp [e]; ring

theorem mid_eq (h : AlongAxes s.g d) (i j : Fin n) :
    (fun k => (s.g (i + 1) k + s.g (j + 1) k) * (1 / 2))
      = s.g 0 + Pi.single i (d i / 2) + Pi.single j (d j / 2) := by
  funext k
  rw [(h i).2, (h j).2]
  by_cases e : k = i <;> by_cases e' : k = j
  · subst e; subst e'; simp; ring
  · subst e; simp [e']; ring
  · subst e'; simp [e]; ring
  · simp [e, e']; ring

theorem step_eq (h : AlongAxes s.g d) (i : Fin n) : step s i = d i := by
  unfold step; rw [(h i).2]; simp

theorem matrix_eq (c : K) (b : Fin n → K) (A : Matrix (Fin n) (Fin n) K) (hA : A.IsSymm)
    (h : AlongAxes s.g d) (hv : ValuesOf (quadratic c b A) s) (i j : Fin n) :
    matrix (quadratic c b A) s i j = - A i j := by
  have off_eq : ∀ i j, off (quadratic c b A) s i j = - A i j := by
    intro i j
    have hi := (h i).1
    have hj := (h j).1
    unfold off
    rw [aval_eq _ h, aval_eq _ h, mid_eq h, step_eq h, step_eq h, hv 0 (Nat.zero_le _),
      quadratic_single c b A hA]
    field_simp
    ring
  unfold matrix
  split
  · exact off_eq i j
  · split
    · rw [off_eq, hA.apply i j]
    · have e : i = j := by omega
      subst e
      have hi := (h i).1
      unfold diag
      rw [aval_eq _ h, step_eq h, hv 0 (Nat.zero_le _), hv (i + 1) (by omega)]
      have : s.g (i + 1) = s.g 0 + Pi.single i (d i / 2) + Pi.single i (d i / 2) := by
        rw [(h i).2, add_assoc, ← Pi.single_add]; congr 2; ring
      rw [this]
      have q := quadratic_single c b A hA (s.g 0) i i (d i / 2) (d i / 2)
      have q' : quadratic c b A (s.g 0 + Pi.single i (d i / 2) + Pi.single i (d i / 2))
          + quadratic c b A (s.g 0) - 2 * quadratic c b A (s.g 0 + Pi.single i (d i / 2))
          = d i / 2 * (d i / 2) * A i i := by linear_combination q
      rw [q']
      field_simp
      ring

end

/-- **C229** (partial): for every quadratic log likelihood and every simplex whose vertices lie along the axes from the first one, if no vertex value is within `simp` of `func`, the routine returns minus the matrix of second derivatives exactly, at every size, whatever `p` is. Missing: a vertex that has to be expanded; see the other theorems. -/
theorem C229_exact_partial (c : K) (b : Fin n → K) (A : Matrix (Fin n) (Fin n) K) (hA : A.IsSymm)
    (p : Fin n → K) (func : K) (s : Simplex n K) (d : Fin n → K) (simp : K)
    (h : AlongAxes s.g d) (hv : ValuesOf (quadratic c b A) s) (hs : ∀ k ≤ n, simp ≤ |s.h k - func|)
    (fuel : ℕ) :
    ∃ M, qdinfo (fuel + 1) (quadratic c b A) p func s simp = some M ∧ ∀ i j, M i j = - A i j := by
  refine ⟨_, ?_, matrix_eq c b A hA h hv⟩
  unfold qdinfo
  rw [expandAll_stay _ p func simp fuel (n + 1) 0 s fun k _ hk => hs k (by omega)]
  rfl

/-- **C229** (partial): whenever the routine returns, every vertex has been moved to `p + 2^m (v - p)`, where `m` is the least number of doublings that takes its value out of the band of half-width `simp` around `func`; if the numbers of doublings are the same for all vertices, the matrix returned is still exact. Missing: different numbers of doublings, where it is not (`C229_violated_uneven`). -/
theorem C229_expanded_partial (c : K) (b : Fin n → K) (A : Matrix (Fin n) (Fin n) K) (hA : A.IsSymm)
    (p : Fin n → K) (func : K) (s : Simplex n K) (d : Fin n → K) (simp : K)
    (h : AlongAxes s.g d) (hv : ValuesOf (quadratic c b A) s) (fuel : ℕ) (M : Fin n → Fin n → K)
    (hM : qdinfo fuel (quadratic c b A) p func s simp = some M) :
    ∃ m : ℕ → ℕ,
      (∀ k ≤ n, simp ≤ |quadratic c b A (scaled p (s.g k) (m k)) - func| ∧
        ∀ l < m k, |quadratic c b A (scaled p (s.g k) l) - func| < simp) ∧
      ((∀ k ≤ n, m k = m 0) → ∀ i j, M i j = - A i j) := by
  unfold qdinfo at hM
  rw [Option.map_eq_some_iff] at hM
  obtain ⟨s', h1, rfl⟩ := hM
  obtain ⟨-, hx⟩ := expandAll_some _ p func simp fuel (n + 1) 0 s s' (fun k _ hk => hv k (by omega)) h1
  have hx' : ∀ k, ∃ m, k ≤ n → s'.g k = scaled p (s.g k) m ∧ s'.h k = quadratic c b A (s'.g k) ∧
      simp ≤ |s'.h k - func| ∧ ∀ l < m, |quadratic c b A (scaled p (s.g k) l) - func| < simp := by
    intro k
    by_cases hk : k ≤ n
    · obtain ⟨m, hm⟩ := hx k (Nat.zero_le _) (by omega)
      exact ⟨m, fun _ => hm⟩
    · exact ⟨0, fun h => absurd h hk⟩
  choose m hm using hx'
  refine ⟨m, ?_, ?_⟩
  · intro k hk
    obtain ⟨a1, a2, a3, a4⟩ := hm k hk
    rw [a2, a1] at a3
    exact ⟨a3, a4⟩
  · intro he
    have hax : AlongAxes s'.g fun i => 2 ^ m 0 * d i := by
      intro i
      refine ⟨mul_ne_zero (pow_ne_zero _ two_ne_zero) (h i).1, ?_⟩
      rw [(hm _ (by omega : (i : ℕ) + 1 ≤ n)).1, (hm 0 (Nat.zero_le _)).1, he _ (by omega), (h i).2]
      funext k
      by_cases e : k = i
      · subst e; simp [scaled]; ring
      · simp [scaled, e]
    exact matrix_eq c b A hA hax fun k hk => (hm k hk).2.1

/-! ## Witnesses -/

/-- The function `-x²-y²`, minus identity times two as second derivatives. -/
def wf : (Fin 2 → ℚ) → ℚ := fun x => -(x 0 * x 0) - x 1 * x 1

/-- Vertices `(1,0)`, `(3,0)`, `(1,3)`. -/
def wg : ℕ → Fin 2 → ℚ
  | 0 => ![1, 0]
  | 1 => ![3, 0]
  | _ => ![1, 3]

/-- The simplex with its values. -/
def ws : Simplex 2 ℚ := ⟨wg, fun k => wf (wg k)⟩

/-- **C229** (violated): with `p` outside the simplex and one vertex nearer in value than `simp`, only that vertex is moved, the steps are no longer along the axes, and the matrix returned for `-x²-y²` has `20/9` and `-2/3` where minus its second derivatives are 2 and 0. -/
theorem C229_violated_uneven :
    AlongAxes ws.g ![2, 3] ∧ ValuesOf wf ws ∧
    ∃ M, qdinfo 5 wf ![0, 0] (wf ![0, 0]) ws 2 = some M ∧ M 1 1 = 20 / 9 ∧ M 1 0 = -2 / 3 := by
  refine ⟨?_, fun _ _ => rfl, ?_⟩
  · intro i
    fin_cases i
    · refine ⟨by decide +kernel, by decide +kernel⟩
    · refine ⟨by decide +kernel, by decide +kernel⟩
  · have e : (qdinfo 5 wf ![0, 0] (wf ![0, 0]) ws 2).map (fun M => (M 1 1, M 1 0)) = some (20 / 9, -2 / 3) := by
      decide +kernel
    rw [Option.map_eq_some_iff] at e
    obtain ⟨M, h, e⟩ := e
    exact ⟨M, h, congrArg Prod.fst e, congrArg Prod.snd e⟩

/-- The witness function is one of the quadratics of the theorems. -/
example : wf = quadratic 0 ![0, 0] !![-2, 0; 0, -2] := by
  funext x
  simp [wf, quadratic, dotProduct, mulVec, Fin.sum_univ_two]
  ring

/-- The hypotheses of `C229_exact_partial` are met by this simplex with the criterion `1/2`. -/
example : ∀ k ≤ 2, (1 / 2 : ℚ) ≤ |ws.h k - wf ![0, 0]| := by decide +kernel

/-- An even expansion: about 0 with the criterion 2, the vertices 1 and -1 both move once, and the result is exact. -/
example : (qdinfo 5 (fun x : Fin 1 → ℚ => -(x 0 * x 0)) ![0] 0
    ⟨fun k => if k = 0 then ![1] else ![-1], fun _ => -1⟩ 2).map (fun M => M 0 0) = some 2 := by
  decide +kernel

/-- The documented use: `p` is a vertex. -/
example : wg 0 = ![1, 0] ∧ ∀ fuel, qdinfo fuel wf ![1, 0] (wf ![1, 0]) ws (1 / 1000) = none :=
  ⟨rfl, fun fuel => C229_violated_never_returns wf ![1, 0] ws _ (by norm_num) 0 (by omega) rfl (fun _ _ => rfl) fuel⟩

end Verif.Deriv.QdInfo
