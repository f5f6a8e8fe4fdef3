import Verif.MC.Pop1D
import Mathlib.Data.List.GetD
import Mathlib.Data.List.Sort
import Mathlib.Algebra.Order.BigOperators.Group.List
import Mathlib.Tactic.Linarith
import Mathlib.Tactic.Ring
import Mathlib.Tactic.NormNum

/-!
# Properties of populations indexed by a real quantity (C93)
-/

set_option linter.unusedSectionVars false

namespace Verif.Pop1D

variable {K : Type*} [Field K] [LinearOrder K] [IsStrictOrderedRing K]

/-! ## Specification -/

/-- What `argsort` does. -/
def IsArgsort (f : List K → List ℕ) : Prop := ∀ v : List K, (f v).Perm (List.range v.length) ∧ ((f v).map fun i => v.getD i 0).Pairwise (· ≤ ·)

/-- The total weight of the members with a value of at least `x`. -/
def above (vals weights : List K) (x : K) : K := (((vals.zip weights).filter fun q => x ≤ q.1).map (·.2)).sum

/-! ## Lemmas -/

theorem take_spec {a : List K} : ∀ {is : List ℕ} {l : List K}, take a is = .ok l → l = is.map (fun i => a.getD i 0) ∧ ∀ i ∈ is, i < a.length
  | [], l, h => by simp [take] at h; simp [h]
  | i :: is, l, h => by
    rw [take] at h
    split at h
    · cases h
    · rename_i x hx
      split at h
      · cases h
      · rename_i xs hxs
        obtain ⟨h1, h2⟩ := take_spec hxs
        simp only [Except.ok.injEq] at h
        obtain ⟨hi, rfl⟩ := List.getElem?_eq_some_iff.1 hx
        subst h
        refine ⟨?_, ?_⟩
        · rw [List.map_cons, ← h1, List.getD_eq_getElem _ _ hi]
        · intro j hj
          rcases List.mem_cons.1 hj with rfl | hj
          · exact hi
          · exact h2 j hj

theorem init_spec {argsort : List K → List ℕ} {isArray : Bool} {vals weights : List K} {err : Errs K} {p : Pop K} (h : init argsort isArray vals weights err = .ok p) :
    p.vals = (argsort vals).map (fun i => vals.getD i 0) ∧ p.weights = (argsort vals).map (fun i => weights.getD i 0) ∧ (∀ i ∈ argsort vals, i < weights.length) ∧
      p.cdf = cumsum 0 p.weights ∧ p.hazard = (cumsum 0 p.weights).reverse ∧ initErr (argsort vals) err = .ok p.err := by
  unfold init at h
  simp only at h
  split at h
  · cases h
  · split at h
    · cases h
    · rename_i v hv
      split at h
      · cases h
      · rename_i w hw
        obtain ⟨h1, -⟩ := take_spec hv
        obtain ⟨h2, h3⟩ := take_spec hw
        cases he : initErr (argsort vals) err with
        | error e => rw [he] at h; cases h
        | ok e =>
          rw [he] at h
          simp only [Except.map, Except.ok.injEq] at h
          subst h
          exact ⟨h1, h2, h3, rfl, rfl, rfl⟩

theorem cumsum_length (s : K) : ∀ l : List K, (cumsum s l).length = l.length
  | [] => rfl
  | a :: l => by simp [cumsum, cumsum_length (s + a) l]

theorem cumsum_get : ∀ (s : K) (l : List K) (i : ℕ), i < l.length → (cumsum s l).getD i 0 = s + (l.take (i + 1)).sum
  | _, [], i, h => by simp at h
  | s, a :: l, 0, _ => by simp [cumsum]
  | s, a :: l, i + 1, h => by
    have := cumsum_get (s + a) l i (by simpa using h)
    simp only [cumsum, List.getD_cons_succ, this, List.take_succ_cons, List.sum_cons]
    ring

/-- The values and weights are those given, in another order. -/
theorem zip_perm {f : List K → List ℕ} (hf : IsArgsort f) {vals weights : List K} (hw : ∀ i ∈ f vals, i < weights.length) :
    (((f vals).map fun i => vals.getD i 0).zip ((f vals).map fun i => weights.getD i 0)).Perm (vals.zip weights) := by
  have h1 : ((f vals).map fun i => vals.getD i 0).zip ((f vals).map fun i => weights.getD i 0) = (f vals).map fun i => (vals.getD i 0, weights.getD i 0) := by
    rw [List.zip_map', ]
  rw [h1]
  refine ((hf vals).1.map _).trans (List.Perm.of_eq ?_)
  have hl : vals.length ≤ weights.length := by
    by_contra hlt
    push Not at hlt
    have := hw weights.length ((hf vals).1.mem_iff.2 (List.mem_range.2 hlt))
    omega
  refine List.ext_getElem (by simp [hl]) fun i h2 h3 => ?_
  simp only [List.length_map, List.length_range] at h2
  rw [List.getElem_map, List.getElem_zip, List.getElem_range, List.getD_eq_getElem _ _ h2, List.getD_eq_getElem _ _ (by omega)]

theorem filter_sorted : ∀ (l : List (K × K)), (l.map (·.1)).Pairwise (· < ·) → ∀ i (h : i < l.length), (l.filter fun q => l[i].1 ≤ q.1) = l.drop i
  | [], _, i, h => by simp at h
  | a :: l, hp, 0, _ => by
    simp only [List.map_cons, List.pairwise_cons, List.mem_map] at hp
    simp only [List.getElem_cons_zero, List.drop_zero]
    rw [List.filter_eq_self]
    intro q hq
    rcases List.mem_cons.1 hq with rfl | hq
    · simp
    · simpa using (hp.1 _ ⟨q, hq, rfl⟩).le
  | a :: l, hp, i + 1, h => by
    simp only [List.map_cons, List.pairwise_cons, List.mem_map] at hp
    simp only [List.length_cons, Nat.add_lt_add_iff_right] at h
    simp only [List.getElem_cons_succ, List.drop_succ_cons]
    rw [List.filter_cons_of_neg]
    · exact filter_sorted l hp.2 i h
    · simpa using hp.1 _ ⟨l[i], List.getElem_mem h, rfl⟩

/-! ## C93 -/

/-- C93.  When all weights are the same and the values are distinct, the hazard at each value is the weight of the members with a value at least as large.  Missing: other weights, for which this does not hold
(`C93_violated`). -/
theorem C93_hazard_partial {f : List K → List ℕ} (hf : IsArgsort f) {vals weights : List K} {err : Errs K} {p : Pop K} (h : init f true vals weights err = .ok p) (hv : vals.Nodup) {w : K}
    (hw : ∀ x ∈ weights, x = w) : p.vals.Perm vals ∧ p.vals.Pairwise (· ≤ ·) ∧ p.hazard.length = p.vals.length ∧ ∀ i < p.vals.length, p.hazard.getD i 0 = above vals weights (p.vals.getD i 0) := by
  obtain ⟨h1, h2, h3, -, h5, -⟩ := init_spec h
  obtain ⟨s1, s2⟩ := hf vals
  have hperm : p.vals.Perm vals := by
    rw [h1]
    refine (s1.map _).trans (List.Perm.of_eq (List.ext_getElem (by simp) fun i a b => ?_))
    simp only [List.length_map, List.length_range] at a
    rw [List.getElem_map, List.getElem_range, List.getD_eq_getElem _ _ a]
  have hlw : p.weights.length = p.vals.length := by rw [h1, h2]; simp
  have hlen : p.hazard.length = p.vals.length := by rw [h5]; simp [cumsum_length, hlw]
  have hsort : p.vals.Pairwise (· ≤ ·) := by rw [h1]; exact s2
  refine ⟨hperm, hsort, hlen, fun i hi => ?_⟩
  have hlt : p.vals.Pairwise (· < ·) := by
    have hnd : p.vals.Nodup := hperm.nodup_iff.2 hv
    refine List.Pairwise.imp₂ ?_ hsort hnd
    exact fun a b h1 h2 => lt_of_le_of_ne h1 h2
  have hz : (p.vals.zip p.weights).Perm (vals.zip weights) := by rw [h1, h2]; exact zip_perm hf h3
  have hi' : i < (p.vals.zip p.weights).length := by rw [List.length_zip]; omega
  have hget : p.vals.getD i 0 = ((p.vals.zip p.weights)[i]).1 := by rw [List.getElem_zip, List.getD_eq_getElem _ _ hi]
  have hmap : (p.vals.zip p.weights).map (·.1) = p.vals := List.map_fst_zip (by omega)
  unfold above
  rw [((hz.symm.filter _).map _).sum_eq, hget, filter_sorted _ (by rw [hmap]; exact hlt) i hi', List.map_drop, List.map_snd_zip (by omega)]
  have hc : p.weights = List.replicate p.vals.length w := by
    rw [List.eq_replicate_iff]
    refine ⟨hlw, fun b hb => ?_⟩
    rw [h2] at hb
    obtain ⟨j, hj, rfl⟩ := List.mem_map.1 hb
    rw [List.getD_eq_getElem _ _ (h3 j hj)]
    exact hw _ (List.getElem_mem _)
  rw [h5, List.getD_eq_getElem _ _ (by simp [cumsum_length, hlw, hi]), List.getElem_reverse, ← List.getD_eq_getElem _ (0 : K), cumsum_get 0 _ _ (by rw [cumsum_length]; omega), cumsum_length, zero_add]
  rw [hc]
  simp only [List.take_replicate, List.drop_replicate, List.length_replicate, List.sum_replicate]
  congr 1
  omega

theorem hazard_anti : ∀ (s : K) (w : List K), (∀ x ∈ w, 0 ≤ x) → ((cumsum s w).Pairwise (· ≤ ·)) ∧ ∀ x ∈ cumsum s w, s ≤ x ∧ x ≤ s + w.sum
  | s, [], _ => by simp [cumsum]
  | s, a :: w, h => by
    obtain ⟨h1, h2⟩ := hazard_anti (s + a) w fun x hx => h x (by simp [hx])
    have ha := h a (by simp)
    have hs : 0 ≤ w.sum := List.sum_nonneg fun x hx => h x (by simp [hx])
    refine ⟨List.pairwise_cons.2 ⟨fun x hx => (h2 x hx).1, h1⟩, fun x hx => ?_⟩
    rw [List.sum_cons]
    rcases List.mem_cons.1 hx with rfl | hx
    · constructor <;> linarith
    · have := h2 x hx
      constructor <;> linarith [this.1, this.2]

theorem pairs_spec : ∀ (last : K) (xs ps : List K), xs.length = ps.length → (pairs last xs ps).1.length = 2 * xs.length ∧ (pairs last xs ps).2.length = 2 * xs.length ∧
    (∀ x ∈ (pairs last xs ps).1, x ∈ xs) ∧ (∀ x ∈ (pairs last xs ps).2, x = last ∨ x ∈ ps) ∧ (xs.Pairwise (· ≤ ·) → (pairs last xs ps).1.Pairwise (· ≤ ·)) ∧
    ((last :: ps).Pairwise (· ≥ ·) → (pairs last xs ps).2.Pairwise (· ≥ ·))
  | last, [], [], _ => by simp [pairs]
  | last, x :: xs, p :: ps, h => by
    obtain ⟨h1, h2, h3, h4, h5, h6⟩ := pairs_spec p xs ps (by simpa using h)
    simp only [pairs]
    refine ⟨by simp [h1]; ring, by simp [h2]; ring, ?_, ?_, fun hp => ?_, fun hp => ?_⟩
    · intro y hy
      simp only [List.mem_cons] at hy ⊢
      rcases hy with rfl | rfl | hy
      · exact .inl rfl
      · exact .inl rfl
      · exact .inr (h3 y hy)
    · intro y hy
      simp only [List.mem_cons] at hy ⊢
      rcases hy with rfl | rfl | hy
      · exact .inl rfl
      · exact .inr (.inl rfl)
      · exact .inr (h4 y hy)
    · obtain ⟨a, b⟩ := List.pairwise_cons.1 hp
      refine List.pairwise_cons.2 ⟨fun y hy => ?_, List.pairwise_cons.2 ⟨fun y hy => a y (h3 y hy), h5 b⟩⟩
      rcases List.mem_cons.1 hy with rfl | hy
      · exact le_rfl
      · exact a y (h3 y hy)
    · obtain ⟨a, b⟩ := List.pairwise_cons.1 hp
      obtain ⟨c, d⟩ := List.pairwise_cons.1 b
      refine List.pairwise_cons.2 ⟨fun y hy => ?_, List.pairwise_cons.2 ⟨fun y hy => ?_, h6 b⟩⟩
      · rcases List.mem_cons.1 hy with rfl | hy
        · exact a y (by simp)
        · rcases h4 y hy with rfl | hy
          · exact a y (by simp)
          · exact a y (by simp [hy])
      · rcases h4 y hy with rfl | hy
        · exact le_rfl
        · exact c y hy

/-- C93.  With weights that are not negative and have the sum one (as many as there are values), and no errors, `haz_pts` returns a curve from 1 down to 0 with two points for each value: the abscissae do not decrease, from
the start to the end of the range, and the ordinates do not increase. -/
theorem C93_curve {f : List K → List ℕ} (hf : IsArgsort f) {vals weights : List K} {p : Pop K} (h : init f true vals weights .none = .ok p) (hlen : weights.length = vals.length) (hne : vals ≠ []) (hw : ∀ x ∈ weights, 0 ≤ x)
    (h1 : weights.sum = 1) {start stop : Option K} (hs : ∀ s ∈ start, ∀ x ∈ vals, s ≤ x) (he : ∀ s ∈ stop, ∀ x ∈ vals, x ≤ s) :
    ∃ r, hazPts p start stop = .ok r ∧ r.bars = none ∧ r.absc.length = 2 * vals.length + 2 ∧ r.ord.length = 2 * vals.length + 2 ∧ r.absc.Pairwise (· ≤ ·) ∧ r.ord.Pairwise (· ≥ ·) ∧
      r.ord.head? = some 1 ∧ r.ord.getLast? = some 0 ∧ (∀ s ∈ start, r.absc.head? = some s) ∧ ∀ s ∈ stop, r.absc.getLast? = some s := by
  obtain ⟨i1, i2, i3, -, i5, i6⟩ := init_spec h
  obtain ⟨s1, s2⟩ := hf vals
  have hmem : ∀ x ∈ p.vals, x ∈ vals := by
    intro x hx
    rw [i1] at hx
    obtain ⟨j, hj, rfl⟩ := List.mem_map.1 hx
    have hj' : j < vals.length := List.mem_range.1 (s1.mem_iff.1 hj)
    rw [List.getD_eq_getElem _ _ hj']
    exact List.getElem_mem _
  have hlv : p.vals.length = vals.length := by rw [i1]; simp [s1.length_eq]
  have hlw : p.weights.length = vals.length := by rw [i2]; simp [s1.length_eq]
  have hpw : p.weights.Perm weights := by
    rw [i2]
    refine (s1.map _).trans (List.Perm.of_eq (List.ext_getElem (by simp [hlen]) fun i a b => ?_))
    rw [List.getElem_map, List.getElem_range, List.getD_eq_getElem _ _ b]
  have hsort : p.vals.Pairwise (· ≤ ·) := by rw [i1]; exact s2
  obtain ⟨c1, c2⟩ := hazard_anti 0 p.weights fun x hx => hw x (hpw.mem_iff.1 hx)
  have hhz : p.hazard.Pairwise (· ≥ ·) := by rw [i5, List.pairwise_reverse]; exact c1
  have hh1 : ∀ x ∈ p.hazard, 0 ≤ x ∧ x ≤ 1 := by
    intro x hx
    rw [i5, List.mem_reverse] at hx
    have := c2 x hx
    rwa [zero_add, hpw.sum_eq, h1] at this
  have hlh : p.vals.length = p.hazard.length := by rw [i5]; simp [cumsum_length, hlw, hlv]
  obtain ⟨q1, q2, q3, q4, q5, q6⟩ := pairs_spec 1 p.vals p.hazard hlh
  have herr : p.err = .none := by
    simp only [initErr, Errs.isNone, Except.ok.injEq] at i6
    exact i6.symm
  have hpne : p.vals ≠ [] := by
    intro h0
    rw [h0] at hlv
    exact hne (List.length_eq_zero_iff.1 hlv.symm)
  obtain ⟨a, l, hal⟩ := List.exists_cons_of_ne_nil hpne
  have hhead : p.vals.head? = some a := by rw [hal]; rfl
  have hlast : p.vals.getLast? = some (p.vals.getLast hpne) := List.getLast?_eq_some_getLast hpne
  have ha : ∀ x ∈ p.vals, a ≤ x := by
    intro x hx
    rw [hal] at hx hsort
    rcases List.mem_cons.1 hx with rfl | hx
    · exact le_rfl
    · exact (List.pairwise_cons.1 hsort).1 x hx
  have hz : ∀ x ∈ p.vals, x ≤ p.vals.getLast hpne := by
    intro x hx
    have hd := List.dropLast_append_getLast hpne
    rw [← hd] at hx hsort
    rcases List.mem_append.1 hx with hx | hx
    · exact (List.pairwise_append.1 hsort).2.2 x hx _ (by simp)
    · simp only [List.mem_singleton] at hx; rw [hx]
  have hst : start.getD a ≤ a := by
    cases start with
    | none => exact le_rfl
    | some s => exact hs s rfl a (hmem a (by rw [hal]; simp))
  have hen : p.vals.getLast hpne ≤ stop.getD (p.vals.getLast hpne) := by
    cases stop with
    | none => exact le_rfl
    | some s => exact he s rfl _ (hmem _ (List.getLast_mem hpne))
  refine ⟨⟨start.getD a :: (pairs 1 p.vals p.hazard).1 ++ [stop.getD (p.vals.getLast hpne)], 1 :: (pairs 1 p.vals p.hazard).2 ++ [0], none⟩, ?_, rfl, by simp [q1, hlv], by simp [q2, hlv], ?_, ?_, by simp, List.getLast?_concat .., ?_, ?_⟩
  · unfold hazPts
    rw [hhead, hlast]
    simp only
    rw [if_neg (by rw [not_or, not_lt, not_lt]; exact ⟨hst, hen⟩), herr]
    rfl
  · rw [List.cons_append, List.pairwise_cons, List.pairwise_append]
    refine ⟨fun x hx => ?_, q5 hsort, by simp, fun x hx y hy => ?_⟩
    · rcases List.mem_append.1 hx with hx | hx
      · exact hst.trans (ha x (q3 x hx))
      · simp only [List.mem_singleton] at hx
        rw [hx]
        exact hst.trans ((ha _ (List.getLast_mem hpne)).trans hen)
    · simp only [List.mem_singleton] at hy
      rw [hy]
      exact (hz x (q3 x hx)).trans hen
  · show (1 :: (pairs 1 p.vals p.hazard).2 ++ [0]).Pairwise (· ≥ ·)
    rw [List.cons_append, List.pairwise_cons, List.pairwise_append]
    refine ⟨fun x hx => ?_, q6 (List.pairwise_cons.2 ⟨fun x hx => (hh1 x hx).2, hhz⟩), by simp, fun x hx y hy => ?_⟩
    · rcases List.mem_append.1 hx with hx | hx
      · rcases q4 x hx with rfl | hx
        · exact le_rfl
        · exact (hh1 x hx).2
      · simp only [List.mem_singleton] at hx
        rw [hx]; exact zero_le_one
    · simp only [List.mem_singleton] at hy
      rw [hy]
      rcases q4 x hx with rfl | hx
      · exact zero_le_one
      · exact (hh1 x hx).1
  · intro s hs'
    cases hs'
    simp
  · intro s hs'
    cases hs'
    exact List.getLast?_concat ..

/-- C93.  A range that does not contain all values is refused. -/
theorem C93_range {f : List K → List ℕ} (hf : IsArgsort f) {vals weights : List K} {err : Errs K} {p : Pop K} (h : init f true vals weights err = .ok p) {start stop : Option K}
    (hr : (∃ s ∈ start, ∃ x ∈ vals, x < s) ∨ ∃ s ∈ stop, ∃ x ∈ vals, s < x) : hazPts p start stop = .error .value := by
  obtain ⟨i1, -⟩ := init_spec h
  obtain ⟨s1, s2⟩ := hf vals
  have hmem : ∀ x ∈ vals, x ∈ p.vals := by
    intro x hx
    obtain ⟨j, hj, rfl⟩ := List.mem_iff_getElem.1 hx
    rw [i1]
    exact List.mem_map.2 ⟨j, s1.mem_iff.2 (List.mem_range.2 hj), List.getD_eq_getElem _ _ hj⟩
  have hsort : p.vals.Pairwise (· ≤ ·) := by rw [i1]; exact s2
  have hpne : p.vals ≠ [] := by
    rcases hr with ⟨_, _, x, hx, _⟩ | ⟨_, _, x, hx, _⟩ <;> exact List.ne_nil_of_mem (hmem x hx)
  obtain ⟨a, l, hal⟩ := List.exists_cons_of_ne_nil hpne
  have hhead : p.vals.head? = some a := by rw [hal]; rfl
  have hlast : p.vals.getLast? = some (p.vals.getLast hpne) := List.getLast?_eq_some_getLast hpne
  have ha : ∀ x ∈ p.vals, a ≤ x := by
    intro x hx
    rw [hal] at hx hsort
    rcases List.mem_cons.1 hx with rfl | hx
    · exact le_rfl
    · exact (List.pairwise_cons.1 hsort).1 x hx
  have hz : ∀ x ∈ p.vals, x ≤ p.vals.getLast hpne := by
    intro x hx
    have hd := List.dropLast_append_getLast hpne
    rw [← hd] at hx hsort
    rcases List.mem_append.1 hx with hx | hx
    · exact (List.pairwise_append.1 hsort).2.2 x hx _ (by simp)
    · simp only [List.mem_singleton] at hx; rw [hx]
  unfold hazPts
  rw [hhead, hlast]
  simp only
  rw [if_pos]
  rcases hr with ⟨s, hs, x, hx, hlt⟩ | ⟨s, hs, x, hx, hlt⟩
  · left
    cases hs
    exact lt_of_le_of_lt (ha x (hmem x hx)) hlt
  · right
    cases hs
    exact lt_of_lt_of_le hlt (hz x (hmem x hx))

/-- C93.  The error bars that the constructor accepts make `haz_pts` raise, for two or more values. -/
theorem C93_errors_violated {f : List K → List ℕ} (hf : IsArgsort f) {vals weights errs : List K} {p : Pop K} (h : init f true vals weights (.list errs) = .ok p) (h2 : 2 ≤ vals.length) (start stop : Option K) :
    hazPts p start stop = .error .value := by
  obtain ⟨i1, -, -, -, -, i6⟩ := init_spec h
  obtain ⟨s1, -⟩ := hf vals
  have : ∃ l, p.err = .arr l ∧ 2 ≤ l.length := by
    simp only [initErr, Errs.isNone] at i6
    cases ht : take errs (f vals) with
    | error e => rw [ht] at i6; cases i6
    | ok l =>
      rw [ht] at i6
      simp only [Except.map, Except.ok.injEq] at i6
      refine ⟨l, i6.symm, ?_⟩
      rw [(take_spec ht).1, List.length_map, s1.length_eq, List.length_range]
      exact h2
  obtain ⟨l, hl, hl2⟩ := this
  have hpne : p.vals ≠ [] := by
    intro h0
    have := congrArg List.length i1
    rw [h0] at this
    simp [s1.length_eq] at this
    omega
  obtain ⟨a, l', hal⟩ := List.exists_cons_of_ne_nil hpne
  have hhead : p.vals.head? = some a := by rw [hal]; rfl
  have hlast : p.vals.getLast? = some (p.vals.getLast hpne) := List.getLast?_eq_some_getLast hpne
  unfold hazPts
  rw [hhead, hlast]
  simp only
  split_ifs
  · rfl
  · rw [hl]
    simp only [Errs.isNone, if_pos hl2]

/-! ## Examples and violations -/

/-- A sort that keeps the order of equal values. -/
def argsort (v : List ℚ) : List ℕ := (List.range v.length).insertionSort fun i j => v.getD i 0 ≤ v.getD j 0

theorem argsort_is : IsArgsort argsort := by
  intro v
  have ht : Std.Total fun i j : ℕ => v.getD i 0 ≤ v.getD j 0 := ⟨fun i j => le_total _ _⟩
  have htr : IsTrans ℕ fun i j : ℕ => v.getD i 0 ≤ v.getD j 0 := ⟨fun i j k => le_trans⟩
  exact ⟨List.perm_insertionSort _ _, by rw [List.pairwise_map]; exact List.pairwise_insertionSort _ _⟩

/-- C93.  Weights 1/4 and 3/4 for the values 1 and 2: the hazard at 2 is 1/4, but the weight at and above 2 is 3/4.  With weights that do not have the sum one the curve goes up. -/
theorem C93_violated : (init argsort true [1, 2] [1 / 4, 3 / 4] .none).map (fun p => (p.vals, p.hazard)) = .ok ([1, 2], [1, 1 / 4]) ∧ above [1, 2] [1 / 4, 3 / 4] (2 : ℚ) = 3 / 4 ∧
    ((init argsort true [1, 2] [1, 1] .none).bind fun p => (hazPts p none none).map (·.ord)) = .ok [1, 1, 2, 2, 1, 0] := by
  decide +kernel

example : (init argsort true [3, 1, 2] [1 / 3, 1 / 3, 1 / 3] .none).map (fun p => (p.vals, p.hazard)) = .ok ([1, 2, 3], [1, 2 / 3, 1 / 3]) ∧ [3, 1, (2 : ℚ)].Nodup ∧
    ((init argsort true [3, 1, 2] [1 / 3, 1 / 3, 1 / 3] .none).bind fun p => (hazPts p (some 0) (some 4)).map fun r => (r.absc, r.ord)) = .ok ([0, 1, 1, 2, 2, 3, 3, 4], [1, 1, 1, 1, 2 / 3, 2 / 3, 1 / 3, 0]) ∧
    ((init argsort true [3, 1, 2] [1 / 3, 1 / 3, 1 / 3] (.list [1, 1, 1])).bind fun p => (hazPts p (some 0) (some 4)).map fun r => r.ord) = .error .value ∧
    ((init argsort true [3, 1, 2] [1 / 3, 1 / 3, 1 / 3] .none).bind fun p => (hazPts p (some 2) (some 4)).map fun r => r.ord) = .error .value := by
  decide +kernel

end Verif.Pop1D
