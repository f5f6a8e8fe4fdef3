import Verif.Km.StepLemmas

/-!
# C132-C138: the Kaplan-Meier estimator
-/

set_option linter.unusedSectionVars false

namespace Verif.Km

open Verif

variable {K : Type*} [Field K] [LinearOrder K] [IsStrictOrderedRing K]

/-- A way to show what a construction comes to by computing it. -/
theorem madeWitness {P : KM ℚ → Prop} [DecidablePred P] (m : Made ℚ)
    (h : (match m with | .obj o => decide (P o) | _ => false) = true) : ∃ o, m = .obj o ∧ P o := by
  cases m with
  | obj o => exact ⟨o, rfl, by simpa using h⟩
  | err e => simp at h
  | undef => simp at h

/-- The detections in data with indicators. -/
abbrev detsOf (ind : List ℤ) (x : List K) : List K := picked ind x fun i => decide (i = 0)

/-- The limits in data with indicators. -/
abbrev limsOf (ind : List ℤ) (x : List K) : List K := picked ind x fun i => decide (i ≠ 0)

theorem made_lower (ind : List ℤ) (x : List K) (hlen : ind.length = x.length) (hi : ∀ i ∈ ind, 0 ≤ i)
    (hd : detsOf ind x ≠ [])
    (htop : ∀ m ∈ limsOf ind x, (∀ y ∈ limsOf ind x, y ≤ m) →
      (∃ y ∈ detsOf ind x, m < y) ∨ ((∀ y ∈ detsOf ind x, y < m) ∧ (limsOf ind x).count m = 1))
    (h0 : detsOf ind x ≠ [0] ∨ x.length ≤ 1) :
    ∃ mean, kmInit none none none (some x) (some ind) = .obj
        ⟨x.length, ((dedupe (go (sorted (limsOf ind x)) 1 0 (sorted (detsOf ind x)))).map Row.s),
          ((dedupe (go (sorted (limsOf ind x)) 1 0 (sorted (detsOf ind x)))).map Row.v), mean,
          ((dedupe (go (sorted (limsOf ind x)) 1 0 (sorted (detsOf ind x)))).map Row.z), sorted (limsOf ind x),
          kmWts ((dedupe (go (sorted (limsOf ind x)) 1 0 (sorted (detsOf ind x)))).map Row.s),
          cumsum 0 (kmWts ((dedupe (go (sorted (limsOf ind x)) 1 0 (sorted (detsOf ind x)))).map Row.s))⟩ ∧
      kmCore 1 x.length (detsOf ind x) (limsOf ind x) =
        .out ⟨dedupe (go (sorted (limsOf ind x)) 1 0 (sorted (detsOf ind x))), mean, sorted (limsOf ind x)⟩ := by
  obtain ⟨mean, hm⟩ := kmCore_lower x.length _ _ hd htop h0
  refine ⟨mean, ?_, hm⟩
  have hest : kmestm ind x = .out ⟨dedupe (go (sorted (limsOf ind x)) 1 0 (sorted (detsOf ind x))), mean, sorted (limsOf ind x)⟩ := by
    rw [kmestm, xmixed_nonneg ind hi, if_neg (by simp), xdets_eq, xlims_eq, show xsign ind = 1 from xsign_nonneg ind hi]
    have hid : ∀ l : List K, l.map (fun v => ((1 : ℤ) : K) * v) = l := fun l => by simp
    rw [hid, hid]
    exact hm
  have hne : dedupe (go (sorted (limsOf ind x)) 1 0 (sorted (detsOf ind x))) ≠ [] := by
    apply dedupe_ne_nil
    intro h
    have := go_z (sorted (limsOf ind x)) (sorted (detsOf ind x)) 1 0
    rw [h] at this
    exact sorted_map_neg_ne _ hd this.symm
  simp only [kmInit, Option.any_none, Bool.or_false, Bool.false_eq_true, if_false, hlen, ne_eq, not_true_eq_false, kmFinish, hest,
    if_neg hne]

/-- **C132.** For detections and lower limits (indicators `0` and `+1`), `uncens` are the distinct detected values in ascending order,
`km_cdf` is the product-limit estimate at each, `cdf_err` squared is Greenwood's variance and `cens` are the limits in ascending order,
provided the largest limit is below the largest detection, or is the only largest datum.

Partial: missing are `ulims` and indicators read as documented, `llims`, and ties at the top; see the `violated` theorems. -/
theorem C132_estimate_partial (ind : List ℤ) (x : List K) (hlen : ind.length = x.length) (hi : ∀ i ∈ ind, 0 ≤ i)
    (hd : detsOf ind x ≠ [])
    (htop : ∀ m ∈ limsOf ind x, (∀ y ∈ limsOf ind x, y ≤ m) →
      (∃ y ∈ detsOf ind x, m < y) ∨ ((∀ y ∈ detsOf ind x, y < m) ∧ (limsOf ind x).count m = 1))
    (h0 : detsOf ind x ≠ [0] ∨ x.length ≤ 1) :
    ∃ o, kmInit none none none (some x) (some ind) = .obj o ∧
      o.uncens.Pairwise (· < ·) ∧ (∀ v, v ∈ o.uncens ↔ v ∈ detsOf ind x) ∧
      o.kmCdf = o.uncens.map (prodLimit (detsOf ind x) (limsOf ind x)) ∧
      o.errSq = o.uncens.map (greenwood (detsOf ind x) (limsOf ind x)) ∧
      o.cens.Perm (limsOf ind x) ∧ o.cens.Pairwise (· ≤ ·) := by
  obtain ⟨mean, h, _⟩ := made_lower ind x hlen hi hd htop h0
  obtain ⟨h1, h2, h3⟩ := rows_lower (detsOf ind x) (limsOf ind x)
  refine ⟨_, h, h1, h2, ?_, ?_, sorted_perm _, sorted_pairwise _⟩
  · simp only [List.map_map]
    exact List.map_congr_left fun r hr => (h3 r hr).1
  · simp only [List.map_map]
    exact List.map_congr_left fun r hr => (h3 r hr).2

example : ∀ m ∈ limsOf [0, 1, 0, 0, 1] [(3 : ℚ), 2, 1, 3, 5], (∀ y ∈ limsOf [0, 1, 0, 0, 1] [(3 : ℚ), 2, 1, 3, 5], y ≤ m) →
    (∃ y ∈ detsOf [0, 1, 0, 0, 1] [(3 : ℚ), 2, 1, 3, 5], m < y) ∨
      ((∀ y ∈ detsOf [0, 1, 0, 0, 1] [(3 : ℚ), 2, 1, 3, 5], y < m) ∧ (limsOf [0, 1, 0, 0, 1] [(3 : ℚ), 2, 1, 3, 5]).count m = 1) := by
  decide +kernel

/-- Detections and `ulims` are the same as data with indicators `0` and `+1`. -/
theorem ulims_ind (d c : List K) : kmInit (some d) (some c) none none none =
    kmInit none none none (some (d ++ c)) (some (List.replicate d.length 0 ++ List.replicate c.length 1)) := by
  simp [kmInit]

/-- **C132, violated.** Upper limits given as such are analysed as lower limits: for detections 1 and 3 and the upper limit 2 the estimated
probability of values above 1 should be 1/3 and is 2/3. -/
theorem C132_violated_upper :
    (∃ o, kmInit (some [(1 : ℚ), 3]) (some [2]) none none none = .obj o ∧ o.uncens = [1, 3] ∧ o.kmCdf = [2 / 3, 0]) ∧
      prodLimitUp [(1 : ℚ), 3] [2] 1 = 1 / 3 ∧ prodLimit [(1 : ℚ), 3] [2] 1 = 2 / 3 := by
  refine ⟨madeWitness _ ?_, ?_, ?_⟩ <;> decide +kernel

/-- **C132, violated.** Lower limits given as such are never analysed: the constructor raises `NameError`. -/
theorem C132_violated_llims (d c : List K) : kmInit (some d) none (some c) none none = .err .name := by
  simp [kmInit]

/-- **C132, violated.** Where two limits tie above all detections, or a limit ties with the largest detection, a detection is lost. -/
theorem C132_violated_tied :
    (∃ o, kmInit none none none (some [(1 : ℚ), 2, 3, 3]) (some [0, 0, 1, 1]) = .obj o ∧ o.uncens = [1]) ∧
      (∃ o, kmInit none none none (some [(1 : ℚ), 2, 2]) (some [0, 0, 1]) = .obj o ∧ o.uncens = [1]) := by
  refine ⟨madeWitness _ ?_, madeWitness _ ?_⟩ <;> decide +kernel

/-- **C132, violated.** A single detection of zero is lost, and construction fails. -/
theorem C132_violated_zero : (kmInit none none none (some [(0 : ℚ), -1]) (some [0, 1])) = .err .index := by
  decide +kernel

/-- **C133.** For detections and upper limits (indicators `0` and `-1`), `uncens` are the distinct detected values in ascending order,
`km_cdf` is the product-limit estimate for upper limits at each, `cdf_err` squared Greenwood's variance and `cens` are the limits in
ascending order, provided the smallest datum is a detection, below every limit.

Partial: missing is the indicators' documented meaning, and a limit at the bottom; see the `violated` theorem. -/
theorem C133_estimate_partial (ind : List ℤ) (x : List K) (hlen : ind.length = x.length) (hi : ∀ i ∈ ind, i ≤ 0) (hex : ∃ i ∈ ind, i ≠ 0)
    (hd : detsOf ind x ≠ []) (hlim : ∀ m ∈ limsOf ind x, ∃ y ∈ detsOf ind x, y < m) (h0 : detsOf ind x ≠ [0]) :
    ∃ o, kmInit none none none (some x) (some ind) = .obj o ∧
      o.uncens.Pairwise (· < ·) ∧ (∀ v, v ∈ o.uncens ↔ v ∈ detsOf ind x) ∧
      o.kmCdf = o.uncens.map (prodLimitUp (detsOf ind x) (limsOf ind x)) ∧
      o.errSq = o.uncens.map (greenwoodUp (detsOf ind x) (limsOf ind x)) ∧
      o.cens.Perm (limsOf ind x) ∧ o.cens.Pairwise (· ≤ ·) := by
  set d := detsOf ind x with hdd
  set c := limsOf ind x with hcc
  have hd' : d.map (fun v => -v) ≠ [] := by simpa using hd
  have hl' : ∀ m ∈ c.map (fun v => -v), ∃ y ∈ d.map (fun v => -v), m < y := by
    intro m hm
    obtain ⟨a, ha, rfl⟩ := List.mem_map.mp hm
    obtain ⟨y, hy, hlt⟩ := hlim a ha
    exact ⟨-y, List.mem_map_of_mem hy, by linarith⟩
  have h0' : d.map (fun v => -v) ≠ [0] := by
    intro h
    apply h0
    obtain ⟨y, hy, hy0⟩ := List.map_eq_singleton_iff.mp h
    rw [hy, neg_eq_zero.mp hy0]
  obtain ⟨mean, hm⟩ := kmCore_upper x.length _ _ hd' hl' (Or.inl h0')
  set rows := (dedupe (goShift (sorted (c.map fun v => -v)) 1 0 (sorted (d.map fun v => -v))).reverse) with hrows
  have hneg : (fun v : K => ((-1 : ℤ) : K) * v) = fun v => -v := by ext v; simp
  have hest : kmestm ind x = .out ⟨rows.map flip, mean, (sorted (c.map fun v => -v)).reverse.map fun z => -z⟩ := by
    rw [kmestm, xmixed_nonpos ind hi hex, if_neg (by simp), xdets_eq, xlims_eq, show xsign ind = -1 from xsign_nonpos ind hi hex, hneg]
    exact hm
  obtain ⟨h1, h2, h3⟩ := rows_upper (d.map fun v => -v) (c.map fun v => -v)
  rw [← hrows] at h1 h2 h3
  have hne : rows.map flip ≠ [] := by
    intro h
    have h4 : rows = [] := List.map_eq_nil_iff.mp h
    obtain ⟨y, hy⟩ := List.exists_mem_of_ne_nil _ hd'
    rw [← h2 y, h4] at hy
    simp at hy
  have hu : (rows.map flip).map Row.z = (rows.map Row.z).map (fun z => -z) := by
    rw [List.map_map, List.map_map]; rfl
  refine ⟨⟨x.length, (rows.map flip).map Row.s, (rows.map flip).map Row.v, mean, (rows.map flip).map Row.z,
    (sorted (c.map fun v => -v)).reverse.map fun z => -z, kmWts ((rows.map flip).map Row.s),
    cumsum 0 (kmWts ((rows.map flip).map Row.s))⟩, ?_, ?_, ?_, ?_, ?_, ?_, ?_⟩
  · simp only [kmInit, Option.any_none, Bool.or_false, Bool.false_eq_true, if_false, hlen, ne_eq, not_true_eq_false, kmFinish, hest,
      if_neg hne]
  · simp only [hu]
    rw [List.pairwise_map]
    exact h1.imp fun h => by linarith
  · intro v
    simp only [hu, List.mem_map]
    constructor
    · rintro ⟨z, ⟨r, hr, rfl⟩, rfl⟩
      have := (h2 r.z).mp (List.mem_map_of_mem hr)
      obtain ⟨y, hy, hyz⟩ := List.mem_map.mp this
      rw [← hyz, neg_neg]; exact hy
    · intro hv
      have := (h2 (-v)).mpr (List.mem_map_of_mem hv)
      obtain ⟨r, hr, hz⟩ := List.mem_map.mp this
      exact ⟨r.z, ⟨r, hr, rfl⟩, by rw [hz, neg_neg]⟩
  · simp only [List.map_map]
    apply List.map_congr_left
    intro r hr
    simp only [Function.comp, flip]
    rw [(h3 r hr).1]
    have := before_neg d c (-r.z)
    rw [neg_neg] at this
    rw [this]; ring
  · simp only [List.map_map]
    apply List.map_congr_left
    intro r hr
    simp only [Function.comp, flip]
    rw [(h3 r hr).2]
    have := gw_neg d c (-r.z)
    rwa [neg_neg] at this
  · have hp := (List.reverse_perm (sorted (c.map fun v => -v))).trans (sorted_perm _)
    have := hp.map (fun z => -z)
    simpa [List.map_map] using this
  · rw [List.pairwise_map, List.pairwise_reverse]
    exact (sorted_pairwise (c.map fun v => -v)).imp fun h => by linarith

example : ∀ m ∈ limsOf [0, -1, 0, 0, -1] [(3 : ℚ), 2, 1, 3, 5], ∃ y ∈ detsOf [0, -1, 0, 0, -1] [(3 : ℚ), 2, 1, 3, 5], y < m := by
  decide +kernel

/-- **C133, violated.** Where the smallest datum is an upper limit, it is reported as a detection, the largest detection is lost, and the limit
is listed with the wrong sign: detections 2 and 3 with the upper limit 1. -/
theorem C133_violated_bottom :
    ∃ o, kmInit none none none (some [(2 : ℚ), 3, 1]) (some [0, 0, -1]) = .obj o ∧ o.uncens = [1, 2] ∧ o.cens = [-1] := by
  refine madeWitness _ ?_
  decide +kernel

/-- **C133, violated.** The indicators are documented the other way round, `1` for an upper limit and `-1` for a lower limit; data entered so
are analysed with the limits pointing the wrong way. -/
theorem C133_violated_indicator :
    (∃ o, kmInit none none none (some [(1 : ℚ), 3, 2]) (some [0, 0, -1]) = .obj o ∧ o.kmCdf = [1 / 3, 0]) ∧
      prodLimit [(1 : ℚ), 3] [2] 1 = 2 / 3 := by
  refine ⟨madeWitness _ ?_, ?_⟩ <;> decide +kernel

theorem obj_core (ind : List ℤ) (x : List K) (o : KM K) (h : kmInit none none none (some x) (some ind) = .obj o) :
    xmixed ind = false ∧ ∃ q, kmCore (xsign ind) x.length (xdets (xsign ind) ind x) (xlims (xsign ind) ind x) = .out q ∧ o.mean = q.mean := by
  simp only [kmInit, Option.any_none, Bool.or_false, Bool.false_eq_true, if_false] at h
  split at h
  · simp at h
  · unfold kmFinish kmestm at h
    by_cases hm : xmixed ind = true
    · simp [hm] at h
    · refine ⟨by simpa using hm, ?_⟩
      rw [if_neg hm] at h
      split at h
      · simp at h
      · simp at h
      · next q hq =>
        refine ⟨q, hq, ?_⟩
        split at h
        · simp at h
        · simp only [Made.obj.injEq] at h
          rw [← h]

/-- **C134.** Where the largest datum is a detection above every lower limit, `mean` is the mean of the estimated distribution: each detected
value times the drop of the estimate there. -/
theorem C134_mean_lower (ind : List ℤ) (x : List K) (hi : ∀ i ∈ ind, 0 ≤ i) (hd : detsOf ind x ≠ [])
    (hlim : ∀ m ∈ limsOf ind x, ∃ y ∈ detsOf ind x, m < y) (o : KM K) (h : kmInit none none none (some x) (some ind) = .obj o) :
    o.mean = ∑ v ∈ (detsOf ind x).toFinset,
      v * (prodLimitLeft (detsOf ind x) (limsOf ind x) v - prodLimit (detsOf ind x) (limsOf ind x) v) := by
  obtain ⟨_, q, hq, hm⟩ := obj_core ind x o h
  rw [xdets_eq, xlims_eq, show xsign ind = 1 from xsign_nonneg ind hi] at hq
  have hid : ∀ l : List K, l.map (fun v => ((1 : ℤ) : K) * v) = l := fun l => by simp
  rw [hid, hid] at hq
  rw [hm, kmCore_mean x.length _ _ hd hlim 1 q hq]
  simp

example : ∃ o, kmInit none none none (some [(3 : ℚ), 2, 1, 3]) (some [0, 1, 0, 0]) = .obj o ∧ o.mean = 5 / 2 := by
  refine madeWitness _ ?_
  decide +kernel

/-- **C134.** Where the smallest datum is a detection below every upper limit, `mean` is the mean of the estimated distribution. -/
theorem C134_mean_upper (ind : List ℤ) (x : List K) (hi : ∀ i ∈ ind, i ≤ 0) (hex : ∃ i ∈ ind, i ≠ 0) (hd : detsOf ind x ≠ [])
    (hlim : ∀ m ∈ limsOf ind x, ∃ y ∈ detsOf ind x, y < m) (o : KM K) (h : kmInit none none none (some x) (some ind) = .obj o) :
    o.mean = ∑ v ∈ (detsOf ind x).toFinset,
      v * (prodLimitUpLeft (detsOf ind x) (limsOf ind x) v - prodLimitUp (detsOf ind x) (limsOf ind x) v) := by
  obtain ⟨_, q, hq, hm⟩ := obj_core ind x o h
  have hneg : (fun v : K => ((-1 : ℤ) : K) * v) = fun v => -v := by ext v; simp
  rw [xdets_eq, xlims_eq, show xsign ind = -1 from xsign_nonpos ind hi hex, hneg] at hq
  have hd' : (detsOf ind x).map (fun v => -v) ≠ [] := by simpa using hd
  have hl' : ∀ m ∈ (limsOf ind x).map (fun v => -v), ∃ y ∈ (detsOf ind x).map (fun v => -v), m < y := by
    intro m hm
    obtain ⟨a, ha, rfl⟩ := List.mem_map.mp hm
    obtain ⟨y, hy, hlt⟩ := hlim a ha
    exact ⟨-y, List.mem_map_of_mem hy, by linarith⟩
  rw [hm, kmCore_mean x.length _ _ hd' hl' (-1) q hq]
  have hset : ((detsOf ind x).map (fun v => -v)).toFinset = (detsOf ind x).toFinset.map ⟨fun v => -v, neg_injective⟩ := by
    ext y; simp
  rw [hset, Finset.sum_map, Finset.mul_sum]
  apply Finset.sum_congr rfl
  intro v _
  simp only [Function.Embedding.coeFn_mk, before_neg, after_neg]
  push_cast; ring

example : ∃ o, kmInit none none none (some [(3 : ℚ), 2, 1, 3]) (some [0, -1, 0, 0]) = .obj o ∧ o.mean = 2 := by
  refine madeWitness _ ?_
  decide +kernel

end Verif.Km
