import Verif.Km.KmProps

/-!
# C135-C138: weights, binned distribution, quartiles and points of the Kaplan-Meier estimate
-/

set_option linter.unusedSectionVars false

namespace Verif.Km

open Verif

variable {K : Type*} [Field K] [LinearOrder K] [IsStrictOrderedRing K]

theorem kmWts_sum : ∀ (l : List K), (kmWts l).sum = l.headD 0
  | [] => rfl
  | [a] => by simp [kmWts]
  | a :: b :: r => by
    rw [kmWts, List.sum_cons, kmWts_sum (b :: r)]; simp

theorem kmWts_spec (d c : List K) : ∀ (l : List K) (a : K), (a :: l).Pairwise (· < ·) → (∀ x ∈ d, x ∈ a :: l ∨ ∀ b ∈ a :: l, x < b) →
    kmWts ((a :: l).map (prodLimit d c)) =
      l.map (fun v => prodLimitLeft d c v - prodLimit d c v) ++ [prodLimit d c (l.getLastD a)]
  | [], a, _, _ => rfl
  | b :: r, a, hs, hd => by
    rw [List.pairwise_cons] at hs
    have hab : a < b := hs.1 b (by simp)
    have hl : prodLimitLeft d c b = prodLimit d c a := by
      apply left_next d c a b hab
      intro x hx hxb
      rcases hd x hx with h | h
      · rcases List.mem_cons.mp h with rfl | h
        · exact le_rfl
        · exfalso
          rcases List.mem_cons.mp h with rfl | h
          · exact lt_irrefl _ hxb
          · exact absurd hxb (not_lt.mpr ((List.pairwise_cons.mp hs.2).1 x h).le)
      · exact (h a (by simp)).le
    have ih := kmWts_spec d c r b hs.2 (by
      intro x hx
      rcases hd x hx with h | h
      · rcases List.mem_cons.mp h with rfl | h
        · exact Or.inr fun y hy => hs.1 y hy
        · exact Or.inl h
      · exact Or.inr fun y hy => h y (List.mem_cons_of_mem _ hy))
    simp only [List.map_cons] at ih ⊢
    rw [kmWts, ih, hl, List.getLastD_cons]
    rfl

/-- **C135.** The weights a `KM` object gives its uncensored values: each but the last has the drop of the estimate at the *next* value, the last
has what the estimate leaves; they sum to the estimate at the first value.

Partial: a value's weight should be the drop of the estimate there; see `C135_violated_weights`.
Missing: the weights should be the drops at the values themselves. -/
theorem C135_weights_partial (ind : List ℤ) (x : List K) (hlen : ind.length = x.length) (hi : ∀ i ∈ ind, 0 ≤ i)
    (hd : detsOf ind x ≠ [])
    (htop : ∀ m ∈ limsOf ind x, (∀ y ∈ limsOf ind x, y ≤ m) →
      (∃ y ∈ detsOf ind x, m < y) ∨ ((∀ y ∈ detsOf ind x, y < m) ∧ (limsOf ind x).count m = 1))
    (h0 : detsOf ind x ≠ [0] ∨ x.length ≤ 1) :
    ∃ o, kmInit none none none (some x) (some ind) = .obj o ∧
      o.weights = o.uncens.tail.map (fun v => prodLimitLeft (detsOf ind x) (limsOf ind x) v - prodLimit (detsOf ind x) (limsOf ind x) v) ++
        [prodLimit (detsOf ind x) (limsOf ind x) (o.uncens.getLastD 0)] ∧
      o.weights.sum = prodLimit (detsOf ind x) (limsOf ind x) (o.uncens.headD 0) := by
  obtain ⟨mean, h, _⟩ := made_lower ind x hlen hi hd htop h0
  obtain ⟨h1, h2, h3⟩ := rows_lower (detsOf ind x) (limsOf ind x)
  set d := detsOf ind x
  set c := limsOf ind x
  set rows := dedupe (go (sorted c) 1 0 (sorted d))
  have hs : rows.map Row.s = (rows.map Row.z).map (prodLimit d c) := by
    rw [List.map_map]; exact List.map_congr_left fun r hr => (h3 r hr).1
  refine ⟨_, h, ?_, ?_⟩
  · simp only [hs]
    cases hz : rows.map Row.z with
    | nil =>
      exfalso
      obtain ⟨y, hy⟩ := List.exists_mem_of_ne_nil _ hd
      rw [← h2 y, hz] at hy
      simp at hy
    | cons a l =>
      rw [hz] at h1 h2
      rw [kmWts_spec d c l a h1 (fun y hy => Or.inl ((h2 y).mpr hy)), List.getLastD_cons]
      rfl
  · simp only [kmWts_sum, hs]
    cases hz : rows.map Row.z with
    | nil =>
      exfalso
      obtain ⟨y, hy⟩ := List.exists_mem_of_ne_nil _ hd
      rw [← h2 y, hz] at hy
      simp at hy
    | cons a l => rfl

/-- **C135, violated.** For four detections and no limits the values have weights 1/4, 1/4, 1/4 and 0. -/
theorem C135_violated_weights :
    ∃ o, kmInit none none none (some [(1 : ℚ), 2, 3, 4]) (some [0, 0, 0, 0]) = .obj o ∧ o.uncens = [1, 2, 3, 4] ∧
      o.weights = [1 / 4, 1 / 4, 1 / 4, 0] ∧
      (fun v => prodLimitLeft [(1 : ℚ), 2, 3, 4] [] v - prodLimit [(1 : ℚ), 2, 3, 4] [] v) 4 = 1 / 4 := by
  refine madeWitness _ ?_
  decide +kernel

theorem zip_pairwise : ∀ (zu l : List K), zu.Pairwise (· ≤ ·) → (zu.zip l).Pairwise (fun a b => a.1 ≤ b.1)
  | [], _, _ => by simp
  | _ :: _, [], _ => by simp
  | z :: zs, a :: l, h => by
    rw [List.pairwise_cons] at h
    rw [List.zip_cons_cons, List.pairwise_cons]
    exact ⟨fun p hp => h.1 p.1 (List.of_mem_zip hp).1, zip_pairwise zs l h.2⟩

/-- **C136.** For a descending estimate over ascending values, the `i`-th bin of the Fortran routine holds the number of data times the sum of
the drops of the estimate at the values from the bin's lower edge up to, not including, its upper edge.

Partial: the binned distribution of a `KM` object is not made from its estimate, and the routine writes past its array; see the `violated`
theorems.
Missing: what `KM.diff` returns and the bounds of the array. -/
theorem C136_bins_partial (s zu : List K) (ntot : ℕ) (start w : K) (nb : ℕ) (mem : ℕ → K) (hw : 0 < w) (hs : s.Pairwise (· ≥ ·))
    (hz : zu.Pairwise (· ≤ ·)) (i : ℕ) (hi : i < nb) :
    kmdif s zu ntot start w nb mem i =
      (((zu.zip (List.zipWith (fun a b => a - b) (1 :: s) s)).filter fun p =>
        decide (start + w * (i : K) ≤ p.1 ∧ p.1 < start + w * ((i + 1 : ℕ) : K))).map Prod.snd).sum * ntot := by
  have hp : (zu.zip (massOf s)).Pairwise (fun a b => a.1 ≤ b.1) := zip_pairwise zu (massOf s) hz
  have := (fillBins_spec start w hw nb 0 (zu.zip (massOf s)) mem hp).1 i hi
  simp only [Nat.zero_add] at this
  simp only [kmdif, if_pos hi]
  rw [this, massOf_eq s hs]

example : kmdif [3 / 4, 1 / 2, (0 : ℚ)] [1, 2, 3] 4 (1 / 2) 1 3 (fun _ => 7) 2 = 2 := by decide +kernel

/-- **C136, violated.** The element after the array of bins is set to zero, whatever it held. -/
theorem C136_violated_overrun (s zu : List K) (ntot : ℕ) (start w : K) (nb : ℕ) (mem : ℕ → K) (hw : 0 < w) (hz : zu.Pairwise (· ≤ ·)) :
    kmdif s zu ntot start w nb mem nb = 0 := by
  have hp : (zu.zip (massOf s)).Pairwise (fun a b => a.1 ≤ b.1) := zip_pairwise zu (massOf s) hz
  have := (fillBins_spec start w hw nb 0 (zu.zip (massOf s)) mem hp).2.1
  simp only [Nat.zero_add] at this
  simp only [kmdif, lt_irrefl, if_false, this]

/-- **C136, violated.** Four detections, one in each of four bins, are reported as 3, 1, 1 and 0. -/
theorem C136_violated_diff :
    ∃ o, kmInit none none none (some [(1 : ℚ), 2, 3, 4]) (some [0, 0, 0, 0]) = .obj o ∧
      o.diff 4 (1 / 2) 1 (fun _ => 0) = [3, 1, 1, 0] := by
  refine madeWitness _ ?_
  decide +kernel

theorem infix_drop (pts : List (K × K)) (pre : List (K × K)) (a b : K × K) (post : List (K × K)) (h : pts = pre ++ a :: b :: post) :
    [a, b] <:+: pts := ⟨pre, post, by rw [h]; simp⟩

theorem quart_next (pts : List (K × K)) (p0 : K × K) (rest : List (K × K)) (hp : pts = p0 :: rest) (t' : K) (l : ℕ)
    (hl0 : l = 0 ∨ ∃ q qs, pts.drop l = q :: qs ∧ t' < q.2) (hmem : ∃ p ∈ pts, p.2 ≤ t') (hlen : p0.2 = t' → rest ≠ [])
    (hdec : pts.Pairwise (fun a b => b.2 < a.2)) :
    t' ≤ p0.2 → ∃ q qs, pts.drop l = q :: qs ∧ t' ≤ q.2 ∧ ∃ p ∈ qs, p.2 ≤ t' := by
  intro h
  rcases hl0 with rfl | ⟨q, qs, hd, hq⟩
  · refine ⟨p0, rest, by rw [hp]; rfl, h, ?_⟩
    obtain ⟨p, hpm, hpt⟩ := hmem
    rw [hp] at hpm hdec
    rcases List.mem_cons.mp hpm with rfl | hpm
    · have he : p.2 = t' := le_antisymm hpt h
      obtain ⟨r, hr⟩ := List.exists_mem_of_ne_nil _ (hlen he)
      exact ⟨r, hr, ((List.pairwise_cons.mp hdec).1 r hr).le.trans hpt⟩
    · exact ⟨p, hpm, hpt⟩
  · refine ⟨q, qs, hd, hq.le, ?_⟩
    obtain ⟨p, hpm, hpt⟩ := hmem
    have hsplit := List.take_append_drop l pts
    rw [hd] at hsplit
    rw [← hsplit] at hpm hdec
    rcases List.mem_append.mp hpm with hpm | hpm
    · exfalso
      have := (List.pairwise_append.mp hdec).2.2 p hpm q (by simp)
      linarith
    · rcases List.mem_cons.mp hpm with rfl | hpm
      · linarith
      · exact ⟨p, hpm, hpt⟩

/-- **C137.** The quartiles lie on the broken line through the points of the estimate, starting from probability one at zero: at three quarters,
one half and one quarter, provided no piece between two points crosses two of these.

Partial: missing are estimates falling past two quartiles at once; and values below zero; see the `violated` theorems. -/
theorem C137_quartiles_partial (o : KM K) (p0 : K × K) (rest : List (K × K)) (hp : o.uncens.zip o.kmCdf = p0 :: rest) (h4 : 4 ≤ o.uncens.length)
    (hrest : rest ≠ []) (h1 : p0.2 < 1) (hdec : (o.uncens.zip o.kmCdf).Pairwise (fun a b => b.2 < a.2))
    (hmem : ∃ p ∈ o.uncens.zip o.kmCdf, p.2 ≤ 1 / 4)
    (hsep : ∀ a b, [a, b] <:+: o.uncens.zip o.kmCdf → ¬ (b.2 ≤ 1 / 2 ∧ 3 / 4 ≤ a.2) ∧ ¬ (b.2 ≤ 1 / 4 ∧ 1 / 2 ≤ a.2)) :
    ∃ q1 q2 q3, o.quartiles = .ok (q1, q2, q3) ∧ OnCurve (o.uncens.zip o.kmCdf) q1 (3 / 4) ∧ OnCurve (o.uncens.zip o.kmCdf) q2 (1 / 2) ∧
      OnCurve (o.uncens.zip o.kmCdf) q3 (1 / 4) := by
  have hm2 : ∃ p ∈ o.uncens.zip o.kmCdf, p.2 ≤ 1 / 2 := by
    obtain ⟨p, a, b⟩ := hmem; exact ⟨p, a, b.trans (by norm_num)⟩
  have hm3 : ∃ p ∈ o.uncens.zip o.kmCdf, p.2 ≤ 3 / 4 := by
    obtain ⟨p, a, b⟩ := hmem; exact ⟨p, a, b.trans (by norm_num)⟩
  unfold KM.quartiles quart
  rw [if_neg (by omega)]
  simp only
  generalize o.uncens.zip o.kmCdf = pts at *
  obtain ⟨c1, l1⟩ := quart1_spec pts p0 rest hp (3 / 4) 0 h1 (by norm_num) hdec
    (quart_next pts p0 rest hp (3 / 4) 0 (Or.inl rfl) hm3 (fun _ => hrest) hdec)
  have hl1 : (quart1 pts (3 / 4) 0).2 = 0 ∨ ∃ q qs, pts.drop (quart1 pts (3 / 4) 0).2 = q :: qs ∧ 1 / 2 < q.2 := by
    rcases l1 with ⟨h, _⟩ | ⟨a, b, post, pre, h, _, h3, h5⟩
    · exact Or.inl h
    · right
      refine ⟨b, post, h5, ?_⟩
      by_contra hc
      exact (hsep a b (infix_drop pts pre a b post h)).1 ⟨not_lt.mp hc, h3⟩
  obtain ⟨c2, l2⟩ := quart1_spec pts p0 rest hp (1 / 2) (quart1 pts (3 / 4) 0).2 h1 (by norm_num) hdec
    (quart_next pts p0 rest hp (1 / 2) _ hl1 hm2 (fun _ => hrest) hdec)
  have hl2 : (quart1 pts (1 / 2) (quart1 pts (3 / 4) 0).2).2 = 0 ∨
      ∃ q qs, pts.drop (quart1 pts (1 / 2) (quart1 pts (3 / 4) 0).2).2 = q :: qs ∧ 1 / 4 < q.2 := by
    rcases l2 with ⟨h, _⟩ | ⟨a, b, post, pre, h, _, h3, h5⟩
    · rw [h]
      rcases hl1 with h | ⟨q, qs, h, h'⟩
      · exact Or.inl h
      · exact Or.inr ⟨q, qs, h, lt_trans (by norm_num) h'⟩
    · right
      refine ⟨b, post, h5, ?_⟩
      by_contra hc
      exact (hsep a b (infix_drop pts pre a b post h)).2 ⟨not_lt.mp hc, h3⟩
  obtain ⟨c3, _⟩ := quart1_spec pts p0 rest hp (1 / 4) (quart1 pts (1 / 2) (quart1 pts (3 / 4) 0).2).2 h1 (by norm_num) hdec
    (quart_next pts p0 rest hp (1 / 4) _ hl2 hmem (fun _ => hrest) hdec)
  exact ⟨_, _, _, rfl, c1, c2, c3⟩

example : quart [(1 : ℚ), 2, 3, 4, 5] [4 / 5, 3 / 5, 2 / 5, 1 / 5, 0] = (5 / 4, 5 / 2, 15 / 4) := by decide +kernel

/-- **C137, violated.** Where the estimate falls past two quartiles at one value, the later ones are returned as zero: for 1, eight times 2, 3 and
4, the median is reported as 0 and so is the third quartile. -/
theorem C137_violated_same :
    ∃ o, kmInit none none none (some [(1 : ℚ), 2, 2, 2, 2, 2, 2, 2, 2, 3, 4]) (some [0, 0, 0, 0, 0, 0, 0, 0, 0, 0, 0]) = .obj o ∧
      (o.quartiles.toOption.map fun q => q.2) = some (0, 0) := by
  refine madeWitness _ ?_
  decide +kernel

/-- **C137, violated.** For values below zero the first quartile can exceed every value: the data are -10 twice, -9, -8 and -7, and
the first quartile is -25/4. -/
theorem C137_violated_origin :
    ∃ o, kmInit none none none (some [(-10 : ℚ), -10, -9, -8, -7]) (some [0, 0, 0, 0, 0]) = .obj o ∧
      (o.quartiles.toOption.map fun q => q.1) = some (-25 / 4) := by
  refine madeWitness _ ?_
  decide +kernel

/-- **C138.** Where the largest datum is a detection above every lower limit, every point of `cdf_pts` lies on the graph of the estimate, jumps
included.

Partial: missing is the largest datum being a limit; see `C138_violated_end`. -/
theorem C138_points_partial (ind : List ℤ) (x : List K) (hlen : ind.length = x.length) (hi : ∀ i ∈ ind, 0 ≤ i)
    (hd : detsOf ind x ≠ []) (hlim : ∀ m ∈ limsOf ind x, ∃ y ∈ detsOf ind x, m < y)
    (h0 : detsOf ind x ≠ [0] ∨ x.length ≤ 1) (start fin : K) (hst : ∀ y ∈ detsOf ind x, start ≤ y) (hfin : ∀ y ∈ detsOf ind x, y ≤ fin) :
    ∃ o pts, kmInit none none none (some x) (some ind) = .obj o ∧ o.cdfPts start fin = .ok pts ∧
      ∀ q ∈ pts, q.2 = prodLimit (detsOf ind x) (limsOf ind x) q.1 ∨ q.2 = prodLimitLeft (detsOf ind x) (limsOf ind x) q.1 := by
  obtain ⟨mean, h, _⟩ := made_lower ind x hlen hi hd (fun m hm _ => Or.inl (hlim m hm)) h0
  obtain ⟨h1, h2, h3⟩ := rows_lower (detsOf ind x) (limsOf ind x)
  set d := detsOf ind x
  set c := limsOf ind x
  set rows := dedupe (go (sorted c) 1 0 (sorted d))
  have hs : rows.map Row.s = (rows.map Row.z).map (prodLimit d c) := by
    rw [List.map_map]; exact List.map_congr_left fun r hr => (h3 r hr).1
  have hne : rows.map Row.z ≠ [] := by
    intro hz
    obtain ⟨y, hy⟩ := List.exists_mem_of_ne_nil _ hd
    rw [← h2 y, hz] at hy
    simp at hy
  have hhead : (rows.map Row.z).headD 0 ∈ d := by
    rw [← h2]
    cases hz : rows.map Row.z with
    | nil => exact absurd hz hne
    | cons a l => simp
  have hlast : (rows.map Row.z).getLastD 0 ∈ d := by
    rw [← h2]; exact getLastD_mem _ _ hne
  refine ⟨_, (start, 1) :: stepPts 1 ((rows.map Row.z).zip (rows.map Row.s)) ++ [(fin, 0)], h, ?_, ?_⟩
  · unfold KM.cdfPts
    simp only
    rw [if_neg]
    rintro (hh | hh)
    · exact absurd hh (not_lt.mpr (hst _ hhead))
    · exact absurd hh (not_lt.mpr (hfin _ hlast))
  · intro q hq
    simp only [List.cons_append, List.mem_cons, List.mem_append, List.not_mem_nil, or_false] at hq
    rcases hq with rfl | hq | rfl
    · exact Or.inr (left_first d c start hst).symm
    · rw [hs] at hq
      refine stepPts_spec d c (rows.map Row.z) 1 0 q ?_ h1 (fun y hy => Or.inl ((h2 y).mpr hy)) (fun b hb => (h2 b).mp hb) hq
      intro b hb
      rw [left_first]
      intro y hy
      have hy' := (h2 y).mpr hy
      cases hz : rows.map Row.z with
      | nil => rw [hz] at hb; simp at hb
      | cons a l =>
        rw [hz] at hb hy' h1
        simp only [List.head?_cons, Option.some.injEq] at hb
        subst hb
        rcases List.mem_cons.mp hy' with rfl | hy'
        · exact le_rfl
        · exact ((List.pairwise_cons.mp h1).1 y hy').le
    · exact Or.inl (prodLimit_top d c hd hlim fin hfin).symm

example : ∃ o, kmInit none none none (some [(3 : ℚ), 2, 1, 3]) (some [0, 1, 0, 0]) = .obj o ∧
    (o.cdfPts 0 4).toOption = some [(0, 1), (1, 1), (1, 3 / 4), (3, 3 / 4), (3, 0), (4, 0)] := by
  refine madeWitness _ ?_
  decide +kernel

/-- **C138, violated.** Where the largest datum is a limit, the last point is put at probability zero although the estimate stays above it:
detections 1 and 2 with the lower limit 3. -/
theorem C138_violated_end :
    (∃ o, kmInit none none none (some [(1 : ℚ), 2, 3]) (some [0, 0, 1]) = .obj o ∧
      (o.cdfPts 0 3).toOption = some [(0, 1), (1, 1), (1, 2 / 3), (2, 2 / 3), (2, 1 / 3), (3, 0)]) ∧
      prodLimit [(1 : ℚ), 2] [3] 3 = 1 / 3 := by
  refine ⟨madeWitness _ ?_, ?_⟩ <;> decide +kernel

end Verif.Km
