import Verif.MC.SampfordLemmas
import Verif.MC.PopProps

/-!
# Sampford's method: property C54

Exact draws: every random number is uniform on the unit interval.  A try takes a block of `n` numbers of its own, the first for the draw by weight, the others for the draws by
ratio; it is rejected if an index occurs twice.  `exactSample` is the first sample that is not rejected in `T` tries.  `C54_subset_pps` says that `subset_pps` does this with the
numbers it gets (a rejected try leaves the numbers after the first repetition unread; these are then the first of the next try).
-/

set_option linter.unusedSectionVars false
set_option linter.unusedSimpArgs false

namespace Verif.MC

open MeasureTheory

/-- The weights in the order used by the sampler, the largest first. -/
def sortedWts (w : List ℝ) (ord : List ℕ) : List ℝ := ord.reverse.map (fun i => w[i]?.getD 0)

/-- Their ratios `p / (1 - n p)`. -/
noncomputable def ratioWts (l : List ℝ) (n : ℕ) : List ℝ := l.map fun x => (x / l.sum) / (1 - n * (x / l.sum))

/-- The indices of one try. -/
noncomputable def exactTry (l : List ℝ) (k : ℕ) (u : Fin (k + 1) → unitInterval) : List ℕ :=
  drawIdx l l.sum (u 0) :: List.ofFn fun j : Fin k => drawIdx (ratioWts l (k + 1)) (ratioWts l (k + 1)).sum (u j.succ)

/-- The first try without repetition. -/
noncomputable def exactSample (l : List ℝ) (k T : ℕ) (ω : Fin T → Fin (k + 1) → unitInterval) : Option (List ℕ) :=
  (List.ofFn fun j => exactTry l k (ω j)).find? (fun s => s.Nodup)

/-- The sample in terms of the population. -/
noncomputable def exactMembers (w : List ℝ) (ord : List ℕ) (k T : ℕ) (ω : Fin T → Fin (k + 1) → unitInterval) : Option (List ℕ) :=
  (exactSample (sortedWts w ord) k T ω).bind (pickAll ord.reverse)

theorem ratioWts_nonneg (l : List ℝ) (n : ℕ) (hl : ∀ x ∈ l, 0 ≤ x) (ht : 0 < l.sum) (hn : ∀ x ∈ l, n * x < l.sum) : ∀ y ∈ ratioWts l n, 0 ≤ y := by
  intro y hy
  obtain ⟨x, hx, rfl⟩ := List.mem_map.1 hy
  have : (n : ℝ) * (x / l.sum) < 1 := by rw [← mul_div_assoc, div_lt_one ht]; exact hn x hx
  exact div_nonneg (div_nonneg (hl x hx) ht.le) (by linarith)

theorem ratioWts_ge (l : List ℝ) (n : ℕ) (hl : ∀ x ∈ l, 0 ≤ x) (ht : 0 < l.sum) (hn : ∀ x ∈ l, n * x < l.sum) (l' : List ℝ) (hsub : ∀ x ∈ l', x ∈ l) :
    (l'.map fun x => x / l.sum).sum ≤ (l'.map fun x => (x / l.sum) / (1 - n * (x / l.sum))).sum := by
  induction l' with
  | nil => simp
  | cons a l' ih =>
    simp only [List.map_cons, List.sum_cons]
    have h1 := ih (fun x hx => hsub x (List.mem_cons_of_mem _ hx))
    have ha := hsub a (List.mem_cons_self ..)
    have h2 : (n : ℝ) * (a / l.sum) < 1 := by rw [← mul_div_assoc, div_lt_one ht]; exact hn a ha
    have h3 : 0 ≤ a / l.sum := div_nonneg (hl a ha) ht.le
    have h4 : a / l.sum ≤ (a / l.sum) / (1 - n * (a / l.sum)) := by
      rw [le_div_iff₀ (by linarith)]
      have : 0 ≤ (n : ℝ) * (a / l.sum) := by positivity
      nlinarith
    linarith

theorem ratioWts_pos (l : List ℝ) (n : ℕ) (hl : ∀ x ∈ l, 0 ≤ x) (ht : 0 < l.sum) (hn : ∀ x ∈ l, n * x < l.sum) : 0 < (ratioWts l n).sum := by
  have h1 := ratioWts_ge l n hl ht hn l (fun x hx => hx)
  have h2 : (l.map fun x => x / l.sum).sum = 1 := by
    have : ∀ l' : List ℝ, (l'.map fun x => x / l.sum).sum = l'.sum / l.sum := by
      intro l'
      induction l' with
      | nil => simp
      | cons a l' ih => simp only [List.map_cons, List.sum_cons, ih, add_div]
    rw [this, div_self ht.ne']
  unfold ratioWts
  linarith

section

variable (l : List ℝ) (k : ℕ)

/-- The index functions of the positions of a try. -/
noncomputable def tryIdx (j : Fin (k + 1)) (u : unitInterval) : ℕ :=
  if j = 0 then drawIdx l l.sum u else drawIdx (ratioWts l (k + 1)) (ratioWts l (k + 1)).sum u

/-- Their probabilities. -/
noncomputable def tryProb (j : Fin (k + 1)) (i : Fin l.length) : ℝ :=
  if j = 0 then l[i] / l.sum else ((l[i] / l.sum) / (1 - (k + 1 : ℕ) * (l[i] / l.sum))) / (ratioWts l (k + 1)).sum

theorem exactTry_eq (u : Fin (k + 1) → unitInterval) : exactTry l k u = List.ofFn fun j => tryIdx l k j (u j) := by
  rw [List.ofFn_succ]
  unfold exactTry tryIdx
  simp [Fin.succ_ne_zero]

variable {l k} (hl : ∀ x ∈ l, 0 ≤ x) (ht : 0 < l.sum) (hn : ∀ x ∈ l, (k + 1 : ℕ) * x < l.sum)

include hl ht hn

theorem tryIdx_lt (j : Fin (k + 1)) (u : unitInterval) : tryIdx l k j u < l.length := by
  unfold tryIdx
  split_ifs
  · exact drawIdx_lt l hl ht u
  · have := drawIdx_lt (ratioWts l (k + 1)) (ratioWts_nonneg l _ hl ht hn) (ratioWts_pos l _ hl ht hn) u
    simpa [ratioWts] using this

theorem tryProb_nonneg (j : Fin (k + 1)) (i : Fin l.length) : 0 ≤ tryProb l k j i := by
  unfold tryProb
  split_ifs
  · exact div_nonneg (hl _ (List.getElem_mem _)) ht.le
  · refine div_nonneg (ratioWts_nonneg l _ hl ht hn _ ?_) (ratioWts_pos l _ hl ht hn).le
    exact List.mem_map.2 ⟨_, List.getElem_mem i.2, rfl⟩

theorem tryIdx_volume (j : Fin (k + 1)) (i : Fin l.length) :
    MeasurableSet {u | tryIdx l k j u = i} ∧ volume {u | tryIdx l k j u = i} = ENNReal.ofReal (tryProb l k j i) := by
  unfold tryIdx tryProb
  split_ifs
  · exact draw_volume l hl ht i i.2
  · have := draw_volume (ratioWts l (k + 1)) (ratioWts_nonneg l _ hl ht hn) (ratioWts_pos l _ hl ht hn) i (by simp [ratioWts])
    simpa [ratioWts] using this

theorem exactTry_nodup (u : Fin (k + 1) → unitInterval) :
    (exactTry l k u).Nodup ↔ ∃ f : Fin (k + 1) → Fin l.length, Function.Injective f ∧ ∀ j, tryIdx l k j (u j) = f j := by
  rw [exactTry_eq, List.nodup_ofFn]
  constructor
  · intro h
    refine ⟨fun j => ⟨tryIdx l k j (u j), tryIdx_lt hl ht hn j _⟩, ?_, fun j => rfl⟩
    intro a b hab
    apply h
    simpa using hab
  · rintro ⟨f, h1, h2⟩ a b hab
    dsimp only at hab
    rw [h2, h2] at hab
    exact h1 (Fin.val_injective hab)

/-- The accepted tries, and those with a member. -/
theorem accepted_volume (i : Fin l.length) :
    (MeasurableSet {u | (exactTry l k u).Nodup} ∧ MeasurableSet {u | (exactTry l k u).Nodup ∧ (i : ℕ) ∈ exactTry l k u}) ∧
    volume {u | (exactTry l k u).Nodup ∧ (i : ℕ) ∈ exactTry l k u} = ENNReal.ofReal ((k + 1 : ℕ) * (l[i] / l.sum)) * volume {u | (exactTry l k u).Nodup} := by
  classical
  have e1 : {u | (exactTry l k u).Nodup} = {u | ∃ f : Fin (k + 1) → Fin l.length, Function.Injective f ∧ True ∧ ∀ j, tryIdx l k j (u j) = f j} := by
    ext u
    simp only [Set.mem_ofPred_eq, exactTry_nodup hl ht hn u, true_and]
  have e2 : {u | (exactTry l k u).Nodup ∧ (i : ℕ) ∈ exactTry l k u} =
      {u | ∃ f : Fin (k + 1) → Fin l.length, Function.Injective f ∧ i ∈ Set.range f ∧ ∀ j, tryIdx l k j (u j) = f j} := by
    ext u
    simp only [Set.mem_ofPred_eq, exactTry_nodup hl ht hn u]
    rw [exactTry_eq, List.mem_ofFn]
    constructor
    · rintro ⟨⟨f, h1, h2⟩, ⟨j, hj⟩⟩
      refine ⟨f, h1, ⟨j, ?_⟩, h2⟩
      apply Fin.val_injective
      rw [← hj, h2]
    · rintro ⟨f, h1, ⟨j, hj⟩, h2⟩
      exact ⟨⟨f, h1, h2⟩, ⟨j, by rw [h2, hj]⟩⟩
  obtain ⟨m1, v1⟩ := try_volume (tryIdx l k) (tryProb l k) (tryProb_nonneg hl ht hn) (tryIdx_volume hl ht hn) (fun _ => True)
  obtain ⟨m2, v2⟩ := try_volume (tryIdx l k) (tryProb l k) (tryProb_nonneg hl ht hn) (tryIdx_volume hl ht hn) (fun f => i ∈ Set.range f)
  refine ⟨⟨by rw [e1]; exact m1, by rw [e2]; exact m2⟩, ?_⟩
  rw [e1, e2, v1, v2, ← ENNReal.ofReal_mul (by
    have : 0 ≤ l[i] / l.sum := div_nonneg (hl _ (List.getElem_mem _)) ht.le
    positivity)]
  congr 1
  set Λ := (ratioWts l (k + 1)).sum with hΛ
  have hden : ∀ j : Fin l.length, 1 - ((k + 1 : ℕ) : ℝ) * (l[j] / l.sum) ≠ 0 := by
    intro j
    have : ((k + 1 : ℕ) : ℝ) * (l[j] / l.sum) < 1 := by rw [← mul_div_assoc, div_lt_one ht]; exact hn _ (List.getElem_mem _)
    linarith
  have hsum : ∑ j : Fin l.length, l[j] / l.sum = 1 := by
    rw [← Finset.sum_div]
    have : ∑ j : Fin l.length, l[j] = l.sum := by simp
    rw [this, div_self ht.ne']
  have key := sampford_identity (fun j : Fin l.length => l[j] / l.sum) (fun j => (l[j] / l.sum) / (1 - (k + 1 : ℕ) * (l[j] / l.sum))) k hsum
    (fun j => by rw [div_mul_cancel₀ _ (hden j)]) i
  have hprod : ∀ f : Fin (k + 1) → Fin l.length, ∏ j, tryProb l k j (f j) =
      (Λ ^ k)⁻¹ * (l[f 0] / l.sum * ∏ j : Fin k, (l[f j.succ] / l.sum) / (1 - (k + 1 : ℕ) * (l[f j.succ] / l.sum))) := by
    intro f
    rw [Fin.prod_univ_succ]
    unfold tryProb
    simp only [Fin.succ_ne_zero, if_false, if_true]
    rw [Finset.prod_div_distrib, Finset.prod_const, Finset.card_univ, Fintype.card_fin]
    rw [← hΛ]
    ring
  have s1 : isum (k + 1) (fun f : Fin (k + 1) → Fin l.length => if True then ∏ j, tryProb l k j (f j) else 0) =
      (Λ ^ k)⁻¹ * isum (k + 1) (fun f : Fin (k + 1) → Fin l.length => l[f 0] / l.sum * ∏ j : Fin k, (l[f j.succ] / l.sum) / (1 - (k + 1 : ℕ) * (l[f j.succ] / l.sum))) := by
    rw [← isum_mul]
    exact isum_congr fun f _ => by rw [if_pos trivial, hprod]
  have s2 : isum (k + 1) (fun f : Fin (k + 1) → Fin l.length => if i ∈ Set.range f then ∏ j, tryProb l k j (f j) else 0) =
      (Λ ^ k)⁻¹ * isum (k + 1) (fun f : Fin (k + 1) → Fin l.length =>
        if i ∈ Set.range f then l[f 0] / l.sum * ∏ j : Fin k, (l[f j.succ] / l.sum) / (1 - (k + 1 : ℕ) * (l[f j.succ] / l.sum)) else 0) := by
    rw [← isum_mul]
    refine isum_congr fun f _ => ?_
    by_cases h : i ∈ Set.range f
    · rw [if_pos h, if_pos h, hprod]
    · rw [if_neg h, if_neg h, mul_zero]
  convert_to isum (k + 1) (fun f : Fin (k + 1) → Fin l.length => if i ∈ Set.range f then ∏ j, tryProb l k j (f j) else 0) =
    (k + 1 : ℕ) * (l[i] / l.sum) * isum (k + 1) (fun f : Fin (k + 1) → Fin l.length => if True then ∏ j, tryProb l k j (f j) else 0) using 2
  · funext f; congr
  · exact isum_congr fun f _ => by simp
  rw [s1, s2]
  have key' : isum (k + 1) (fun f : Fin (k + 1) → Fin l.length =>
        if i ∈ Set.range f then l[f 0] / l.sum * ∏ j : Fin k, (l[f j.succ] / l.sum) / (1 - (k + 1 : ℕ) * (l[f j.succ] / l.sum)) else 0) =
      (k + 1 : ℕ) * (l[i] / l.sum) * isum (k + 1) (fun f : Fin (k + 1) → Fin l.length => l[f 0] / l.sum * ∏ j : Fin k, (l[f j.succ] / l.sum) / (1 - (k + 1 : ℕ) * (l[f j.succ] / l.sum))) := by
    convert key using 2
  rw [key']
  ring

/-- A try is accepted with positive probability. -/
theorem accepted_pos : 0 < volume {u | (exactTry l k u).Nodup} := by
  classical
  have e1 : {u | (exactTry l k u).Nodup} = {u | ∃ f : Fin (k + 1) → Fin l.length, Function.Injective f ∧ True ∧ ∀ j, tryIdx l k j (u j) = f j} := by
    ext u
    simp only [Set.mem_ofPred_eq, exactTry_nodup hl ht hn u, true_and]
  obtain ⟨m1, v1⟩ := try_volume (tryIdx l k) (tryProb l k) (tryProb_nonneg hl ht hn) (tryIdx_volume hl ht hn) (fun _ => True)
  rw [e1, v1, ENNReal.ofReal_pos]
  -- more than `n` weights are positive
  have hcard : k + 1 < Fintype.card {i : Fin l.length // 0 < l[i]} := by
    have hs1 : ∑ j : Fin l.length, l[j] = l.sum := by simp
    have hs2 : ∑ j : {i : Fin l.length // 0 < l[i]}, l[j.1] = l.sum := by
      rw [← hs1]
      have := Finset.sum_subtype_of_mem (s := Finset.univ.filter fun i : Fin l.length => 0 < l[i]) (fun i => l[i]) (p := fun i => 0 < l[i]) (by simp)
      rw [← Finset.sum_subtype (Finset.univ.filter fun i : Fin l.length => 0 < l[i]) (by simp) (fun i => l[i]), Finset.sum_filter]
      refine Finset.sum_congr rfl fun i _ => ?_
      split_ifs with h
      · rfl
      · exact le_antisymm (hl _ (List.getElem_mem _)) (not_lt.1 h)
    have hne : Nonempty {i : Fin l.length // 0 < l[i]} := by
      by_contra hc
      rw [not_nonempty_iff] at hc
      rw [Finset.univ_eq_empty, Finset.sum_empty] at hs2
      linarith
    have h3 : ∑ j : {i : Fin l.length // 0 < l[i]}, ((k + 1 : ℕ) : ℝ) * l[j.1] < ∑ j : {i : Fin l.length // 0 < l[i]}, l.sum :=
      Finset.sum_lt_sum_of_nonempty Finset.univ_nonempty (fun j _ => hn _ (List.getElem_mem _))
    rw [← Finset.mul_sum, hs2, Finset.sum_const, Finset.card_univ, nsmul_eq_mul] at h3
    have := lt_of_mul_lt_mul_right h3 ht.le
    exact_mod_cast this
  obtain ⟨f⟩ := Function.Embedding.nonempty_of_card_le (α := Fin (k + 1)) (β := {i : Fin l.length // 0 < l[i]}) (by rw [Fintype.card_fin]; omega)
  unfold isum
  refine Finset.sum_pos' ?_ ⟨fun j => (f j).1, Finset.mem_univ _, ?_⟩
  · intro g _
    split_ifs
    · exact Finset.prod_nonneg (fun j _ => tryProb_nonneg hl ht hn j (g j))
    · exact le_rfl
  · have hinj : Function.Injective fun j => (f j).1 := fun a b hab => f.injective (Subtype.val_injective hab)
    rw [if_pos hinj]
    dsimp only
    rw [if_pos trivial]
    refine Finset.prod_pos fun j _ => ?_
    have hp := (f j).2
    unfold tryProb
    have hd : 0 < 1 - ((k + 1 : ℕ) : ℝ) * (l[(f j).1] / l.sum) := by
      have : ((k + 1 : ℕ) : ℝ) * (l[(f j).1] / l.sum) < 1 := by rw [← mul_div_assoc, div_lt_one ht]; exact hn _ (List.getElem_mem _)
      linarith
    split_ifs
    · exact div_pos hp ht
    · exact div_pos (div_pos (div_pos hp ht) hd) (ratioWts_pos l _ hl ht hn)

end

theorem exactSample_some (l : List ℝ) (k T : ℕ) (ω : Fin T → Fin (k + 1) → unitInterval) (s : List ℕ) :
    exactSample l k T ω = some s ↔ ∃ j, exactTry l k (ω j) = s ∧ s.Nodup ∧ ∀ j' < j, ¬ (exactTry l k (ω j')).Nodup := by
  unfold exactSample
  rw [List.find?_eq_some_iff_getElem]
  simp only [decide_eq_true_eq, List.getElem_ofFn, List.length_ofFn]
  constructor
  · rintro ⟨h1, i, hi, h2, h3⟩
    refine ⟨⟨i, hi⟩, h2, h1, fun j' hj' => ?_⟩
    have := h3 j' hj'
    simpa using this
  · rintro ⟨j, h1, h2, h3⟩
    refine ⟨h2, j, j.2, h1, fun j' hj' => ?_⟩
    have := h3 ⟨j', by omega⟩ hj'
    simpa using this

variable {w : List ℝ} {ord : List ℕ}

theorem sortedWts_perm (h : Sorts w ord) : (sortedWts w ord).Perm w := by
  unfold sortedWts
  have h1 := ((List.reverse_perm ord).trans h.perm).map (fun i => w[i]?.getD 0)
  rwa [map_getD_range] at h1

/-- **C54.**  With exact draws, for every weight vector and every sample size with `n` times the largest weight below the total, and for any number `T` of tries: of the probability
that a sample is returned, the part with samples that include member `m` is `n w[m] / W`. -/
theorem C54_inclusion (hs : Sorts w ord) (hw : ∀ x ∈ w, 0 ≤ x) (hpos : 0 < w.sum) (k : ℕ) (hn : ∀ x ∈ w, (k + 1 : ℕ) * x < w.sum) (T : ℕ) (m : ℕ) (hm : m < w.length) :
    volume {ω : Fin T → Fin (k + 1) → unitInterval | ∃ s, exactMembers w ord k T ω = some s ∧ m ∈ s} =
      ENNReal.ofReal ((k + 1 : ℕ) * w[m] / w.sum) * volume {ω : Fin T → Fin (k + 1) → unitInterval | ∃ s, exactMembers w ord k T ω = some s} := by
  have hp := sortedWts_perm hs
  set l := sortedWts w ord with hl0
  have hl : ∀ x ∈ l, 0 ≤ x := fun x hx => hw x (hp.mem_iff.1 hx)
  have hsum : l.sum = w.sum := hp.sum_eq
  have ht : 0 < l.sum := by rw [hsum]; exact hpos
  have hn' : ∀ x ∈ l, (k + 1 : ℕ) * x < l.sum := fun x hx => by rw [hsum]; exact hn x (hp.mem_iff.1 hx)
  have hol : ord.length = w.length := by rw [hs.perm.length_eq, List.length_range]
  have hll : l.length = w.length := hp.length_eq
  have hond : ord.reverse.Nodup := List.nodup_reverse.2 (hs.perm.nodup_iff.2 List.nodup_range)
  -- position of the member in the sorted order
  obtain ⟨i, hi, hio⟩ : ∃ i, ∃ h : i < ord.reverse.length, ord.reverse[i] = m := by
    apply List.getElem_of_mem
    rw [List.mem_reverse, hs.perm.mem_iff]
    simpa using hm
  have hil : i < l.length := by rw [hll, ← hol]; simpa using hi
  have hwi : l[i] = w[m] := by
    simp only [hl0, sortedWts, List.getElem_map, hio]
    rw [List.getElem?_eq_getElem hm, Option.getD_some]
  obtain ⟨⟨m1, m2⟩, hv⟩ := accepted_volume hl ht hn' ⟨i, hil⟩
  have hrange : ∀ (u : Fin (k + 1) → unitInterval), ∀ a ∈ exactTry l k u, a < ord.reverse.length := by
    intro u a ha
    rw [exactTry_eq, List.mem_ofFn] at ha
    obtain ⟨j, rfl⟩ := ha
    have := tryIdx_lt hl ht hn' j (u j)
    rw [List.length_reverse, hol, ← hll]
    exact this
  have hpick : ∀ (u : Fin (k + 1) → unitInterval), pickAll ord.reverse (exactTry l k u) = some ((exactTry l k u).map fun a => ord.reverse[a]?.getD 0) :=
    fun u => pickAll_eq 0 _ _ (hrange u)
  have hmem : ∀ u : Fin (k + 1) → unitInterval, m ∈ ((exactTry l k u).map fun a => ord.reverse[a]?.getD 0) ↔ i ∈ exactTry l k u := by
    intro u
    rw [List.mem_map]
    constructor
    · rintro ⟨a, ha, hae⟩
      have har := hrange u a ha
      rw [List.getElem?_eq_getElem har, Option.getD_some, ← hio] at hae
      rw [← (hond.getElem_inj_iff).1 hae]
      exact ha
    · intro h
      exact ⟨i, h, by rw [List.getElem?_eq_getElem hi, Option.getD_some, hio]⟩
  have e1 : {ω : Fin T → Fin (k + 1) → unitInterval | ∃ s, exactMembers w ord k T ω = some s} =
      {ω | ∃ j, ω j ∈ {u | (exactTry l k u).Nodup} ∧ ∀ j' < j, ω j' ∉ {u | (exactTry l k u).Nodup}} := by
    ext ω
    simp only [Set.mem_ofPred_eq, exactMembers, Option.bind_eq_some_iff, ← hl0]
    constructor
    · rintro ⟨s, s', h1, h2⟩
      obtain ⟨j, h3, h4, h5⟩ := (exactSample_some l k T ω s').1 h1
      exact ⟨j, by rw [h3]; exact h4, h5⟩
    · rintro ⟨j, h1, h2⟩
      exact ⟨_, _, (exactSample_some l k T ω _).2 ⟨j, rfl, h1, h2⟩, hpick _⟩
  have e2 : {ω : Fin T → Fin (k + 1) → unitInterval | ∃ s, exactMembers w ord k T ω = some s ∧ m ∈ s} =
      {ω | ∃ j, ω j ∈ {u | (exactTry l k u).Nodup ∧ i ∈ exactTry l k u} ∧ ∀ j' < j, ω j' ∉ {u | (exactTry l k u).Nodup}} := by
    ext ω
    simp only [Set.mem_ofPred_eq, exactMembers, Option.bind_eq_some_iff, ← hl0]
    constructor
    · rintro ⟨s, ⟨s', h1, h2⟩, hms⟩
      obtain ⟨j, h3, h4, h5⟩ := (exactSample_some l k T ω s').1 h1
      refine ⟨j, ⟨by rw [h3]; exact h4, ?_⟩, h5⟩
      rw [← h3, hpick, Option.some.injEq] at h2
      rw [← h2] at hms
      exact (hmem _).1 hms
    · rintro ⟨j, ⟨h1, h3⟩, h2⟩
      exact ⟨_, ⟨_, (exactSample_some l k T ω _).2 ⟨j, rfl, h1, h2⟩, hpick _⟩, (hmem _).2 h3⟩
  rw [e1, e2, tries_volume T _ _ m1 m1 (le_refl _), tries_volume T _ _ m1 m2 (fun u hu => hu.1)]
  have hv' : volume {u | (exactTry l k u).Nodup ∧ i ∈ exactTry l k u} = ENNReal.ofReal ((k + 1 : ℕ) * w[m] / w.sum) * volume {u | (exactTry l k u).Nodup} := by
    rw [mul_div_assoc, ← hwi, ← hsum]
    exact hv
  rw [hv']
  ring

/-- **C54.**  The method returns with probability one: the probability that it has not after `T` tries is the `T`-th power of a number below one. -/
theorem C54_returns (hs : Sorts w ord) (hw : ∀ x ∈ w, 0 ≤ x) (hpos : 0 < w.sum) (k : ℕ) (hn : ∀ x ∈ w, (k + 1 : ℕ) * x < w.sum) :
    ∃ r < 1, ∀ T, volume {ω : Fin T → Fin (k + 1) → unitInterval | exactMembers w ord k T ω = none} = r ^ T := by
  have hp := sortedWts_perm hs
  have hne : 0 < (sortedWts w ord).length := by
    rw [hp.length_eq]
    cases w with
    | nil => simp at hpos
    | cons a l => simp
  set l := sortedWts w ord with hl0
  have hl : ∀ x ∈ l, 0 ≤ x := fun x hx => hw x (hp.mem_iff.1 hx)
  have hsum : l.sum = w.sum := hp.sum_eq
  have ht : 0 < l.sum := by rw [hsum]; exact hpos
  have hn' : ∀ x ∈ l, (k + 1 : ℕ) * x < l.sum := fun x hx => by rw [hsum]; exact hn x (hp.mem_iff.1 hx)
  have hol : ord.length = w.length := by rw [hs.perm.length_eq, List.length_range]
  obtain ⟨⟨m1, _⟩, _⟩ := accepted_volume hl ht hn' ⟨0, hne⟩
  have hpick : ∀ (u : Fin (k + 1) → unitInterval), pickAll ord.reverse (exactTry l k u) = some ((exactTry l k u).map fun a => ord.reverse[a]?.getD 0) := by
    intro u
    refine pickAll_eq 0 _ _ ?_
    intro a ha
    rw [exactTry_eq, List.mem_ofFn] at ha
    obtain ⟨j, rfl⟩ := ha
    have := tryIdx_lt hl ht hn' j (u j)
    rw [List.length_reverse, hol, ← hp.length_eq]
    exact this
  refine ⟨volume {u | (exactTry l k u).Nodup}ᶜ, ?_, fun T => ?_⟩
  · rw [prob_compl_eq_one_sub m1]
    exact ENNReal.sub_lt_self ENNReal.one_ne_top one_ne_zero (accepted_pos hl ht hn').ne'
  · have e : {ω : Fin T → Fin (k + 1) → unitInterval | exactMembers w ord k T ω = none} = Set.pi Set.univ (fun _ => {u | (exactTry l k u).Nodup}ᶜ) := by
      ext ω
      simp only [Set.mem_ofPred_eq, exactMembers, ← hl0, Set.mem_univ_pi, Set.mem_compl_iff]
      unfold exactSample
      constructor
      · intro h j
        by_contra hc
        cases hf : (List.ofFn fun j => exactTry l k (ω j)).find? (fun s => decide s.Nodup) with
        | none =>
          rw [List.find?_eq_none] at hf
          have := hf (exactTry l k (ω j)) (List.mem_ofFn.2 ⟨j, rfl⟩)
          simp at this
          exact this hc
        | some s =>
          have hf' : exactSample l k T ω = some s := hf
          obtain ⟨j', h3, _⟩ := (exactSample_some l k T ω s).1 hf'
          rw [hf] at h
          subst h3
          rw [Option.bind_some, hpick] at h
          cases h
      · intro h
        rw [Option.bind_eq_none_iff]
        intro s hsome
        obtain ⟨j, h3, h4, _⟩ := (exactSample_some l k T ω s).1 hsome
        exfalso
        exact h j (by rw [h3]; exact h4)
    rw [e, volume_pi_pi, Finset.prod_const, Finset.card_univ, Fintype.card_fin]

/-- The numbers that a try reads: up to the first repetition. -/
def readNums (look : ℕ → ℕ) : List ℕ → List ℕ → List ℕ
  | _, [] => []
  | sample, r :: rs => if look r ∈ sample then [r] else r :: readNums look (sample ++ [look r]) rs

theorem ratioLoop_read (rmax : ℕ) (cr : List (Ext ℝ)) (tot : Ext ℝ) (sample rs more : List ℕ) (hd : sample.Nodup) :
    let look := fun r => cr.findIdx (Ext.le (rval rmax tot r))
    ((sample ++ rs.map look).Nodup → ratioLoop rmax cr tot rs.length sample (readNums look sample rs ++ more) = some (sample ++ rs.map look, false, more)) ∧
    (¬ (sample ++ rs.map look).Nodup → ∃ o, ratioLoop rmax cr tot rs.length sample (readNums look sample rs ++ more) = some (o, true, more)) := by
  intro look
  induction rs generalizing sample with
  | nil =>
    refine ⟨fun _ => by simp [ratioLoop, readNums], fun h => ?_⟩
    simp at h
    exact absurd hd h
  | cons r rs ih =>
    rw [List.length_cons, readNums]
    by_cases hm : look r ∈ sample
    · rw [if_pos hm]
      refine ⟨fun h => ?_, fun _ => ⟨sample, ?_⟩⟩
      · exfalso
        rw [List.nodup_append] at h
        exact h.2.2 _ hm (look r) (by simp) rfl
      · show ratioLoop rmax cr tot (rs.length + 1) sample (r :: more) = _
        unfold ratioLoop
        dsimp only
        rw [if_pos hm]
    · rw [if_neg hm]
      have hd' : (sample ++ [look r]).Nodup := by
        rw [List.nodup_append]
        refine ⟨hd, by simp, ?_⟩
        intro a ha b hb
        simp at hb
        rintro rfl
        rw [hb] at ha
        exact hm ha
      have hstep : ratioLoop rmax cr tot (rs.length + 1) sample (r :: readNums look (sample ++ [look r]) rs ++ more) =
          ratioLoop rmax cr tot rs.length (sample ++ [look r]) (readNums look (sample ++ [look r]) rs ++ more) := by
        show ratioLoop rmax cr tot (rs.length + 1) sample (r :: (readNums look (sample ++ [look r]) rs ++ more)) = _
        conv_lhs => unfold ratioLoop
        dsimp only
        rw [if_neg hm]
      rw [hstep]
      have := ih (sample ++ [look r]) hd'
      rw [List.append_assoc, List.singleton_append] at this
      exact this

theorem tryLoop_tries (rmax : ℕ) (cw : List ℝ) (wtot : ℝ) (cr : List (Ext ℝ)) (tot : Ext ℝ) (k : ℕ) (tries : List (ℕ × ℕ × List ℕ)) (hk : ∀ t ∈ tries, t.2.2.length = k) :
    let first := fun t : ℕ × ℕ × List ℕ => cw.findIdx (fun c => wtot * rkDouble t.1 t.2.1 ≤ c)
    let look := fun r => cr.findIdx (Ext.le (rval rmax tot r))
    (tryLoop rmax cw wtot cr tot (k + 1 : ℕ) (tries.flatMap fun t => [t.1, t.2.1]) (tries.flatMap fun t => readNums look [first t] t.2.2)).map (fun r => r.2.1) =
      (tries.map fun t => first t :: t.2.2.map look).find? (fun s => s.Nodup) := by
  intro first look
  induction tries with
  | nil => simp [tryLoop]
  | cons t tries ih =>
    have ih := ih (fun t ht => hk t (List.mem_cons_of_mem _ ht))
    have hlen := hk t (List.mem_cons_self ..)
    simp only [List.flatMap_cons, List.map_cons, List.cons_append, List.nil_append]
    unfold tryLoop
    dsimp only
    have hto : (((k + 1 : ℕ) : ℤ) - 1).toNat = t.2.2.length := by rw [hlen]; omega
    rw [hto]
    obtain ⟨h1, h2⟩ := ratioLoop_read rmax cr tot [first t] t.2.2 (tries.flatMap fun t => readNums look [first t] t.2.2) (by simp)
    by_cases hnd : (first t :: t.2.2.map look).Nodup
    · rw [List.find?_cons_of_pos (by simpa using hnd)]
      have := h1 hnd
      simp only [first, look] at this ⊢
      rw [this]
      rfl
    · rw [List.find?_cons_of_neg (by simpa using hnd), ← ih]
      obtain ⟨o, ho⟩ := h2 hnd
      simp only [first, look] at ho ⊢
      rw [ho]
      dsimp only
      cases tryLoop rmax cw wtot cr tot (k + 1 : ℕ) (tries.flatMap fun t => [t.1, t.2.1]) (tries.flatMap fun t =>
        readNums (fun r => cr.findIdx (Ext.le (rval rmax tot r))) [cw.findIdx (fun c => decide (wtot * rkDouble t.1 t.2.1 ≤ c))] t.2.2) <;> rfl

/-- **C54.**  `subset_pps`, with the words and numbers of `rand()` of a sequence of tries, gives the first sample without repetition; the indices of a try are those that
`exactTry` draws with the numbers of the generators, scaled to the unit interval. -/
theorem C54_subset_pps {α : Type*} {items : List α} {rmax : ℕ} {p : Pop α ℝ} (hs : Sorts w ord) (hw : ∀ x ∈ w, 0 ≤ x) (hpos : 0 < w.sum)
    (hr : Reach items (some w) ord rmax p) (k : ℕ) (hlen : k + 1 < items.length) (hn : ∀ x ∈ w, (k + 1 : ℕ) * x < w.sum) (tries : List (ℕ × ℕ × List ℕ))
    (hk : ∀ t ∈ tries, t.2.2.length = k) :
    let l := sortedWts w ord
    let first := fun t : ℕ × ℕ × List ℕ => drawIdx l l.sum (rkDouble t.1 t.2.1)
    let look := fun r : ℕ => drawIdx (ratioWts l (k + 1)) (ratioWts l (k + 1)).sum (r / (rmax + 1))
    let g : World := ⟨tries.flatMap fun t => [t.1, t.2.1], [], [], tries.flatMap fun t => readNums look [first t] t.2.2⟩
    (p.subsetPps (k + 1 : ℕ) g).2.2 =
      match (tries.map fun t => first t :: t.2.2.map look).find? (fun s => s.Nodup) with
      | none => .short
      | some s =>
        match (pickAll ord.reverse s).bind (pickAll items) with
        | none => .err .index
        | some out => .val out := by
  intro l first look g
  have hgood : ∀ w', some w = some w' → Sorts w' ord ∧ ∀ x ∈ w', 0 ≤ x := by rintro _ ⟨rfl⟩; exact ⟨hs, hw⟩
  have hwne : w ≠ [] := by rintro rfl; simp at hpos
  rw [(subsetPps_spec (hr.inv hgood) (k + 1 : ℕ) g).2 (by omega)]
  obtain ⟨s, hsm⟩ := initSampler_isSome w hpos
  obtain ⟨S, hS, h1, h2, h3, h4, h5, h6, h7⟩ := setup_eq hs hwne
  have hl := hr.length
  have hnI : ∀ x ∈ w, (((k + 1 : ℕ) : ℤ) : ℝ) * x < w.sum := by
    intro x hx
    rw [Int.cast_natCast]
    exact hn x hx
  have hok := ok_of (n := ((k + 1 : ℕ) : ℤ)) hs hpos hS (fun x hx => (hnI x hx).le) (by omega)
  obtain ⟨hr1, _⟩ := ratios_fin hs hw hpos hS hnI
  have hSl : S.sorted = l := h5
  have hlsum : l.sum = w.sum := (sortedWts_perm hs).sum_eq
  have hratio : (S.sorted.map fun x => (x / w.sum) / (1 - (((k + 1 : ℕ) : ℤ) : ℝ) * (x / w.sum))) = ratioWts l (k + 1) := by
    unfold ratioWts
    rw [hSl, hlsum, Int.cast_natCast]
  rw [hratio] at hr1
  have hlne : l ≠ [] := by intro h; rw [h] at hlsum; simp at hlsum; linarith
  unfold ppsSpec
  rw [if_neg (by omega), setRng_extra, if_pos rfl]
  dsimp only
  rw [hsm]; dsimp only
  rw [hS]; dsimp only
  rw [if_pos (by rw [hl]; exact hok), samplenr_eq, if_neg (by omega)]
  have hcum : S.cum = cumFrom (· + ·) 0 l := by rw [h6, hSl]
  have hcw : S.cum.getLast? = some l.sum := by rw [hcum, cumFrom_getLast _ _ hlne, zero_add]
  rw [hcw]; dsimp only
  have hct : (cumFrom Ext.add (.fin 0) (S.ratios ((k + 1 : ℕ) : ℤ))).getLast? = some (Ext.fin (ratioWts l (k + 1)).sum) := by
    rw [hr1, cumFrom_fin, List.getLast?_map, cumFrom_getLast _ _ (by simpa [ratioWts] using hlne), zero_add]; rfl
  rw [hct]; dsimp only
  have hfirst : ∀ t : ℕ × ℕ × List ℕ, S.cum.findIdx (fun c => decide (l.sum * rkDouble t.1 t.2.1 ≤ c)) = first t := by
    intro t; rw [hcum]; rfl
  have hlook : ∀ r : ℕ, (cumFrom Ext.add (.fin 0) (S.ratios ((k + 1 : ℕ) : ℤ))).findIdx (Ext.le (rval rmax (.fin (ratioWts l (k + 1)).sum) r)) = look r := by
    intro r
    rw [hr1, cumFrom_fin, List.findIdx_map]
    simp only [look, drawIdx, rval, mul_div_assoc]
    rfl
  have key := tryLoop_tries rmax S.cum l.sum (cumFrom Ext.add (.fin 0) (S.ratios ((k + 1 : ℕ) : ℤ))) (.fin (ratioWts l (k + 1)).sum) k tries hk
  simp only [hfirst, hlook] at key
  have hg1 : g.words = tries.flatMap fun t => [t.1, t.2.1] := rfl
  have hg2 : g.crand = tries.flatMap fun t => readNums look [first t] t.2.2 := rfl
  rw [hg1, hg2]
  rcases htl : tryLoop rmax S.cum l.sum (cumFrom Ext.add (.fin 0) (S.ratios ((k + 1 : ℕ) : ℤ))) (.fin (ratioWts l (k + 1)).sum) ((k + 1 : ℕ) : ℤ) (tries.flatMap fun t => [t.1, t.2.1])
      (tries.flatMap fun t => readNums look [first t] t.2.2) with _ | ⟨ntry, sample, cw', rs'⟩
  · rw [htl] at key
    rw [htl, ← key]
    rfl
  · rw [htl] at key
    rw [htl, ← key]
    dsimp only [Option.map_some]
    obtain ⟨_, hsl, _⟩ := tryLoop_spec rmax S.cum l.sum _ _ _ _ _ _ le_rfl _ _ _ _ htl
    have htake : sample.take ((k + 1 : ℕ) : ℤ).toNat = sample := List.take_of_length_le (by rw [hsl]; omega)
    rw [htake]
    cases hp1 : pickAll ord.reverse sample with
    | none => rfl
    | some idx =>
      simp only [Option.bind_some]
      cases hp2 : pickAll items idx <;> rfl

/-- The hypotheses hold for these weights and a sample of two. -/
example : Sorts ([3, 0, 2, 2, 1] : List ℝ) [1, 4, 3, 2, 0] ∧ (∀ x ∈ ([3, 0, 2, 2, 1] : List ℝ), 0 ≤ x) ∧ 0 < ([3, 0, 2, 2, 1] : List ℝ).sum ∧
    (∀ x ∈ ([3, 0, 2, 2, 1] : List ℝ), ((1 + 1 : ℕ) : ℝ) * x < ([3, 0, 2, 2, 1] : List ℝ).sum) ∧
    ∃ p : Pop ℕ ℝ, Reach [10, 11, 12, 13, 14] (some [3, 0, 2, 2, 1]) [1, 4, 3, 2, 0] 99 p := by
  refine ⟨⟨by decide, ?_⟩, ?_, ?_, ?_, _, .new rfl⟩
  · simp; norm_num
  · simp
  · norm_num
  · simp; norm_num

end Verif.MC
