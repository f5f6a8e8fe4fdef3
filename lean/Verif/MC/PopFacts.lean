import Verif.MC.SampLemmas

/-! # What a call that ends says about the sample -/

set_option linter.unusedSectionVars false
set_option linter.unusedSimpArgs false

namespace Verif.MC

variable {K : Type*} [Field K] [LinearOrder K] [IsStrictOrderedRing K] [FloorRing K] {α : Type*}
variable {items : List α} {weights : Option (List K)} {w : List K} {ord : List ℕ} {rmax : ℕ} {n : ℤ} {g g' : World} {out : List α} {S : Setup K}

theorem pickAll_map {β : Type*} (xs : List β) (idx : List ℕ) (out : List β) (h : pickAll xs idx = some out) : idx.map (fun i => xs[i]?) = out.map some := by
  induction idx generalizing out with
  | nil => simp [pickAll] at h; subst h; rfl
  | cons a idx ih =>
    simp only [pickAll, List.mapM_cons, Option.bind_eq_bind, Option.bind_eq_some_iff, Option.pure_def, Option.some.injEq] at h
    obtain ⟨x, hx, l, hl, rfl⟩ := h
    rw [List.map_cons, List.map_cons, ih l hl, hx]

theorem setRng_extra (g : World) : setRng (3 + g.extra.length) g = if g.extra = [] then ({ g with cwords := g.words }, none) else (g, some .type) := by
  unfold setRng
  cases h : g.extra with
  | nil => simp
  | cons a l => simp

theorem pickAll_nodup (xs idx out : List ℕ) (hx : xs.Nodup) (hi : idx.Nodup) (h : pickAll xs idx = some out) : out.Nodup ∧ out.length = idx.length := by
  obtain ⟨h1, h2⟩ := pickAll_some xs idx out h
  have h2 := h2 0
  subst h2
  refine ⟨?_, by simp⟩
  apply List.Nodup.map_on _ hi
  intro a ha b hb he
  rw [List.getElem?_eq_getElem (h1 a ha), List.getElem?_eq_getElem (h1 b hb)] at he
  simpa using (hx.getElem_inj_iff).1 he

/-- What a sample looks like: the entries at distinct positions. -/
def Subset (items : List α) (n : ℤ) (out : List α) : Prop :=
  ∃ idx : List ℕ, idx.Nodup ∧ (idx.length : ℤ) = n ∧ idx.map (fun i => items[i]?) = out.map some

theorem samplenr_eq (rmax : ℕ) (s : Sampler) (S : Setup K) (len : ℕ) (ord : List ℕ) (n : ℤ) (t : Option Sampler) (g : World) :
    samplenr rmax ⟨s, some (S.pf len ord n), t⟩ g =
      if n < 0 then (g, .err .value)
      else
        match S.cum.getLast? with
        | none => (g, .crash)
        | some wtot =>
          match (cumFrom Ext.add (.fin 0) (S.ratios n)).getLast? with
          | none => (g, .crash)
          | some tot =>
            match tryLoop rmax S.cum wtot (cumFrom Ext.add (.fin 0) (S.ratios n)) tot n g.cwords g.crand with
            | none => (g, .short)
            | some (ntry, sample, cw, rs) => ({ g with cwords := cw, crand := rs }, .val (ntry, sample.take n.toNat)) := by
  cases h : S.cum.getLast? with
  | none => unfold samplenr; simp only [Setup.pf, h]
  | some x => unfold samplenr; simp only [Setup.pf, h]; rfl

theorem samplenr5_eq (fuel : ℕ) (s : Sampler) (S : Setup K) (len : ℕ) (ord : List ℕ) (n : ℤ) (t : Sampler) (g : World) :
    samplenr5 fuel ⟨s, some (S.pf len ord n), some t⟩ g =
      if n < 0 then (g, .err .value)
      else
        match tryLoop5 s t ord.reverse n fuel g.cwords with
        | none => (g, .short)
        | some (ntry, sample, cw) => ({ g with cwords := cw }, .val (ntry, sample.take n.toNat)) := rfl

theorem ppsSpec_val (hgood : ∀ w, weights = some w → Sorts w ord) (hn : n ≠ items.length) (h : ppsSpec items weights ord rmax n g = (g', .val out)) :
    g.extra = [] ∧ Subset items n out ∧ g'.words = g'.cwords ∧ g'.extra = [] ∧ (∃ used, g.words = used ++ g'.words) ∧ ∃ used, g.crand = used ++ g'.crand := by
  unfold ppsSpec at h
  rw [if_neg hn, setRng_extra] at h
  by_cases he : g.extra = []
  swap
  · rw [if_neg he] at h; simp at h
  rw [if_pos he] at h
  cases weights with
  | none => simp at h
  | some w =>
    have hso := hgood w rfl
    dsimp only at h
    cases hi : initSampler w with
    | none => rw [hi] at h; simp at h
    | some s =>
      rw [hi] at h
      dsimp only at h
      cases hS : setup w ord with
      | none => rw [hS] at h; simp at h
      | some S =>
        rw [hS] at h
        dsimp only at h
        by_cases hk : S.ok items.length n
        swap
        · rw [if_neg hk] at h; simp at h
        rw [if_pos hk] at h
        rw [samplenr_eq] at h
        by_cases h0 : n < 0
        · rw [if_pos h0] at h; simp at h
        rw [if_neg h0] at h
        rcases hw : S.cum.getLast? with _ | wtot
        · rw [hw] at h; simp at h
        rw [hw] at h
        dsimp only at h
        rcases ht : (cumFrom Ext.add (.fin 0) (S.ratios n)).getLast? with _ | tot
        · rw [ht] at h; simp at h
        rw [ht] at h
        dsimp only at h
        rcases hl : tryLoop rmax S.cum wtot (cumFrom Ext.add (.fin 0) (S.ratios n)) tot n g.words g.crand with _ | ⟨ntry, sample, cw, rs⟩
        · rw [hl] at h; simp at h
        rw [hl] at h
        dsimp only at h
        rcases hp : pickAll ord.reverse (sample.take n.toNat) with _ | idx
        · rw [hp] at h; simp at h
        rw [hp] at h
        dsimp only at h
        rcases hq : pickAll items idx with _ | out'
        · rw [hq] at h; simp at h
        rw [hq] at h
        simp only [Prod.mk.injEq, Out.val.injEq] at h
        obtain ⟨rfl, rfl⟩ := h
        obtain ⟨h1, h2, ⟨u, _, hu⟩, hv, _⟩ := tryLoop_spec rmax S.cum wtot _ tot n _ _ _ le_rfl _ _ _ _ hl
        obtain ⟨h3, h4⟩ := pickAll_nodup _ _ _ (List.nodup_reverse.2 (hso.perm.nodup_iff.2 List.nodup_range)) (h1.sublist (List.take_sublist ..)) hp
        refine ⟨he, ⟨idx, h3, ?_, pickAll_map _ _ _ hq⟩, rfl, rfl, ⟨u, hu⟩, hv⟩
        rw [h4, List.length_take, h2]
        omega

theorem pps5Spec_val (fuel : ℕ) (hn : n ≠ items.length) (h : pps5Spec fuel items weights ord n g = (g', .val out)) :
    g.extra = [] ∧ Subset items n out ∧ g'.words = g'.cwords ∧ g'.extra = [] ∧ (∃ used, g.words = used ++ g'.words) ∧ g'.crand = g.crand := by
  unfold pps5Spec at h
  rw [if_neg hn, setRng_extra] at h
  by_cases he : g.extra = []
  swap
  · rw [if_neg he] at h; simp at h
  rw [if_pos he] at h
  cases weights with
  | none => simp at h
  | some w =>
    dsimp only at h
    cases hi : initSampler w with
    | none => rw [hi] at h; simp at h
    | some s =>
      rw [hi] at h
      dsimp only at h
      cases hS : setup w ord with
      | none => rw [hS] at h; simp at h
      | some S =>
        rw [hS] at h
        dsimp only at h
        by_cases hk : S.ok items.length n
        swap
        · rw [if_neg hk] at h; simp at h
        rw [if_pos hk] at h
        cases hf : (finites (S.ratios n)).bind initSampler with
        | none => rw [hf] at h; simp at h
        | some t =>
          rw [hf] at h
          dsimp only at h
          rw [samplenr5_eq] at h
          by_cases h0 : n < 0
          · rw [if_pos h0] at h; simp at h
          rw [if_neg h0] at h
          rcases hl : tryLoop5 s t ord.reverse n fuel g.words with _ | ⟨ntry, sample, cw⟩
          · rw [hl] at h; simp at h
          rw [hl] at h
          dsimp only at h
          rcases hq : pickAll items (sample.take n.toNat) with _ | out'
          · rw [hq] at h; simp at h
          rw [hq] at h
          simp only [Prod.mk.injEq, Out.val.injEq] at h
          obtain ⟨rfl, rfl⟩ := h
          obtain ⟨h1, h2, hu, _⟩ := tryLoop5_spec _ _ _ _ _ _ _ _ _ hl
          refine ⟨he, ⟨_, h1.sublist (List.take_sublist n.toNat _), ?_, pickAll_map _ _ _ hq⟩, rfl, rfl, hu, rfl⟩
          rw [List.length_take, h2]
          omega

/-! ## The draws fall inside the population -/

theorem rkDouble_le (w1 w2 : ℕ) (h1 : w1 < 2 ^ 32) (h2 : w2 < 2 ^ 32) : (0 : K) ≤ rkDouble w1 w2 ∧ rkDouble w1 w2 < (1 : K) := by
  unfold rkDouble
  have ha : w1 >>> 5 < 2 ^ 27 := by rw [Nat.shiftRight_eq_div_pow]; omega
  have hb : w2 >>> 6 < 2 ^ 26 := by rw [Nat.shiftRight_eq_div_pow]; omega
  have hc : (w1 >>> 5) * 67108864 + (w2 >>> 6) < 9007199254740992 := by omega
  refine ⟨by positivity, ?_⟩
  rw [div_lt_one (by norm_num)]
  exact_mod_cast hc

theorem findIdx_last {β : Type*} (p : β → Bool) (l : List β) (x : β) (h : l.getLast? = some x) (hx : p x = true) : l.findIdx p < l.length :=
  List.findIdx_lt_length_of_exists ⟨x, List.mem_of_getLast? h, hx⟩

theorem cumFrom_length {M : Type*} (f : M → M → M) (a : M) (l : List M) : (cumFrom f a l).length = l.length := by
  induction l generalizing a with
  | nil => rfl
  | cons x l ih => simp [cumFrom, ih]

/-- Cumulative sums of finite values. -/
theorem cumFrom_fin (a : K) (l : List K) : cumFrom Ext.add (.fin a) (l.map .fin) = (cumFrom (· + ·) a l).map .fin := by
  induction l generalizing a with
  | nil => rfl
  | cons x l ih => simp only [List.map_cons, cumFrom, Ext.add, ih]

/-- The ratios are finite and not negative for sizes below the limit. -/
theorem ratios_fin (h : Sorts w ord) (hw : ∀ x ∈ w, 0 ≤ x) (hpos : 0 < w.sum) (hS : setup w ord = some S) (hn : ∀ x ∈ w, n * x < w.sum) :
    S.ratios n = (S.sorted.map fun x => (x / w.sum) / (1 - n * (x / w.sum))).map .fin ∧ ∀ x ∈ S.sorted, 0 ≤ (x / w.sum) / (1 - n * (x / w.sum)) := by
  obtain ⟨S', hS', h1, h2, h3, h4, h5, _⟩ := setup_eq h (by rintro rfl; simp at hpos)
  rw [hS, Option.some.injEq] at hS'
  subst hS'
  have hden : ∀ x ∈ S.sorted, 0 < 1 - (n : K) * (x / w.sum) := by
    intro x hx
    have := hn x (h2.mem_iff.1 hx)
    have : (n : K) * (x / w.sum) < 1 := by rw [← mul_div_assoc, div_lt_one hpos]; exact this
    linarith
  refine ⟨?_, fun x hx => div_nonneg (div_nonneg (hw x (h2.mem_iff.1 hx)) hpos.le) (hden x hx).le⟩
  unfold Setup.ratios
  rw [List.map_map]
  apply List.map_congr_left
  intro x hx
  unfold ratio
  rw [h1, if_neg (hden x hx).ne']
  rfl

theorem sorted_length (h : Sorts w ord) (hS : setup w ord = some S) : S.sorted.length = w.length := by
  rw [setup_len hS, h.perm.length_eq, List.length_range]

/-- The size is not refused. -/
theorem ok_of (h : Sorts w ord) (hpos : 0 < w.sum) (hS : setup w ord = some S) (hn : ∀ x ∈ w, n * x ≤ w.sum) (hlen : n < w.length) : S.ok w.length n := by
  obtain ⟨S', hS', h1, h2, h3, h4, h5, _⟩ := setup_eq h (by rintro rfl; simp at hpos)
  rw [hS, Option.some.injEq] at hS'
  subst hS'
  refine ⟨by omega, ?_, by rw [sorted_length h hS]; omega⟩
  rw [h1, not_lt, ← mul_div_assoc, div_le_one hpos]
  exact hn _ (h2.mem_iff.1 h4)

/-- The size is refused. -/
theorem ok_not (h : Sorts w ord) (hpos : 0 < w.sum) (hS : setup w ord = some S) (hn : (∃ x ∈ w, n * x > w.sum) ∨ n ≥ w.length) (h0 : 0 ≤ n) : ¬ S.ok w.length n := by
  obtain ⟨S', hS', h1, h2, h3, h4, h5, _⟩ := setup_eq h (by rintro rfl; simp at hpos)
  rw [hS, Option.some.injEq] at hS'
  subst hS'
  rintro ⟨ha, hb, hc⟩
  rcases hn with ⟨x, hx, hn⟩ | hn
  · apply hb
    rw [h1, ← mul_div_assoc, gt_iff_lt, one_lt_div hpos]
    have := h3 x (h2.mem_iff.2 hx)
    have hn0 : (0 : K) ≤ n := by exact_mod_cast h0
    nlinarith
  · rw [sorted_length h hS] at hc
    omega

/-- A call for a size below the limit gives a sample, unless the numbers run out. -/
theorem ppsSpec_total (h : Sorts w ord) (hw : ∀ x ∈ w, 0 ≤ x) (hpos : 0 < w.sum) (hl : items.length = w.length) (hn0 : 0 ≤ n) (hlen : n < w.length)
    (hn : ∀ x ∈ w, n * x < w.sum) (he : g.extra = []) (hwords : ∀ x ∈ g.words, x < 2 ^ 32) (hr : ∀ r ∈ g.crand, r ≤ rmax) :
    (ppsSpec items (some w) ord rmax n g).2 = .short ∨ ∃ out, (ppsSpec items (some w) ord rmax n g).2 = .val out := by
  have hwne : w ≠ [] := by rintro rfl; simp at hpos
  obtain ⟨s, hs⟩ := initSampler_isSome w hpos
  obtain ⟨S, hS, h1, h2, h3, h4, h5, h6, _⟩ := setup_eq h hwne
  have hok := ok_of (n := n) h hpos hS (fun x hx => (hn x hx).le) hlen
  obtain ⟨hr1, hr2⟩ := ratios_fin h hw hpos hS hn
  have hsl := sorted_length h hS
  have hsne : S.sorted ≠ [] := by intro hh; rw [hh] at hsl; simp at hsl; exact hwne (List.length_eq_zero_iff.1 hsl.symm)
  unfold ppsSpec
  rw [if_neg (by rw [hl]; omega), setRng_extra, if_pos he]
  dsimp only
  rw [hs]; dsimp only
  rw [hS]; dsimp only
  rw [if_pos (by rw [hl]; exact hok)]
  rw [samplenr_eq]
  rw [if_neg (by omega)]
  have hcw : S.cum.getLast? = some w.sum := by rw [h6, cumFrom_getLast _ _ hsne, zero_add, ← h1, h1, h2.sum_eq]
  rw [hcw]; dsimp only
  rw [hr1, cumFrom_fin]
  set ys := S.sorted.map fun x => (x / w.sum) / (1 - n * (x / w.sum)) with hys
  have hyne : ys ≠ [] := by simpa [hys] using hsne
  have hct : ((cumFrom (· + ·) 0 ys).map Ext.fin).getLast? = some (Ext.fin ys.sum) := by
    rw [List.getLast?_map, cumFrom_getLast _ _ hyne, zero_add]; rfl
  rw [hct]; dsimp only
  rcases ht : tryLoop rmax S.cum w.sum ((cumFrom (· + ·) 0 ys).map Ext.fin) (Ext.fin ys.sum) n g.words g.crand with _ | ⟨ntry, sample, cw, rs⟩
  · left; rfl
  right
  dsimp only
  obtain ⟨_, _, _, _, hin⟩ := tryLoop_spec rmax S.cum w.sum _ _ n _ _ _ le_rfl _ _ _ _ ht
  have hrange : ∀ i ∈ sample, i < w.length := by
    intro i hi
    rcases hin i hi with ⟨a, ha, b, hb, rfl⟩ | ⟨r, hr', rfl⟩
    · have := findIdx_last (fun c => decide (w.sum * rkDouble a b ≤ c)) S.cum w.sum hcw (by
        have := rkDouble_le (K := K) a b (hwords a ha) (hwords b hb)
        simp only [decide_eq_true_eq]
        nlinarith)
      rw [h6, cumFrom_length, hsl, ← h6] at this
      exact this
    · have := findIdx_last (Ext.le (rval rmax (Ext.fin ys.sum) r)) _ _ hct (by
        have h7 : 0 ≤ ys.sum := List.sum_nonneg (by
          intro y hy
          rw [hys, List.mem_map] at hy
          obtain ⟨x, hx, rfl⟩ := hy
          exact hr2 x hx)
        have h8 : (r : K) ≤ rmax := by exact_mod_cast hr r hr'
        have h9 : (0 : K) ≤ rmax := Nat.cast_nonneg _
        simp only [rval, Ext.le, decide_eq_true_eq]
        rw [div_le_iff₀ (by linarith)]
        nlinarith)
      rw [List.length_map, cumFrom_length, hys, List.length_map, hsl] at this
      exact this
  have hol : ord.length = w.length := by rw [h.perm.length_eq, List.length_range]
  have hp := pickAll_eq 0 ord.reverse (sample.take n.toNat) (by
    intro i hi
    rw [List.length_reverse, hol]
    exact hrange i (List.mem_of_mem_take hi))
  rw [hp]
  dsimp only
  cases items with
  | nil => simp at hl; omega
  | cons d its =>
    rw [pickAll_eq d (d :: its) _ (by
      intro i hi
      rw [List.mem_map] at hi
      obtain ⟨j, hj, rfl⟩ := hi
      have hj' : j < ord.reverse.length := by rw [List.length_reverse, hol]; exact hrange j (List.mem_of_mem_take hj)
      rw [List.getElem?_eq_getElem hj', Option.getD_some, hl]
      have := (h.perm.mem_iff).1 (List.mem_reverse.1 (List.getElem_mem hj'))
      simpa using this)]
    exact ⟨_, rfl⟩

/-- The same for `subset_pps5`. -/
theorem pps5Spec_total (fuel : ℕ) (h : Sorts w ord) (hw : ∀ x ∈ w, 0 ≤ x) (hpos : 0 < w.sum) (hl : items.length = w.length) (hn0 : 0 ≤ n) (hlen : n < w.length)
    (hn : ∀ x ∈ w, n * x < w.sum) (he : g.extra = []) :
    (pps5Spec fuel items (some w) ord n g).2 = .short ∨ ∃ out, (pps5Spec fuel items (some w) ord n g).2 = .val out := by
  have hwne : w ≠ [] := by rintro rfl; simp at hpos
  obtain ⟨s, hs⟩ := initSampler_isSome w hpos
  obtain ⟨S, hS, h1, h2, h3, h4, h5, h6, _⟩ := setup_eq h hwne
  have hok := ok_of (n := n) h hpos hS (fun x hx => (hn x hx).le) hlen
  obtain ⟨hr1, hr2⟩ := ratios_fin h hw hpos hS hn
  have hsl := sorted_length h hS
  have htab : ∃ t, (finites (S.ratios n)).bind initSampler = some t := by
    rcases tables_some h hw hpos hS hok with h7 | ⟨xs, t, h7, h8⟩
    · exfalso
      rw [hr1] at h7
      have : ∀ l : List K, finites (l.map Ext.fin) = some l := by
        intro l
        induction l with
        | nil => rfl
        | cons a l ih => simp [finites, ih]
      rw [this] at h7
      cases h7
    · exact ⟨t, by rw [h7]; exact h8⟩
  obtain ⟨t, ht⟩ := htab
  unfold pps5Spec
  rw [if_neg (by rw [hl]; omega), setRng_extra, if_pos he]
  dsimp only
  rw [hs]; dsimp only
  rw [hS]; dsimp only
  rw [if_pos (by rw [hl]; exact hok), ht]
  dsimp only
  rw [samplenr5_eq]
  rw [if_neg (by omega)]
  rcases ht5 : tryLoop5 s t ord.reverse n fuel g.words with _ | ⟨ntry, sample, cw⟩
  · left; rfl
  right
  dsimp only
  obtain ⟨_, _, _, hin⟩ := tryLoop5_spec _ _ _ _ _ _ _ _ _ ht5
  cases items with
  | nil => simp at hl; omega
  | cons d its =>
    rw [pickAll_eq d (d :: its) _ (by
      intro i hi
      rw [hl]
      rcases hin i (List.mem_of_mem_take hi) with h7 | ⟨a, b, h7⟩
      · have := (h.perm.mem_iff).1 (List.mem_reverse.1 h7)
        simpa using this
      · exact dran_lt w s hs a i b h7)]
    exact ⟨_, rfl⟩

/-- Sizes above the limit are refused. -/
theorem ppsSpec_refused (h : Sorts w ord) (hpos : 0 < w.sum) (hl : items.length = w.length) (h0 : 0 ≤ n) (hne : n ≠ items.length)
    (hn : (∃ x ∈ w, n * x > w.sum) ∨ n > w.length) (he : g.extra = []) (fuel : ℕ) :
    (ppsSpec items (some w) ord rmax n g).2 = .err .value ∧ (pps5Spec fuel items (some w) ord n g).2 = .err .value := by
  have hwne : w ≠ [] := by rintro rfl; simp at hpos
  obtain ⟨s, hs⟩ := initSampler_isSome w hpos
  obtain ⟨S, hS, _⟩ := setup_eq h hwne
  have hok := ok_not (n := n) h hpos hS (by rcases hn with hn | hn <;> [left; right] <;> [exact hn; omega]) h0
  unfold ppsSpec pps5Spec
  rw [if_neg hne, setRng_extra, if_pos he]
  dsimp only
  rw [hs]; dsimp only
  rw [hS]; dsimp only
  rw [if_neg (by rw [hl]; exact hok)]
  simp only [if_neg (by rw [hl]; exact hok : ¬ S.ok items.length n)]
  exact ⟨trivial, by rw [if_neg hne]⟩

/-! ## The size at the limit -/

theorem ratioLoop_inf (rmax : ℕ) (cr : List (Ext K)) (n : ℕ) (sample rs : List ℕ) (hrs : ∀ r ∈ rs, r ≠ 0) :
    ratioLoop rmax (Ext.inf :: cr) .inf (n + 2) sample rs = none ∨ ∃ o rest, ratioLoop rmax (Ext.inf :: cr) .inf (n + 2) sample rs = some (o, true, rest) ∧ ∀ r ∈ rest, r ≠ 0 := by
  have hidx : ∀ r : ℕ, r ≠ 0 → (Ext.inf :: cr).findIdx (Ext.le (rval rmax .inf r)) = 0 := by
    intro r hr
    simp [rval, hr, List.findIdx_cons, Ext.le]
  cases rs with
  | nil => left; simp [ratioLoop]
  | cons r rs =>
    have hr := hrs r (by simp)
    unfold ratioLoop
    simp only [hidx r hr]
    split_ifs with h
    · right; exact ⟨_, _, rfl, fun x hx => hrs x (by simp [hx])⟩
    · cases rs with
      | nil => left; simp [ratioLoop]
      | cons r' rs =>
        have hr' := hrs r' (by simp)
        unfold ratioLoop
        simp only [hidx r' hr']
        rw [if_pos (by simp)]
        right; exact ⟨_, _, rfl, fun x hx => hrs x (by simp [hx])⟩

theorem tryLoop_inf (rmax : ℕ) (cw : List K) (wtot : K) (cr : List (Ext K)) (n : ℤ) (hn : 3 ≤ n) (k : ℕ) :
    ∀ (ws rs : List ℕ), ws.length ≤ k → (∀ r ∈ rs, r ≠ 0) → tryLoop rmax cw wtot (Ext.inf :: cr) .inf n ws rs = none := by
  obtain ⟨m, hm⟩ : ∃ m : ℕ, (n - 1).toNat = m + 2 := ⟨(n - 3).toNat, by omega⟩
  induction k with
  | zero =>
    intro ws rs hl hrs
    have : ws = [] := List.length_eq_zero_iff.1 (by omega)
    subst this
    simp [tryLoop]
  | succ k ih =>
    intro ws rs hl hrs
    match ws, hl with
    | [], _ => simp [tryLoop]
    | [w], _ => simp [tryLoop]
    | w1 :: w2 :: ws, hl =>
      unfold tryLoop
      dsimp only
      rw [hm]
      rcases ratioLoop_inf rmax cr m [cw.findIdx (fun c => decide (wtot * rkDouble w1 w2 ≤ c))] rs hrs with h | ⟨o, rest, h, hrest⟩
      · rw [h]
      · rw [h]
        dsimp only
        rw [ih ws rest (by simp at hl; omega) hrest]

theorem cumFrom_inf (l : List (Ext K)) : cumFrom Ext.add .inf l = l.map fun _ => .inf := by
  induction l with
  | nil => rfl
  | cons a l ih => simp [cumFrom, Ext.add, ih]

/-- A call for the size at the limit never ends. -/
theorem ppsSpec_limit (h : Sorts w ord) (hpos : 0 < w.sum) (hl : items.length = w.length) (hn3 : 3 ≤ n) (hlen : n < w.length)
    (hn : ∀ x ∈ w, n * x ≤ w.sum) (hx : ∃ x ∈ w, n * x = w.sum) (he : g.extra = []) (hr : ∀ r ∈ g.crand, r ≠ 0) :
    (ppsSpec items (some w) ord rmax n g).2 = .short := by
  have hwne : w ≠ [] := by rintro rfl; simp at hpos
  obtain ⟨s, hs⟩ := initSampler_isSome w hpos
  obtain ⟨S, hS, h1, h2, h3, h4, h5, h6, h7⟩ := setup_eq h hwne
  have hok := ok_of (n := n) h hpos hS hn hlen
  have hbig : (n : K) * S.big = w.sum := by
    obtain ⟨x, hx, hxe⟩ := hx
    have ha := hn S.big (h2.mem_iff.1 h4)
    have hb := h3 x (h2.mem_iff.2 hx)
    have hc : (0 : K) < n := by exact_mod_cast (by omega : 0 < n)
    nlinarith
  obtain ⟨tl, htl⟩ : ∃ tl, S.sorted = S.big :: tl := by
    cases hh : S.sorted with
    | nil => rw [hh] at h7; simp at h7
    | cons a l => rw [hh] at h7; simp at h7; exact ⟨l, by rw [h7]⟩
  have hrat : cumFrom Ext.add (.fin 0) (S.ratios n) = Ext.inf :: ((tl.map (ratio n S.tot)).map fun _ => .inf) := by
    unfold Setup.ratios
    rw [htl, List.map_cons]
    have : ratio n S.tot S.big = .inf := by
      unfold ratio
      rw [if_pos]
      rw [h1, ← mul_div_assoc, hbig, div_self hpos.ne', sub_self]
    rw [this, cumFrom]
    simp only [Ext.add]
    rw [cumFrom_inf]
  unfold ppsSpec
  rw [if_neg (by rw [hl]; omega), setRng_extra, if_pos he]
  dsimp only
  rw [hs]; dsimp only
  rw [hS]; dsimp only
  rw [if_pos (by rw [hl]; exact hok), samplenr_eq, if_neg (by omega)]
  have hcw : S.cum.getLast? = some w.sum := by
    rw [h6, cumFrom_getLast _ _ (by rw [htl]; simp), zero_add, h2.sum_eq]
  rw [hcw]; dsimp only
  rw [hrat]
  have hlast : (Ext.inf :: ((tl.map (ratio n S.tot)).map fun _ => (Ext.inf : Ext K))).getLast? = some .inf := by
    have : ∀ l : List (Ext K), (Ext.inf :: (l.map fun _ => (Ext.inf : Ext K))).getLast? = some .inf := by
      intro l
      induction l with
      | nil => rfl
      | cons a l ih => rw [List.map_cons, List.getLast?_cons_cons, ih]
    exact this _
  rw [hlast]
  dsimp only
  rw [tryLoop_inf rmax S.cum w.sum _ n hn3 _ _ _ le_rfl hr]

end Verif.MC
